import Verif.Props.Memory

/-!
# C57: how many innermost states a chart allows together

The bound of C57 on the number of list nodes, computed from the chart.
-/

namespace SC
open Spec Chart

namespace Spec

/-- The states that lie directly in region `i` of `s`. -/
def members (C : Chart) (s : Sid) (i : Nat) : List Sid := (List.range C.n).filter fun c => decide (C.parent c = some s) && decide (C.pos c = i)

/-- The greatest of some numbers, 0 if there are none. -/
def greatest (l : List Nat) : Nat := l.foldr max 0

/-- How many innermost states there can be in `s`: one if `s` is one, and otherwise in each region as many as in the state with most of them. The first argument bounds the nesting. -/
def widthIn (C : Chart) : Nat → Sid → Nat
  | 0, _ => 1
  | f + 1, s => if C.isLeaf s then 1 else ((List.range (C.init s).length).map fun i => greatest ((members C s i).map (widthIn C f))).sum

/-- How many innermost states the chart allows together. -/
def width (C : Chart) : Nat := greatest (((List.range C.n).filter fun s => decide (C.parent s = none)).map (widthIn C C.n))

theorem le_greatest {l : List Nat} {x : Nat} (h : x ∈ l) : x ≤ greatest l := by
  induction l with
  | nil => cases h
  | cons a l ih =>
    unfold greatest at ih ⊢
    rw [List.foldr_cons]
    rcases List.mem_cons.1 h with rfl | h
    · exact Nat.le_max_left ..
    · exact Nat.le_trans (ih h) (Nat.le_max_right ..)

theorem greatest_mem {l : List Nat} (h : l ≠ []) : greatest l ∈ l := by
  induction l with
  | nil => exact absurd rfl h
  | cons a l ih =>
    by_cases hl : l = []
    · subst hl
      simp [greatest]
    · have := ih hl
      unfold greatest at this ⊢
      rw [List.foldr_cons]
      by_cases h' : a ≤ l.foldr max 0
      · rw [Nat.max_eq_right h']; exact List.mem_cons_of_mem _ this
      · rw [Nat.max_eq_left (by omega)]; exact List.mem_cons_self

theorem mem_members {C : Chart} {s c : Sid} {i : Nat} : c ∈ members C s i ↔ c < C.n ∧ C.parent c = some s ∧ C.pos c = i := by
  simp [members]

/-- A state below `s` is `s` or below a direct inner state of `s`. -/
theorem Below.split {C : Chart} {s x : Sid} (h : Below C s x) : x = s ∨ ∃ c, C.parent c = some s ∧ Below C c x := by
  induction h with
  | refl => exact .inl rfl
  | @step x p hp h ih =>
    rcases ih with rfl | ⟨c, h1, h2⟩
    · exact .inr ⟨x, hp, .refl⟩
    · exact .inr ⟨c, h1, .step hp h2⟩

theorem Forest.up {C : Chart} {act : Sid → Bool} (h : Forest C act) {s x : Sid} (hb : Below C s x) (hx : act x = true) : act s = true := by
  induction hb with
  | refl => exact hx
  | @step x p hp _ ih => exact ih (h.outer x p hx hp)

theorem Below.root {C : Chart} (hwf : C.WF) : ∀ {x : Sid}, x < C.n → ∃ r, r < C.n ∧ C.parent r = none ∧ Below C r x := by
  intro x
  induction x using Nat.strongRecOn with
  | _ x ih =>
    intro hx
    cases hp : C.parent x with
    | none => exact ⟨x, hx, hp, .refl⟩
    | some p =>
      have hlt := hwf.parent_lt hx hp
      obtain ⟨r, h1, h2, h3⟩ := ih p hlt (Nat.lt_trans hlt hx)
      exact ⟨r, h1, h2, .step hp h3⟩

variable {C : Chart} {act : Sid → Bool}

/-- The innermost states in `s` that are active together. -/
theorem leaves_below (hwf : C.WF) (h : Forest C act) : ∀ (f : Nat) (s : Sid), C.n - s ≤ f → act s = true →
    ∃ l : List Sid, l.length ≤ widthIn C f s ∧ ∀ x, act x = true → C.isLeaf x = true → Below C s x → x ∈ l
  | 0, s, hf, hs => by
    have := h.bound s hs
    omega
  | f + 1, s, hf, hs => by
    have hn := h.bound s hs
    unfold widthIn
    by_cases hl : C.isLeaf s = true
    · rw [if_pos hl]
      refine ⟨[s], Nat.le_refl _, fun x hx _ hb => ?_⟩
      rcases hb.split with rfl | ⟨c, h1, h2⟩
      · exact List.mem_singleton.2 rfl
      · have := hwf.pos_lt (h.bound c (h.up h2 hx))
        rw [h1] at this
        have h0 : C.init s = [] := List.isEmpty_iff.1 hl
        simp [regions, h0] at this
    · rw [if_neg hl]
      have regs : ∀ L : List Nat, ∃ l : List Sid, l.length ≤ (L.map fun i => greatest ((members C s i).map (widthIn C f))).sum ∧
          ∀ c, act c = true → C.parent c = some s → C.pos c ∈ L → ∀ x, act x = true → C.isLeaf x = true → Below C c x → x ∈ l := by
        intro L
        induction L with
        | nil => exact ⟨[], Nat.zero_le _, fun _ _ _ h => by cases h⟩
        | cons i L ih =>
          obtain ⟨l, h1, h2⟩ := ih
          by_cases hc : ∃ c, act c = true ∧ C.parent c = some s ∧ C.pos c = i
          · obtain ⟨c, c1, c2, c3⟩ := hc
            have cn := h.bound c c1
            have hlt := hwf.parent_lt cn c2
            obtain ⟨l', h3, h4⟩ := leaves_below hwf h f c (by omega) c1
            refine ⟨l' ++ l, ?_, fun d d1 d2 d3 x x1 x2 x3 => ?_⟩
            · rw [List.length_append, List.map_cons, List.sum_cons]
              exact Nat.add_le_add (Nat.le_trans h3 (le_greatest (List.mem_map.2 ⟨c, mem_members.2 ⟨cn, c2, c3⟩, rfl⟩))) h1
            · rcases List.mem_cons.1 d3 with d3 | d3
              · obtain rfl := h.region d c d1 c1 (d2.trans c2.symm) (d3.trans c3.symm)
                exact List.mem_append_left _ (h4 x x1 x2 x3)
              · exact List.mem_append_right _ (h2 d d1 d2 d3 x x1 x2 x3)
          · refine ⟨l, ?_, fun d d1 d2 d3 x x1 x2 x3 => ?_⟩
            · rw [List.map_cons, List.sum_cons]
              omega
            · rcases List.mem_cons.1 d3 with d3 | d3
              · exact absurd ⟨d, d1, d2, d3⟩ hc
              · exact h2 d d1 d2 d3 x x1 x2 x3
      obtain ⟨l, h1, h2⟩ := regs (List.range (C.init s).length)
      refine ⟨l, h1, fun x x1 x2 x3 => ?_⟩
      rcases x3.split with rfl | ⟨c, c1, c2⟩
      · exact absurd x2 hl
      · have ca := h.up c2 x1
        have := hwf.pos_lt (h.bound c ca)
        rw [c1] at this
        exact h2 c ca c1 (List.mem_range.2 this) x x1 x2 c2

/-- Objects that can exist together contain at most `width C` innermost states. -/
theorem crowd_le (hwf : C.WF) (h : Forest C act) : crowd C act ≤ width C := by
  by_cases hx : ∃ x, act x = true
  · obtain ⟨x, hx⟩ := hx
    obtain ⟨r, h1, h2, h3⟩ := Below.root hwf (h.bound x hx)
    have hr := h.up h3 hx
    obtain ⟨l, h4, h5⟩ := leaves_below hwf h C.n r (Nat.sub_le ..) hr
    refine Nat.le_trans ?_ (Nat.le_trans h4 (le_greatest (List.mem_map.2 ⟨r, by simp [h1, h2], rfl⟩)))
    refine nodup_length (List.nodup_range.filter _) fun y hy => ?_
    have hy' := (List.mem_filter.1 hy).2
    rw [Bool.and_eq_true] at hy'
    refine h5 y hy'.1 hy'.2 ?_
    obtain ⟨q, q1, q2, q3⟩ := Below.root hwf (h.bound y hy'.1)
    have hq := h.up q3 hy'.1
    have p1 := hwf.pos_lt q1
    have p2 := hwf.pos_lt h1
    rw [q2] at p1
    rw [h2] at p2
    simp only [regions] at p1 p2
    rw [h.region r q hr hq (h2.trans q2.symm) (by omega)]
    exact q3
  · have : crowd C act = 0 := by
      unfold crowd
      rw [List.length_eq_zero_iff, List.filter_eq_nil_iff]
      intro y _ hy
      rw [Bool.and_eq_true] at hy
      exact hx ⟨y, hy.1⟩
    omega

/-- A state is in one direct inner state of `s` only. -/
theorem Below.child_unique (hwf : C.WF) {s c d x : Sid} (hc : C.parent c = some s) (hd : C.parent d = some s) (hn : d < C.n) (h1 : Below C c x) : x < C.n → Below C d x → c = d := by
  induction h1 with
  | refl =>
    intro hx h2
    cases h2 with
    | refl => rfl
    | step hp h2 =>
      rw [hc] at hp
      cases hp
      have h3 := hwf.parent_lt hx hc
      have h4 := h2.le hwf (Nat.lt_trans h3 hx)
      have := hwf.parent_lt hn hd
      omega
  | @step x p hp h1 ih =>
    intro hx h2
    have h3 := hwf.parent_lt hx hp
    cases h2 with
    | refl =>
      rw [hd] at hp
      cases hp
      have h4 := h1.le hwf (Nat.lt_trans h3 hx)
      have h5 := hwf.parent_lt (Nat.lt_of_le_of_lt h4 (Nat.lt_trans h3 hx)) hc
      omega
    | step hp' h2 =>
      rw [hp] at hp'
      cases hp'
      exact ih (Nat.lt_trans h3 hx) h2

/-- States in different regions of `s` do not share a region. -/
theorem Below.apart (hwf : C.WF) {s c d x y : Sid} (hc : C.parent c = some s) (hd : C.parent d = some s) (hp : C.pos c ≠ C.pos d) (h1 : Below C c x) (h2 : Below C d y)
    (hx : x < C.n) (hy : y < C.n) (he : C.parent x = C.parent y) (hpos : C.pos x = C.pos y) : False := by
  have cn := Nat.lt_of_le_of_lt (h1.le hwf hx) hx
  have dn := Nat.lt_of_le_of_lt (h2.le hwf hy) hy
  have lc := hwf.parent_lt cn hc
  have ld := hwf.parent_lt dn hd
  cases h1 with
  | refl =>
    cases h2 with
    | refl => exact hp hpos
    | step hq h2 =>
      rw [← he, hc] at hq
      cases hq
      have := h2.le hwf (by omega)
      omega
  | step hq h1 =>
    have lq := hwf.parent_lt hx hq
    cases h2 with
    | refl =>
      rw [he, hd] at hq
      cases hq
      have := h1.le hwf (by omega)
      omega
    | step hr h2 =>
      rw [← he, hq] at hr
      cases hr
      exact hp (congrArg C.pos (Below.child_unique hwf hc hd dn h1 (by omega) h2))

/-- States in `s` that can exist together with `widthIn C f s` innermost states among them. -/
theorem full_below (hwf : C.WF) : ∀ (f : Nat) (s : Sid), s < C.n → C.n - s ≤ f →
    ∃ act : Sid → Prop, act s ∧ (∀ x, act x → x < C.n ∧ Below C s x) ∧ (∀ x p, act x → C.parent x = some p → x = s ∨ act p) ∧
      (∀ x y, act x → act y → C.parent x = C.parent y → C.pos x = C.pos y → x = y) ∧
      ∃ l : List Sid, l.Nodup ∧ l.length = widthIn C f s ∧ ∀ x ∈ l, act x ∧ C.isLeaf x = true
  | 0, s, hn, hf => by omega
  | f + 1, s, hn, hf => by
    unfold widthIn
    by_cases hl : C.isLeaf s = true
    · rw [if_pos hl]
      refine ⟨fun x => x = s, rfl, ?_, fun x _ hx _ => .inl hx, fun x y hx hy _ _ => hx.trans hy.symm, [s], by simp, rfl, ?_⟩
      · rintro x rfl
        exact ⟨hn, .refl⟩
      · intro x hx
        obtain rfl := List.mem_singleton.1 hx
        exact ⟨rfl, hl⟩
    · rw [if_neg hl]
      have regs : ∀ L : List Nat, L.Nodup → (∀ i ∈ L, i < (C.init s).length) → ∃ act : Sid → Prop,
          (∀ x, act x → x < C.n ∧ ∃ c, C.parent c = some s ∧ C.pos c ∈ L ∧ Below C c x) ∧ (∀ x p, act x → C.parent x = some p → p = s ∨ act p) ∧
          (∀ x y, act x → act y → C.parent x = C.parent y → C.pos x = C.pos y → x = y) ∧
          ∃ l : List Sid, l.Nodup ∧ l.length = (L.map fun i => greatest ((members C s i).map (widthIn C f))).sum ∧ ∀ x ∈ l, act x ∧ C.isLeaf x = true := by
        intro L
        induction L with
        | nil => exact fun _ _ => ⟨fun _ => False, fun _ h => h.elim, fun _ _ h => h.elim, fun _ _ h => h.elim, [], .nil, rfl, fun _ h => by cases h⟩
        | cons i L ih =>
          intro hnd hL
          obtain ⟨hi, hnd⟩ := List.nodup_cons.1 hnd
          obtain ⟨act, a1, a2, a3, l, l1, l2, l3⟩ := ih hnd fun j hj => hL j (List.mem_cons_of_mem _ hj)
          have hi' := hL i List.mem_cons_self
          have hne : (members C s i).map (widthIn C f) ≠ [] := by
            obtain ⟨t1, t2, t3⟩ := hwf.init_ok hn (List.getElem?_eq_getElem hi')
            intro h
            have := List.map_eq_nil_iff.1 h
            rw [List.eq_nil_iff_forall_not_mem] at this
            exact this _ (mem_members.2 ⟨t1, t2, t3⟩)
          obtain ⟨c, c1, c2⟩ := List.mem_map.1 (greatest_mem hne)
          obtain ⟨cn, cp, ci⟩ := mem_members.1 c1
          have lc := hwf.parent_lt cn cp
          obtain ⟨act', b1, b2, b3, b4, l', k1, k2, k3⟩ := full_below hwf f c cn (by omega)
          have apart : ∀ x y, act' x → act y → C.parent x = C.parent y → C.pos x = C.pos y → False := by
            intro x y hx hy he hpos
            obtain ⟨y1, d, d1, d2, d3⟩ := a1 y hy
            obtain ⟨x1, x2⟩ := b2 x hx
            exact Below.apart hwf cp d1 (by rw [ci]; rintro rfl; exact hi d2) x2 d3 x1 y1 he hpos
          refine ⟨fun x => act' x ∨ act x, ?_, ?_, ?_, l' ++ l, ?_, ?_, ?_⟩
          · rintro x (hx | hx)
            · exact ⟨(b2 x hx).1, c, cp, ci ▸ List.mem_cons_self, (b2 x hx).2⟩
            · obtain ⟨x1, d, d1, d2, d3⟩ := a1 x hx
              exact ⟨x1, d, d1, List.mem_cons_of_mem _ d2, d3⟩
          · rintro x p (hx | hx) hp
            · rcases b3 x p hx hp with rfl | h
              · rw [cp] at hp
                cases hp
                exact .inl rfl
              · exact .inr (.inl h)
            · rcases a2 x p hx hp with h | h
              · exact .inl h
              · exact .inr (.inr h)
          · rintro x y (hx | hx) (hy | hy) he hpos
            · exact b4 x y hx hy he hpos
            · exact (apart x y hx hy he hpos).elim
            · exact (apart y x hy hx he.symm hpos.symm).elim
            · exact a3 x y hx hy he hpos
          · refine List.nodup_append.2 ⟨k1, l1, ?_⟩
            rintro x hx y hy rfl
            exact apart x x (k3 x hx).1 (l3 x hy).1 rfl rfl
          · rw [List.length_append, List.map_cons, List.sum_cons, l2, k2, c2]
          · intro x hx
            rcases List.mem_append.1 hx with hx | hx
            · exact ⟨.inl (k3 x hx).1, (k3 x hx).2⟩
            · exact ⟨.inr (l3 x hx).1, (l3 x hx).2⟩
      obtain ⟨act, a1, a2, a3, l, l1, l2, l3⟩ := regs (List.range (C.init s).length) List.nodup_range fun i hi => List.mem_range.1 hi
      have inner : ∀ y, act y → C.parent y = C.parent s → False := by
        intro y hy he
        obtain ⟨y1, d, d1, _, d3⟩ := a1 y hy
        have dn := Nat.lt_of_le_of_lt (d3.le hwf y1) y1
        have ld := hwf.parent_lt dn d1
        cases d3 with
        | refl =>
          rw [d1] at he
          have := hwf.parent_lt hn he.symm
          omega
        | step hp h =>
          rw [he] at hp
          have lp := hwf.parent_lt hn hp
          have := h.le hwf (by omega)
          omega
      refine ⟨fun x => x = s ∨ act x, .inl rfl, ?_, ?_, ?_, l, l1, l2, fun x hx => ⟨.inr (l3 x hx).1, (l3 x hx).2⟩⟩
      · rintro x (rfl | hx)
        · exact ⟨hn, .refl⟩
        · obtain ⟨x1, d, d1, _, d3⟩ := a1 x hx
          refine ⟨x1, ?_⟩
          clear x1 hx
          induction d3 with
          | refl => exact .step d1 .refl
          | step hp _ ih => exact .step hp ih
      · rintro x p (hx | hx) hp
        · exact .inl hx
        · exact .inr (a2 x p hx hp)
      · rintro x y (rfl | hx) (rfl | hy) he hpos
        · rfl
        · exact (inner y hy he.symm).elim
        · exact (inner x hx he).elim
        · exact a3 x y hx hy he hpos

/-- The chart allows so many innermost states. -/
theorem crowd_eq (hwf : C.WF) : ∃ act, Forest C act ∧ crowd C act = width C := by
  have hne : ((List.range C.n).filter fun s => decide (C.parent s = none)).map (widthIn C C.n) ≠ [] := by
    intro h
    have := List.map_eq_nil_iff.1 h
    rw [List.eq_nil_iff_forall_not_mem] at this
    exact this C.initial (by simp [hwf.initial_ok])
  obtain ⟨r, r1, r2⟩ := List.mem_map.1 (greatest_mem hne)
  simp only [List.mem_filter, List.mem_range, decide_eq_true_eq] at r1
  obtain ⟨act, a1, a2, a3, a4, l, l1, l2, l3⟩ := full_below hwf C.n r r1.1 (Nat.sub_le ..)
  classical
  have hf : Forest C fun x => decide (act x) := by
    refine ⟨fun x hx => (a2 x (of_decide_eq_true hx)).1, fun x p hx hp => ?_, fun x y hx hy => a4 x y (of_decide_eq_true hx) (of_decide_eq_true hy)⟩
    rcases a3 x p (of_decide_eq_true hx) hp with rfl | h
    · rw [r1.2] at hp; cases hp
    · exact decide_eq_true h
  refine ⟨_, hf, Nat.le_antisymm (crowd_le hwf hf) ?_⟩
  unfold width
  rw [← r2, ← l2]
  refine nodup_length l1 fun x hx => ?_
  rw [List.mem_filter, List.mem_range, Bool.and_eq_true]
  exact ⟨(a2 x (l3 x hx).1).1, decide_eq_true (l3 x hx).1, (l3 x hx).2⟩

end Spec

variable {W : Type} {P : Prog W} {m : Mach W}

/-- **C57.** However long the machine runs, the list has at most as many nodes as the chart allows innermost states together. -/
theorem C57_width (hwf : P.toChart.WF) (hok : Contract P) (h : Visible P m) : m.len ≤ width P.toChart :=
  C57_bound hwf hok h fun _ hf => crowd_le hwf hf

/-- `width` is not larger than necessary: it is the greatest number of innermost states that can exist together. -/
theorem C57_width_exact {C : Chart} (hwf : C.WF) : (∀ act, Forest C act → crowd C act ≤ width C) ∧ ∃ act, Forest C act ∧ crowd C act = width C :=
  ⟨fun _ hf => crowd_le hwf hf, crowd_eq hwf⟩

end SC

namespace SC.Ex
open Spec

/-- Two regions, in one of them a state with a region inside. -/
example : width prog.toChart = 2 := by decide +kernel
example {m : Mach Nat} (h : Visible prog m) : m.len ≤ 2 := C57_width wf contract h
example : width still.toChart = 1 := by decide +kernel

end SC.Ex
