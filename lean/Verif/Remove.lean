import Verif.Exit
/-!
# Removal of a subtree (`remove_from_state_list`, `terminate_impl`)
-/

namespace SC
open Spec

namespace Spec
variable {C : Chart}

/-! ## The specification functions -/

theorem upwardF_fuel (hwf : C.WF) (lock : Sid → Bool) : ∀ (f g : Nat) (act : Sid → Bool) (c : Option Sid),
    (∀ s, c = some s → s < C.n ∧ s < f ∧ s < g) → upwardF C lock f act c = upwardF C lock g act c := by
  intro f
  induction f with
  | zero =>
    intro g act c h
    cases c with
    | none => cases g <;> rfl
    | some s => have := h s rfl; omega
  | succ f ih =>
    intro g act c h
    cases c with
    | none => cases g <;> rfl
    | some s =>
      obtain ⟨h1, h2, h3⟩ := h s rfl
      cases g with
      | zero => omega
      | succ g =>
        rw [upwardF, upwardF]
        split
        · rfl
        · rw [ih g _ (C.parent s)]
          intro p hp
          have := hwf.parent_lt h1 hp
          omega

theorem upward_none (lock act : Sid → Bool) : upward C lock act none = [] := rfl

theorem upward_some (hwf : C.WF) (lock act : Sid → Bool) {s : Sid} (hs : s < C.n) :
    upward C lock act (some s) =
      if lock s || !childless C act s then []
      else s :: upward C lock (without act [s]) (C.parent s) := by
  unfold upward
  conv => lhs; rw [upwardF]
  split
  · rfl
  · rw [upwardF_fuel hwf lock C.n (C.n + 1)]
    intro p hp
    have := hwf.parent_lt hs hp
    omega

theorem upwardF_upward (hwf : C.WF) (lock act : Sid → Bool) {s f : Sid} (hs : s < C.n) (hf : s < f) :
    upwardF C lock f act (some s) = upward C lock act (some s) := by
  unfold upward
  apply upwardF_fuel hwf
  intro t ht; cases ht; omega

theorem childAt_some {act : Sid → Bool} {s i c : Sid} (h : childAt C act s i = some c) :
    c < C.n ∧ act c = true ∧ C.parent c = some s ∧ C.pos c = i := by
  unfold childAt at h
  have h1 := List.find?_some h
  have h2 := List.mem_of_find?_eq_some h
  simp only [Bool.and_eq_true, beq_iff_eq] at h1
  exact ⟨List.mem_range.1 h2, h1.1.1, h1.1.2, h1.2⟩

theorem childAt_none {act : Sid → Bool} {s i : Sid} (h : childAt C act s i = none) {c : Sid} (hc : c < C.n)
    (ha : act c = true) (hp : C.parent c = some s) : C.pos c ≠ i := by
  unfold childAt at h
  rw [List.find?_eq_none] at h
  have := h c (List.mem_range.2 hc)
  simp only [Bool.and_eq_true, beq_iff_eq, not_and] at this
  exact this ⟨ha, hp⟩

theorem exitOrderF_below {act : Sid → Bool} : ∀ (f : Nat) (s x : Sid), x ∈ exitOrderF C act f s →
    Below C s x ∧ (x = s ∨ act x = true) := by
  intro f
  induction f with
  | zero => intro s x hx; simp [exitOrderF] at hx
  | succ f ih =>
    intro s x hx
    rw [exitOrderF] at hx
    simp only [List.mem_append, List.mem_flatMap, List.mem_singleton] at hx
    rcases hx with ⟨i, _, hx⟩ | rfl
    · cases hc : childAt C act s i with
      | none => rw [hc] at hx; simp at hx
      | some c =>
        rw [hc] at hx
        obtain ⟨h1, h2, h3, h4⟩ := childAt_some hc
        obtain ⟨h5, h6⟩ := ih c x hx
        refine ⟨Below.trans (.step h3 .refl) h5, .inr ?_⟩
        rcases h6 with rfl | h6
        · exact h2
        · exact h6
    · exact ⟨.refl, .inl rfl⟩

theorem childAt_congr {act act' : Sid → Bool} {s : Sid} (h : ∀ x, Below C s x → act x = act' x) (i : Nat) :
    childAt C act s i = childAt C act' s i := by
  unfold childAt
  congr 1
  funext c
  by_cases hp : C.parent c = some s
  · rw [h c (.step hp .refl)]
  · have : (C.parent c == some s) = false := by simpa using hp
    rw [this]; simp

theorem exitOrderF_congr {act act' : Sid → Bool} : ∀ (f : Nat) (s : Sid),
    (∀ x, Below C s x → act x = act' x) → exitOrderF C act f s = exitOrderF C act' f s := by
  intro f
  induction f with
  | zero => intro s _; rfl
  | succ f ih =>
    intro s h
    rw [exitOrderF, exitOrderF]
    congr 1
    congr 1
    funext i
    rw [childAt_congr h i]
    cases hc : childAt C act' s i with
    | none => rfl
    | some c =>
      obtain ⟨h1, h2, h3, h4⟩ := childAt_some hc
      exact ih c (fun x hx => h x (Below.trans (.step h3 .refl) hx))

theorem exitOrderF_last {act : Sid → Bool} (f : Nat) (s : Sid) :
    (exitOrderF C act (f + 1) s).getLast? = some s := by
  rw [exitOrderF]; simp

end Spec

variable {W : Type} {P : Prog W} {L : Sid → Nat} {pend : Option Sid} {m : Mach W}

theorem Inv.childAt {C : Chart} (_ : C.WF) (h : Inv C L pend m) {s : Sid} {o : Obj} (ho : m.heap s = some o) (i : Nat) :
    childAt C m.act s i = o.inner i := by
  cases hi : o.inner i with
  | none =>
    cases hc : Spec.childAt C m.act s i with
    | none => rfl
    | some c =>
      obtain ⟨h1, h2, h3, h4⟩ := childAt_some hc
      rw [(h.inner_iff ho).2 ⟨h2, h3, h4⟩] at hi; cases hi
  | some c =>
    obtain ⟨h1, h2, h3⟩ := (h.inner_iff ho).1 hi
    cases hc : Spec.childAt C m.act s i with
    | none => exact absurd h3 (childAt_none hc (h.live_bound h1) h1 h2)
    | some c' =>
      obtain ⟨h5, h6, h7, h8⟩ := childAt_some hc
      rw [(h.inner_iff ho).2 ⟨h6, h7, h8⟩] at hi
      exact hi

/-! ## Taking a leaf out of the state list -/

theorem Inv.takeLeaf {C : Chart} (h : Inv C L none m) {s : Sid} {o : Obj} (ho : m.heap s = some o)
    (hs : m.slot o.lpos = some s) {m' : Mach W}
    (hheap : ∀ x ox, m.heap x = some ox →
      m'.heap x = some { ox with lpos := if m.slot (m.endIx - 1) = some x then o.lpos else ox.lpos })
    (hnone : ∀ x, m.heap x = none → m'.heap x = none)
    (hslot : m'.slot = upd (upd m.slot o.lpos (m.slot (m.endIx - 1))) (m.endIx - 1) none)
    (hend : m'.endIx = m.endIx - 1) (hlen : m'.len = m.len) (hout : m'.outermost = m.outermost)
    (hpou : m'.pOU = m.pOU) (htr : m'.trace = m.trace) (hh : HistOK C m') :
    Inv C (inc L s) none m' ∧ m'.act = m.act ∧ (∀ o', m'.heap s = some o' → m'.slot o'.lpos ≠ some s) := by
  obtain ⟨_, hl, hleaf⟩ := h.slot_pos hs ho
  have hiso : ∀ x, (m'.heap x).isSome = (m.heap x).isSome := by
    intro x
    cases hx : m.heap x with
    | none => rw [hnone x hx]
    | some ox => rw [hheap x ox hx]; rfl
  have hact : m'.act = m.act := by funext x; exact hiso x
  have hback : ∀ {x ox'}, m'.heap x = some ox' → ∃ ox, m.heap x = some ox ∧
      ox' = { ox with lpos := if m.slot (m.endIx - 1) = some x then o.lpos else ox.lpos } := by
    intro x ox' hx
    cases hm : m.heap x with
    | none => rw [hnone x hm] at hx; cases hx
    | some ox => rw [hheap x ox hm] at hx; cases hx; exact ⟨ox, rfl, rfl⟩
  obtain ⟨t, ot, ht, hot, htleaf, htl⟩ := h.slot_in (i := m.endIx - 1) (by omega)
  -- membership in the list after the change
  have hmem : ∀ {x ox}, m.heap x = some ox → x ≠ s →
      (m'.slot (if m.slot (m.endIx - 1) = some x then o.lpos else ox.lpos) = some x ↔ m.slot ox.lpos = some x) := by
    intro x ox hx hxs
    rw [hslot]
    by_cases hxt : m.slot (m.endIx - 1) = some x
    · rw [if_pos hxt]
      rw [ht] at hxt; cases hxt
      rw [hx] at hot; cases hot
      have hne : o.lpos ≠ m.endIx - 1 := by
        intro he; rw [he, ht] at hs; cases hs; exact hxs rfl
      rw [upd_other _ _ hne, upd_same, htl]
    · rw [if_neg hxt]
      simp only [upd]
      split
      · next he => rw [he]; constructor
                   · intro h; cases h
                   · intro h; exact absurd h hxt
      · split
        · next he => rw [he, hs]; constructor
                     · intro h'; exact absurd h' hxt
                     · intro h'; cases h'; exact absurd rfl hxs
        · rfl
  have hmems : ∀ ox, m'.heap s = some ox → m'.slot ox.lpos ≠ some s := by
    intro ox hx
    obtain ⟨ox', h1, h2⟩ := hback hx
    rw [ho] at h1; cases h1
    have : ox.lpos = o.lpos := by rw [h2]; simp
    rw [this, hslot]
    simp only [upd]
    split
    · simp
    · next hne =>
      rw [if_pos trivial, ht]
      intro h'; cases h'
      rw [ho] at hot; cases hot
      exact hne htl
  refine ⟨?_, hact, hmems⟩
  constructor
  · intro x ox hx; obtain ⟨o', h3, _⟩ := hback hx; exact h.bound h3
  · intro x ox hx; obtain ⟨o', h3, h4⟩ := hback hx; rw [h4]; exact (h.ctx h3 :)
  · intro x ox i c hx
    obtain ⟨o', h3, h4⟩ := hback hx
    rw [h4]; simp only [hiso]; exact h.inner_iff h3
  · intro x p; simp only [hiso]; exact h.par_live
  · intro x; simp only [hiso, hout]; exact h.outer
  · intro i hi
    rw [hend] at hi
    by_cases hil : i = o.lpos
    · subst hil
      refine ⟨t, { ot with lpos := o.lpos }, ?_, ?_, htleaf, rfl⟩
      · rw [hslot, upd_other _ _ (by omega), upd_same, ht]
      · rw [hheap t ot hot, if_pos ht]
    · obtain ⟨x, ox, h1, h2, h3, h4⟩ := h.slot_in (i := i) (by omega)
      refine ⟨x, ox, ?_, ?_, h3, h4⟩
      · rw [hslot, upd_other _ _ (by omega), upd_other _ _ hil, h1]
      · rw [hheap x ox h2, if_neg]
        intro h'
        rw [ht] at h'; cases h'
        rw [h2] at hot; cases hot
        omega
  · intro i hi
    rw [hend] at hi
    rw [hslot]
    simp only [upd]
    split
    · rfl
    · rw [if_neg (by omega)]; exact h.slot_out (by omega)
  · rw [hend, hlen, htr]; exact ⟨by have := h.end_le.1; omega, h.end_le.2⟩
  · intro x ox hx hxl hL
    obtain ⟨o', h3, h4⟩ := hback hx
    have hxs : x ≠ s := by intro h'; subst h'; simp at hL
    rw [h4]
    rw [inc_other _ hxs] at hL
    exact (hmem h3 hxs).2 (h.leaf_in h3 hxl hL)
  · intro x ox hx
    obtain ⟨o', h3, h4⟩ := hback hx
    have hr := h.rc h3
    rw [hpou]
    by_cases hxs : x = s
    · subst hxs
      rw [if_neg (hmems _ hx)]
      rw [ho] at h3; cases h3
      rw [if_pos hs] at hr
      rw [h4]; simp only [inc_same]; omega
    · rw [inc_other _ hxs, h4]
      simp only [hmem h3 hxs]
      exact hr
  · intro x; rw [hpou, hiso]; exact h.ou_live
  · intro x hx
    rw [hiso]
    by_cases hxs : x = s
    · subst hxs; simp [ho]
    · rw [inc_other _ hxs] at hx; exact h.L_live hx
  · intro x ox hx hxl hn
    obtain ⟨o', h3, h4⟩ := hback hx
    rw [h4] at hn
    have hxs : x ≠ s := by intro h'; subst h'; rw [hleaf] at hxl; cases hxl
    rw [hpou, inc_other _ hxs]
    exact h.noOrphan h3 hxl hn
  · exact hh
  · rw [htr, hact]; exact h.tr

/-! ## Composition of exits -/

theorem ouAfter_append (C : Chart) (u : Option Sid) {l1 l2 : List Sid} {t p : Sid} (ht : l1.getLast? = some t)
    (hp : C.parent t = some p) (hpl : p ∈ l2) :
    ouAfter C (ouAfter C u l1) l2 = ouAfter C u (l1 ++ l2) := by
  obtain ⟨z, hz⟩ : ∃ z, l2.getLast? = some z := by
    cases h : l2.getLast? with
    | none => simp at h; subst h; simp at hpl
    | some z => exact ⟨z, rfl⟩
  have hz2 : (l1 ++ l2).getLast? = some z := by
    rw [List.getLast?_append, hz]; rfl
  unfold ouAfter
  rw [hz, hz2, ht]
  cases u with
  | none => simp [hp, hpl]
  | some v =>
    by_cases hv : v ∈ l1
    · simp [hp, hpl, hv]
    · simp [hv]

theorem ExitPost.append {C : Chart} {full : Bool} {m m1 m2 : Mach W} {l1 l2 : List Sid}
    (h1 : ExitPost C L full m m1 l1) (h2 : ExitPost C L full m1 m2 l2) {t p : Sid}
    (ht : l1.getLast? = some t) (hp : C.parent t = some p) (hpl : p ∈ l2) :
    ExitPost C L full m m2 (l1 ++ l2) := by
  refine ⟨h2.inv, ?_, ?_, ?_, ?_, ?_, ?_⟩
  · rw [h2.act, h1.act, without_append]
  · rw [h2.trace, h1.trace, h1.trig, exits_append]; simp
  · rw [h2.pOU, h1.pOU]; exact ouAfter_append C _ ht hp hpl
  · rw [h2.ico, h1.ico]
  · rw [h2.fullExit, h1.fullExit]
  · rw [h2.trig, h1.trig]

theorem ExitThrow.after {C : Chart} {full : Bool} {m m1 m2 : Mach W} {l1 : List Sid}
    (h1 : ExitPost C L full m m1 l1) (h2 : ExitThrow C L full m1 m2) : ExitThrow C L full m m2 := by
  refine ⟨h2.full, h2.inv, ?_, h2.unstable, ?_, ?_, ?_⟩
  · intro x hx
    have := h2.sub x hx
    rw [h1.act] at this
    simp [without] at this; exact this.1
  · rw [h2.ico, h1.ico]
  · rw [h2.fullExit, h1.fullExit]
  · rw [h2.trig, h1.trig]

theorem ExitFail.after {C : Chart} {full : Bool} {s : Sid} {m m1 m2 : Mach W} {l1 l2 : List Sid}
    (h1 : ExitPost C L full m m1 l1) (h2 : ExitFail C L full s m1 m2 l2)
    (hg : (∀ u, m.pOU = some u → Below C u s) → Gap C m m1 ∧ ∀ u, m1.pOU = some u → Below C u s) (hd : Drift C m m1) :
    ExitFail C L full s m m2 (l1 ++ l2) := by
  have hcut : ∃ tr, m2.trace = m.trace ++ tr ∧ ExitCut C m.trig (l1 ++ l2) tr := by
    obtain ⟨tr, g1, x1, y, x2, ob, l', g2, g3, g4, g5⟩ := h2.cut
    have hft := h2.full
    subst hft
    refine ⟨exits true m.trig l1 ++ tr, by rw [g1, h1.trace, List.append_assoc], l1 ++ x1, y, x2, ob, l', by rw [g2, List.append_assoc], g3, ?_, g5⟩
    rw [g4, h1.trig, exits_append, List.append_assoc]
  have hsub : ∀ x, m1.act x = true → m.act x = true := by
    intro x hx
    rw [h1.act] at hx
    simp [without] at hx; exact hx.1
  refine ⟨.after h1 h2.toExitThrow, ?_, hd.trans h2.inv hsub h2.sub h2.drift, .trans ⟨_, h1.trace, exits_noEnter _ _ _⟩ h2.quiet, hcut⟩
  intro hb
  obtain ⟨g1, g2⟩ := hg hb
  exact g1.trans h2.inv hsub h2.sub (h2.gap g2)

/-- A completed exit that ends with `c`. -/
theorem ExitPost.drift {C : Chart} {full : Bool} {m m1 : Mach W} {l : List Sid} (h : ExitPost C L full m m1 l) {c : Sid}
    (hlast : l.getLast? = some c) (hc : m.act c = true) : Drift C m m1 := by
  intro u hu
  have hul := (h.inv.ou_live hu).1
  have hgone : m1.act c = false := by
    rw [h.act]; simp [without, List.mem_of_getLast? hlast]
  rw [h.pOU] at hu
  unfold ouAfter at hu
  rw [hlast] at hu
  cases hv : m.pOU with
  | none => rw [hv] at hu; exact .inr ⟨hul, c, hu, hc, hgone⟩
  | some v =>
    rw [hv] at hu
    simp only at hu
    split at hu
    · exact .inr ⟨hul, c, hu, hc, hgone⟩
    · exact .inl hu

theorem ExitFail.outer {C : Chart} {full : Bool} {s c : Sid} {m m' : Mach W} {l : List Sid} (h : ExitFail C L full c m m' l)
    (hb : Below C s c) : ExitFail C L full s m m' l :=
  ⟨h.toExitThrow, fun hu => h.gap fun u hm => (hu u hm).trans hb, h.drift, h.quiet, h.cut⟩

theorem ExitFail.longer {C : Chart} {full : Bool} {s : Sid} {m m' : Mach W} {l : List Sid} (h : ExitFail C L full s m m' l) (r : List Sid) :
    ExitFail C L full s m m' (l ++ r) := by
  refine ⟨h.toExitThrow, h.gap, h.drift, h.quiet, ?_⟩
  obtain ⟨tr, g1, x1, y, x2, ob, l', g2, g3⟩ := h.cut
  exact ⟨tr, g1, x1, y, x2 ++ r, ob, l', by rw [g2]; simp, g3⟩

/-- The exit of the whole subtree of `c`. -/
theorem Gap.subtree {C : Chart} (hwf : C.WF) {full : Bool} {c s : Sid} {m m1 : Mach W} {l : List Sid} (hi : Inv C L none m) (h : ExitPost C L full m m1 l)
    (hlast : l.getLast? = some c) (hc : m.act c = true) (hp : C.parent c = some s) (hl : ∀ x ∈ l, Below C c x)
    (hl' : ∀ x, m.act x = true → Below C c x → x ∈ l) (hb : ∀ u, m.pOU = some u → Below C u s) :
    Gap C m m1 ∧ ∀ u, m1.pOU = some u → Below C u s := by
  have hcn := hi.live_bound hc
  have hou : m1.pOU = some s ∨ (m1.pOU = m.pOU ∧ m.pOU ≠ none) := by
    rw [h.pOU]
    unfold ouAfter
    rw [hlast]
    cases hu : m.pOU with
    | none => exact .inl hp
    | some u =>
      right
      simp only
      rw [if_neg]
      · simp
      · intro hul
        have h1 := (hl u hul).le hwf (hi.live_bound (hi.ou_live hu).1)
        have h2 := (hb u hu).le hwf (Chart.parent_bound hwf hcn hp)
        have h3 := hwf.parent_lt hcn hp
        omega
  have hact : ∀ x, m1.act x = true ↔ m.act x = true ∧ ¬ Below C c x := by
    intro x
    rw [h.act]
    simp only [without, Bool.and_eq_true, Bool.not_eq_true', List.contains_eq_mem, decide_eq_false_iff_not]
    constructor
    · rintro ⟨h1, h2⟩; exact ⟨h1, fun hb => h2 (hl' x h1 hb)⟩
    · rintro ⟨h1, h2⟩; exact ⟨h1, fun hx => h2 (hl x hx)⟩
  have hcs : ¬ Below C c s := by
    intro hcs
    have h1 := hcs.le hwf (Chart.parent_bound hwf hcn hp)
    have h2 := hwf.parent_lt hcn hp
    omega
  have hlost : Lost C m.act m1.act s := by
    refine ⟨(hact s).2 ⟨hi.par_live hc hp, hcs⟩, c, hp, hc, ?_⟩
    cases h1 : m1.act c with
    | false => rfl
    | true => exact absurd .refl ((hact c).1 h1).2
  have honly : ∀ x, Lost C m.act m1.act x → x = s := by
    rintro x ⟨hx, y, hyp, hy, hy'⟩
    have hyb : Below C c y := by
      refine Classical.byContradiction fun hn => ?_
      rw [(hact y).2 ⟨hy, hn⟩] at hy'; cases hy'
    cases hyb with
    | refl => rw [hp] at hyp; cases hyp; rfl
    | step hp' hb' => rw [hyp] at hp'; cases hp'; exact absurd hb' ((hact x).1 hx).2
  rcases hou with hou | ⟨hou, hne⟩
  · refine ⟨⟨?_, ?_, ?_⟩, fun u hu => by rw [hou] at hu; cases hu; exact .refl⟩
    · intro x hx; rw [honly x hx]; exact ⟨s, hou, .refl⟩
    · intro u hu; rw [hou] at hu; cases hu; exact .inr hlost
    · intro u hu ha
      rw [h.pOU] at hou ⊢
      unfold ouAfter at hou ⊢
      rw [hlast, hu] at hou ⊢
      simp only at hou ⊢
      rw [if_neg]
      intro hul
      exact ((hact u).1 ha).2 (hl u hul)
  · refine ⟨⟨?_, fun u hu => .inl (by rw [← hou]; exact hu), fun u hu _ => by rw [hou]; exact hu⟩, fun u hu => hb u (by rw [← hou]; exact hu)⟩
    intro x hx
    rw [honly x hx, hou]
    cases hu : m.pOU with
    | none => exact absurd hu hne
    | some u => exact ⟨u, rfl, hb u hu⟩

/-- States exited by removing `s`: its active subtree and then outer states
that have no inner states left (unless locked). -/
def removalF (C : Chart) (L : Sid → Nat) (act : Sid → Bool) (f : Nat) (s : Sid) : List Sid :=
  exitOrderF C act f s ++ upward C (lockOf L) (without act (exitOrderF C act f s)) (C.parent s)

theorem childless_leaf {C : Chart} (hwf : C.WF) {act : Sid → Bool} {s : Sid} (hl : C.isLeaf s = true) :
    childless C act s = true := by
  rw [childless_iff]
  intro c hc _ hp
  rw [Chart.parent_not_leaf hwf hc hp] at hl; cases hl

theorem leafRemove_wp (hwf : P.toChart.WF) (full : Bool) {s : Sid} (h : Inv P.toChart L none m)
    (hlive : (m.heap s).isSome) (hleaf : P.isLeaf s = true) (hL : L s = 0) :
    wp (leafRemove P s full)
      (fun _ m' => ExitPost P.toChart L full m m' (upward P.toChart (lockOf L) m.act (some s)))
      (fun _ m' => ExitFail P.toChart L full s m m' (upward P.toChart (lockOf L) m.act (some s))) m := by
  obtain ⟨o, ho⟩ := Option.isSome_iff_exists.1 hlive
  have hs := h.leaf_in ho hleaf hL
  obtain ⟨_, hl, _⟩ := h.slot_pos hs ho
  obtain ⟨t, ot, ht, hot, htleaf, htl⟩ := h.slot_in (i := m.endIx - 1) (by omega)
  unfold leafRemove
  simp only [wp_bind, wp_get]
  rw [if_neg (by omega)]
  simp only [wp_bind, wp_modify, wp_getObj]
  refine ⟨o, ho, ?_⟩
  rw [if_pos (by have := h.end_le; omega)]
  simp only [wp_bind, wp_modify, wp_get]
  have hsl : upd (upd m.slot o.lpos (m.slot (m.endIx - 1))) (m.endIx - 1) (m.slot o.lpos) o.lpos = some t := by
    simp only [upd]; split
    · next he => rw [he, ht]
    · rw [if_pos trivial, ht]
  simp only [hsl, wp_bind, wp_getObj]
  refine ⟨ot, hot, ?_⟩
  simp only [wp_setObj, takeSlot, wp_bind, wp_get, upd_same, hs, wp_modify, wp_pure]
  obtain ⟨hi, hact, hns⟩ := h.takeLeaf ho hs
    (m' := { m with
      endIx := m.endIx - 1
      heap := upd m.heap t (some { ot with lpos := o.lpos })
      slot := upd (upd (upd m.slot o.lpos (m.slot (m.endIx - 1))) (m.endIx - 1) (some s)) (m.endIx - 1) none })
    (by
      intro x ox hx
      simp only [upd]
      split
      · next hxt => subst hxt; rw [hx] at hot; cases hot; rw [if_pos ht]
      · next hxt => rw [if_neg (fun h' => by rw [ht] at h'; cases h'; exact hxt rfl)]; exact hx)
    (by
      intro x hx
      have : x ≠ t := by intro h'; subst h'; rw [hx] at hot; cases hot
      simp [this, hx])
    (by simp) rfl rfl rfl rfl rfl ⟨h.hist.sh, h.hist.dh⟩
  have := exitImpl_wp hwf full hi (s := s) (by simp) hns
  rw [dec_inc, upwardF_upward hwf _ _ (h.bound ho) (Nat.lt_succ_self s), hact] at this
  refine wp_mono this ?_ ?_
  · intro _ m' hp
    refine ⟨hp.inv, ?_, hp.trace, hp.pOU, hp.ico, hp.fullExit, hp.trig⟩
    rw [hp.act, hact]
  · intro _ m' hp
    refine ⟨⟨hp.full, hp.inv, ?_, hp.unstable, hp.ico, hp.fullExit, hp.trig⟩, fun hb => (hp.gap hb).congr hact.symm rfl, hp.drift.congr hact.symm rfl, hp.quiet, hp.cut⟩
    intro x hx
    have := hp.sub x hx
    rw [hact] at this; exact this

theorem exitOrderF_leaf {C : Chart} {act : Sid → Bool} {f : Nat} {s : Sid} (hl : C.isLeaf s = true) :
    exitOrderF C act (f + 1) s = [s] := by
  rw [exitOrderF, Chart.leaf_regions hl]; simp

/-- A state whose active children are gone continues the upward chain. -/
theorem upward_go {C : Chart} (hwf : C.WF) {act : Sid → Bool} {s : Sid} (hs : s < C.n) (hL : L s = 0)
    (hc : childless C act s = true) :
    upward C (lockOf L) act (some s) = s :: upward C (lockOf L) (without act [s]) (C.parent s) := by
  rw [upward_some hwf _ _ hs, if_neg]
  simp [lockOf, hL, hc]

theorem upward_stop {C : Chart} (hwf : C.WF) {act : Sid → Bool} {s c : Sid} (hs : s < C.n)
    (hc : c < C.n) (ha : act c = true) (hp : C.parent c = some s) :
    upward C (lockOf L) act (some s) = [] := by
  rw [upward_some hwf _ _ hs, if_pos]
  have : childless C act s = false := by
    cases h : childless C act s with
    | false => rfl
    | true => exact absurd hp ((childless_iff.1 h) c hc ha)
  simp [this]

/-- The order of one region. -/
def regionOrder (C : Chart) (act : Sid → Bool) (f : Nat) (s : Sid) (i : Nat) : List Sid :=
  match childAt C act s i with
  | none => []
  | some c => exitOrderF C act f c

theorem exitOrderF_succ (C : Chart) (act : Sid → Bool) (f : Nat) (s : Sid) :
    exitOrderF C act (f + 1) s =
      (List.range (C.regions (some s))).reverse.flatMap (regionOrder C act f s) ++ [s] := rfl

/-- The exit order contains every live state of the subtree. -/
theorem Inv.mem_exitOrderF {C : Chart} (hwf : C.WF) (h : Inv C L pend m) : ∀ (f : Nat) (s x : Sid),
    C.n - s ≤ f → (m.heap x).isSome → Below C s x → x ∈ exitOrderF C m.act f s := by
  intro f
  induction f with
  | zero =>
    intro s x hf hx hb
    have := hb.bound hwf (h.live_bound hx); omega
  | succ f ih =>
    intro s x hf hx hb
    rw [exitOrderF_succ]
    rcases hb.child with rfl | ⟨c, hp, hcb⟩
    · simp
    · have hc := h.live_of_below hcb hx
      have hs := h.live_of_below hb hx
      obtain ⟨o, ho⟩ := Option.isSome_iff_exists.1 hs
      have hcn := h.live_bound hc
      have hlt := hwf.parent_lt hcn hp
      simp only [List.mem_append, List.mem_flatMap, List.mem_reverse, List.mem_range, List.mem_singleton]
      left
      refine ⟨C.pos c, Chart.pos_lt_some hwf hcn hp, ?_⟩
      unfold regionOrder
      rw [h.childAt hwf ho, (h.inner_iff ho).2 ⟨hc, hp, rfl⟩]
      exact ih c x (by omega) hx hcb

theorem removeLoop_wp (hwf : P.toChart.WF) (full : Bool) (f : Nat) {s : Sid} {rec : Sid → M W Unit} (k : Nat)
    (hLs : ∀ x, Below P.toChart s x → L x = 0) (hfuel : P.n - s ≤ f + 2)
    (hrec : ∀ (m : Mach W) (c : Sid), Inv P.toChart L none m → (m.heap c).isSome → P.parent c = some s →
      wp (rec c) (fun _ m' => ExitPost P.toChart L full m m' (removalF P.toChart L m.act (f + 1) c))
        (fun _ m' => ExitFail P.toChart L full c m m' (removalF P.toChart L m.act (f + 1) c)) m) :
    ∀ (j : Nat) (m : Mach W) (o : Obj), Inv P.toChart L none m → m.heap s = some o →
      (o.inner k).isSome → (∀ i, i < k ∨ k + j < i → o.inner i = none) →
      wp (removeLoop rec s (List.range' k (j + 1)).reverse)
        (fun _ m' => ExitPost P.toChart L full m m'
          (((List.range' k (j + 1)).reverse.flatMap (regionOrder P.toChart m.act (f + 1) s) ++ [s]) ++
            upward P.toChart (lockOf L)
              (without m.act ((List.range' k (j + 1)).reverse.flatMap (regionOrder P.toChart m.act (f + 1) s) ++ [s]))
              (P.parent s)))
        (fun _ m' => ExitFail P.toChart L full s m m'
          (((List.range' k (j + 1)).reverse.flatMap (regionOrder P.toChart m.act (f + 1) s) ++ [s]) ++
            upward P.toChart (lockOf L)
              (without m.act ((List.range' k (j + 1)).reverse.flatMap (regionOrder P.toChart m.act (f + 1) s) ++ [s]))
              (P.parent s))) m := by
  intro j
  induction j with
  | zero =>
    intro m o h ho hk hout
    obtain ⟨c, hc⟩ := Option.isSome_iff_exists.1 hk
    obtain ⟨hc1, hc2, hc3⟩ := (h.inner_iff ho).1 hc
    have hsn := h.bound ho
    have hcn := h.live_bound hc1
    have hr1 : (List.range' k (0 + 1)).reverse = [k] := rfl
    rw [hr1]
    simp only [removeLoop, wp_bind, wp_getObj]
    refine ⟨o, ho, ?_⟩
    simp only [hc]
    have hreg : regionOrder P.toChart m.act (f + 1) s k = exitOrderF P.toChart m.act (f + 1) c := by
      unfold regionOrder; rw [h.childAt hwf ho, hc]
    simp only [List.flatMap_cons, List.flatMap_nil, List.append_nil, hreg]
    have hcl : childless P.toChart (without m.act (exitOrderF P.toChart m.act (f + 1) c)) s = true := by
      rw [childless_iff]
      intro c' hc' ha hp'
      simp only [without, Bool.and_eq_true, Bool.not_eq_true', List.contains_eq_mem, decide_eq_false_iff_not] at ha
      have hi := (h.inner_iff ho (i := P.pos c') (c := c')).2 ⟨ha.1, hp', rfl⟩
      by_cases hpk : P.pos c' = k
      · rw [hpk, hc] at hi; cases hi
        apply ha.2
        rw [exitOrderF_succ]; simp
      · rw [hout _ (by omega)] at hi; cases hi
    refine wp_mono (hrec m c h hc1 hc2) ?_ ?_
    · intro _ m' hp
      simp only [wp_pure]
      unfold removalF at hp
      rw [hc2, upward_go hwf hsn (hLs s .refl) hcl, ← without_append] at hp
      simpa using hp
    · intro _ m' hp
      unfold removalF at hp
      rw [hc2, upward_go hwf hsn (hLs s .refl) hcl, ← without_append] at hp
      simpa using hp.outer (.step hc2 .refl)
  | succ j ih =>
    intro m o h ho hk hout
    obtain ⟨ck, hck⟩ := Option.isSome_iff_exists.1 hk
    obtain ⟨hk1, hk2, hk3⟩ := (h.inner_iff ho).1 hck
    have hsn := h.bound ho
    have hkn := h.live_bound hk1
    have hrange : (List.range' k (j + 1 + 1)).reverse = (k + (j + 1)) :: (List.range' k (j + 1)).reverse := by
      rw [List.range'_concat]; simp
    rw [hrange]
    simp only [removeLoop, wp_bind, wp_getObj]
    refine ⟨o, ho, ?_⟩
    cases hc : o.inner (k + (j + 1)) with
    | none =>
      simp only [wp_pure]
      have hreg : regionOrder P.toChart m.act (f + 1) s (k + (j + 1)) = [] := by
        unfold regionOrder; rw [h.childAt hwf ho, hc]
      have := ih m o h ho hk (fun i hi => by
        by_cases hij : i = k + (j + 1)
        · rw [hij]; exact hc
        · exact hout i (by omega))
      rw [List.flatMap_cons, hreg]
      exact this
    | some c =>
      simp only
      obtain ⟨hc1, hc2, hc3⟩ := (h.inner_iff ho).1 hc
      have hcn := h.live_bound hc1
      have hne : c ≠ ck := by
        intro h'; subst h'; omega
      have hreg : regionOrder P.toChart m.act (f + 1) s (k + (j + 1)) = exitOrderF P.toChart m.act (f + 1) c := by
        unfold regionOrder; rw [h.childAt hwf ho, hc]
      -- members of the order are below c
      have hsub : ∀ x ∈ exitOrderF P.toChart m.act (f + 1) c, Below P.toChart c x := fun x hx =>
        (exitOrderF_below _ _ _ hx).1
      have hnot : ∀ x c', P.parent c' = some s → x < P.n → c' ≠ c → Below P.toChart c' x →
          x ∉ exitOrderF P.toChart m.act (f + 1) c := by
        intro x c' hp' hxn hne' hb hx
        exact hne' (hb.sibling hwf hxn (hsub x hx) (by rw [hp', hc2]))
      have hwo : ∀ x c', P.parent c' = some s → c' ≠ c → Below P.toChart c' x →
          without m.act (exitOrderF P.toChart m.act (f + 1) c) x = m.act x := by
        intro x c' hp' hne' hb
        cases hx : m.act x with
        | false => simp [without, hx]
        | true =>
          have hxn := h.live_bound hx
          simp [without, hx]
          exact hnot x c' hp' hxn hne' hb
      have hstop : upward P.toChart (lockOf L) (without m.act (exitOrderF P.toChart m.act (f + 1) c)) (some s) = [] :=
        upward_stop hwf hsn hkn (by rw [hwo ck ck hk2 (Ne.symm hne) .refl]; exact hk1) hk2
      have hfail : ∀ m1, ExitFail P.toChart L full c m m1 (removalF P.toChart L m.act (f + 1) c) → ExitFail P.toChart L full s m m1
          ((((k + (j + 1)) :: (List.range' k (j + 1)).reverse).flatMap (regionOrder P.toChart m.act (f + 1) s) ++ [s]) ++
            upward P.toChart (lockOf L)
              (without m.act (((k + (j + 1)) :: (List.range' k (j + 1)).reverse).flatMap (regionOrder P.toChart m.act (f + 1) s) ++ [s]))
              (P.parent s)) := by
        intro m1 hp
        unfold removalF at hp
        rw [hc2, hstop, List.append_nil] at hp
        have := (hp.outer (.step hc2 .refl)).longer (((List.range' k (j + 1)).reverse.flatMap (regionOrder P.toChart m.act (f + 1) s) ++ [s]) ++
            upward P.toChart (lockOf L)
              (without m.act (((k + (j + 1)) :: (List.range' k (j + 1)).reverse).flatMap (regionOrder P.toChart m.act (f + 1) s) ++ [s]))
              (P.parent s))
        rw [List.flatMap_cons, hreg] at this ⊢
        simpa using this
      refine wp_mono (hrec m c h hc1 hc2) ?_ (fun _ m1 h => hfail m1 h)
      intro _ m1 hp
      unfold removalF at hp
      rw [hc2, hstop, List.append_nil] at hp
      have hi1 := hp.inv
      have hlive1 : (m1.heap s).isSome := by
        have : m1.act s = true := by
          rw [hp.act]
          have hs : m.act s = true := by simp [Mach.act, ho]
          simp [without, hs]
          intro hx
          have := (hsub s hx).le hwf hsn
          have := hwf.parent_lt hcn hc2
          omega
        exact this
      obtain ⟨o1, ho1⟩ := Option.isSome_iff_exists.1 hlive1
      have hinner : ∀ i, o1.inner i = if i = k + (j + 1) then none else o.inner i := by
        intro i
        rw [← hi1.childAt hwf ho1, ← h.childAt hwf ho, hp.act]
        by_cases hik : i = k + (j + 1)
        · rw [if_pos hik]
          cases hca : Spec.childAt P.toChart (without m.act (exitOrderF P.toChart m.act (f + 1) c)) s i with
          | none => rfl
          | some c' =>
            exfalso
            obtain ⟨g1, g2, g3, g4⟩ := childAt_some hca
            simp only [without, Bool.and_eq_true, Bool.not_eq_true', List.contains_eq_mem, decide_eq_false_iff_not] at g2
            have := (h.inner_iff ho).2 ⟨g2.1, g3, g4⟩
            rw [hik, hc] at this; cases this
            apply g2.2
            rw [exitOrderF_succ]; simp
        · rw [if_neg hik]
          unfold Spec.childAt
          congr 1
          funext c'
          by_cases hp' : P.parent c' = some s
          · by_cases hcc : c' = c
            · subst hcc
              have : (P.pos c' == i) = false := by
                rw [beq_eq_false_iff_ne]; omega
              rw [this]; simp
            · rw [hwo c' c' hp' hcc .refl]
          · have : (P.parent c' == some s) = false := by simpa using hp'
            rw [this]; simp
      have hrec2 := ih m1 o1 hi1 ho1 (by rw [hinner, if_neg (by omega)]; exact hk) (by
        intro i hi
        rw [hinner]
        split
        · rfl
        · exact hout i (by omega))
      -- region orders of the remaining regions are unchanged
      have hregs : ∀ i ∈ (List.range' k (j + 1)).reverse,
          regionOrder P.toChart m1.act (f + 1) s i = regionOrder P.toChart m.act (f + 1) s i := by
        intro i hi
        have hik : i ≠ k + (j + 1) := by
          simp at hi; omega
        unfold regionOrder
        rw [hi1.childAt hwf ho1, h.childAt hwf ho, hinner, if_neg hik]
        cases hoi : o.inner i with
        | none => rfl
        | some c' =>
          simp only
          obtain ⟨g1, g2, g3⟩ := (h.inner_iff ho).1 hoi
          apply exitOrderF_congr
          intro x hx
          rw [hp.act]
          exact hwo x c' g2 (by intro h'; subst h'; omega) hx
      have hfm : (List.range' k (j + 1)).reverse.flatMap (regionOrder P.toChart m1.act (f + 1) s) =
          (List.range' k (j + 1)).reverse.flatMap (regionOrder P.toChart m.act (f + 1) s) := by
        rw [List.flatMap_def, List.flatMap_def, List.map_congr_left hregs]
      rw [hfm] at hrec2
      refine wp_mono hrec2 ?_ ?_
      · intro _ m2 hp2
        have := hp.append hp2 (t := c) (p := s) (exitOrderF_last _ _) hc2 (by simp)
        rw [hp.act, ← without_append] at this
        rw [List.flatMap_cons, hreg]
        simpa using this
      · intro _ m2 hp2
        have := hp2.after hp (Gap.subtree hwf h hp (exitOrderF_last _ _) hc1 hc2 hsub (fun x hx hb => h.mem_exitOrderF hwf (f + 1) c x (by have := hwf.parent_lt hcn hc2; omega) hx hb)) (hp.drift (exitOrderF_last _ _) hc1)
        rw [hp.act, ← without_append] at this
        rw [List.flatMap_cons, hreg]
        simpa using this

theorem flatMap_range_drop {g : Nat → List Sid} {k r : Nat} (hk : k ≤ r) (h : ∀ i, i < k → g i = []) :
    (List.range r).reverse.flatMap g = (List.range' k (r - k)).reverse.flatMap g := by
  have h1 : List.range r = List.range k ++ List.range' k (r - k) := by
    rw [List.range_eq_range', List.range_eq_range']
    have := List.range'_append (s := 0) (m := k) (n := r - k) (step := 1)
    simp at this
    rw [this]; congr 1; omega
  rw [h1, List.reverse_append, List.flatMap_append]
  have h2 : (List.range k).reverse.flatMap g = [] := by
    rw [List.flatMap_eq_nil_iff]
    intro i hi
    simp at hi
    exact h i hi
  rw [h2, List.append_nil]

theorem removeF_wp (hwf : P.toChart.WF) (full : Bool) : ∀ (f : Nat) (s : Sid) (m : Mach W),
    Inv P.toChart L none m → (m.heap s).isSome → (∀ x, Below P.toChart s x → L x = 0) → P.n - s ≤ f →
    wp (removeF P f s full)
      (fun _ m' => ExitPost P.toChart L full m m' (removalF P.toChart L m.act f s))
      (fun _ m' => ExitFail P.toChart L full s m m' (removalF P.toChart L m.act f s)) m := by
  intro f
  induction f with
  | zero => intro s m h hs _ hf; have := h.live_bound hs; omega
  | succ f ih =>
    intro s m h hs hL hf
    obtain ⟨o, ho⟩ := Option.isSome_iff_exists.1 hs
    have hsn := h.bound ho
    have hLs := hL s .refl
    unfold removeF
    simp only [wp_bind, wp_getObj]
    refine ⟨o, ho, ?_⟩
    by_cases hleaf : P.isLeaf s = true
    · rw [if_pos hleaf]
      have := leafRemove_wp hwf full h hs hleaf hLs
      rw [upward_go hwf hsn hLs (childless_leaf hwf hleaf)] at this
      unfold removalF
      rw [exitOrderF_leaf hleaf]
      exact this
    · rw [if_neg hleaf]
      have hnl : P.isLeaf s = false := by simpa using hleaf
      cases hfind : (List.range (P.regions (some s))).find? (fun i => (o.inner i).isSome) with
      | none =>
        rw [List.find?_eq_none] at hfind
        have hn : nch (P.regions (some s)) o.inner = 0 := by
          rw [nch_zero_iff]
          intro i hi
          have := hfind i (List.mem_range.2 hi)
          simpa using this
        have hou : m.pOU = some s := by
          rcases h.noOrphan ho hnl hn with h' | h'
          · exact h'
          · exact absurd hLs h'
        simp only [wp_bind, wp_get]
        rw [if_pos hou]
        simp only [wp_bind, addRef, wp_getObj]
        refine ⟨o, ho, ?_⟩
        simp only [wp_setObj]
        have hi := h.addRef ho
        have := exitImpl_wp hwf full hi (s := s) (by simp) (fun o' ho' => hi.not_slot ho' hnl)
        have hact : (Mach.act { m with heap := upd m.heap s (some { o with rc := o.rc + 1 }) } : Sid → Bool) = m.act := by
          funext x; simp only [Mach.act, upd]; split
          · next hx => subst hx; simp [ho]
          · rfl
        rw [dec_inc, upwardF_upward hwf _ _ hsn (Nat.lt_succ_self s), hact,
          upward_go hwf hsn hLs ((h.childless_iff hwf ho).2 hn)] at this
        have hord : exitOrderF P.toChart m.act (f + 1) s = [s] := by
          rw [exitOrderF_succ]
          have : (List.range (P.regions (some s))).reverse.flatMap (regionOrder P.toChart m.act f s) = [] := by
            rw [List.flatMap_eq_nil_iff]
            intro i hi
            simp at hi
            have := hfind i (List.mem_range.2 hi)
            unfold regionOrder
            rw [h.childAt hwf ho]
            cases hoi : o.inner i with
            | none => rfl
            | some c => rw [hoi] at this; simp at this
          rw [this]; rfl
        unfold removalF
        rw [hord]
        refine wp_mono this ?_ ?_
        · intro _ m' hp
          exact ⟨hp.inv, by rw [hp.act, hact]; rfl, hp.trace, hp.pOU, hp.ico, hp.fullExit, hp.trig⟩
        · intro _ m' hp
          exact ⟨⟨hp.full, hp.inv, fun x hx => by have := hp.sub x hx; rw [hact] at this; exact this,
            hp.unstable, hp.ico, hp.fullExit, hp.trig⟩, fun hb => (hp.gap hb).congr hact.symm rfl, hp.drift.congr hact.symm rfl, hp.quiet, hp.cut⟩
      | some k =>
        simp only
        have hk1 := List.find?_some hfind
        have hk2 := List.mem_range.1 (List.mem_of_find?_eq_some hfind)
        have hk3 : ∀ i, i < k → o.inner i = none := by
          intro i hi
          have := (List.find?_range_eq_some.1 hfind).2.2 i hi
          simpa using this
        obtain ⟨c, hc⟩ := Option.isSome_iff_exists.1 hk1
        obtain ⟨hc1, hc2, hc3⟩ := (h.inner_iff ho).1 hc
        have hcn := h.live_bound hc1
        have hlt := hwf.parent_lt hcn hc2
        obtain ⟨f', rfl⟩ : ∃ f', f = f' + 1 := ⟨f - 1, by omega⟩
        have hr : P.regions (some s) - k = (P.regions (some s) - k - 1) + 1 := by omega
        have := removeLoop_wp hwf full f' (s := s) (rec := fun c => removeF P (f' + 1) c full) k hL hf
          (fun m c h hcl hp => ih c m h hcl (fun x hx => hL x (Below.trans (.step hp .refl) hx))
            (by have := hwf.parent_lt (h.live_bound hcl) hp; omega))
          (P.regions (some s) - k - 1) m o h ho hk1 (fun i hi => by
            rcases hi with hi | hi
            · exact hk3 i hi
            · cases hoi : o.inner i with
              | none => rfl
              | some c =>
                have := h.inner_lt hwf ho hoi
                omega)
        rw [← hr] at this
        unfold removalF
        rw [exitOrderF_succ, flatMap_range_drop (k := k) (by omega) (fun i hi => by
          unfold regionOrder
          rw [h.childAt hwf ho, hk3 i hi])]
        exact this

theorem remove_wp (hwf : P.toChart.WF) (full : Bool) {s : Sid}
    (h : Inv P.toChart L none m) (hs : (m.heap s).isSome) (hL : ∀ x, Below P.toChart s x → L x = 0) :
    wp (remove P s full)
      (fun _ m' => ExitPost P.toChart L full m m' (removalF P.toChart L m.act (P.n - s) s))
      (fun _ m' => ExitFail P.toChart L full s m m' (removalF P.toChart L m.act (P.n - s) s)) m :=
  removeF_wp hwf full _ _ _ h hs hL (Nat.le_refl _)

end SC
