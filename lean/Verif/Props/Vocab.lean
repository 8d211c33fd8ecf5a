import Verif.Remove
/-!
# Vocabulary of the property theorems

Independent of the implementation model: sets of active states, lists of observations,
positions in the chart. Followed by general facts about this vocabulary.
-/

namespace SC.Spec
open SC Chart
variable {C : Chart}

/-- Sets of state objects that can exist at the same time. -/
structure Forest (C : Chart) (act : Sid → Bool) : Prop where
  /-- only states of the chart are active -/
  bound : ∀ s, act s = true → s < C.n
  /-- the direct outer state of an active state is active -/
  outer : ∀ s p, act s = true → C.parent s = some p → act p = true
  /-- at most one active state per region (in particular at most one outermost state) -/
  region : ∀ s t, act s = true → act t = true → C.parent s = C.parent t → C.pos s = C.pos t → s = t

/-- A legal configuration of active states. -/
structure LegalConf (C : Chart) (act : Sid → Bool) : Prop extends Forest C act where
  /-- an active non-leaf state has an active direct inner state -/
  inner : ∀ s, act s = true → C.isLeaf s = false → ∃ c, act c = true ∧ C.parent c = some s

/-- Effect of an observation on the set of existing state objects. -/
def aliveStep (act : Sid → Bool) : Obs → Sid → Bool
  | .enter s => fun x => if x = s then true else act x
  | .destroy s => fun x => if x = s then false else act x
  | _ => act

/-- The states whose last constructor call was not yet followed by a destructor call. -/
def alive (tr : List Obs) : Sid → Bool := tr.foldl aliveStep (fun _ => false)

/-- `x` has to be exited before `y`: it is inside `y`, or in a region with higher number than `y`. -/
def ExitsBefore (C : Chart) (x y : Sid) : Prop :=
  Outer C y x ∨ ∃ a b, C.parent a = C.parent b ∧ C.pos b < C.pos a ∧ Below C a x ∧ Below C b y

/-- `x` has to be entered before `y`: it is outside `y`, or in a region with lower number. -/
def EntersBefore (C : Chart) (x y : Sid) : Prop :=
  Outer C x y ∨ ∃ a b, C.parent a = C.parent b ∧ C.pos a < C.pos b ∧ Below C a x ∧ Below C b y

/-- `l` lists exactly the states that satisfy `S`, each once, in exit order. -/
structure ExitList (C : Chart) (S : Sid → Prop) (l : List Sid) : Prop where
  mem : ∀ x, x ∈ l ↔ S x
  nodup : l.Nodup
  order : l.Pairwise (ExitsBefore C)

/-- `l` lists the active innermost states, each once. -/
structure Innermost (C : Chart) (act : Sid → Bool) (l : List Sid) : Prop where
  nodup : l.Nodup
  mem : ∀ s, s ∈ l ↔ act s = true ∧ C.isLeaf s = true

theorem Outer.irrefl (hwf : C.WF) {s : Sid} (hs : s < C.n) : ¬ Outer C s s := fun h => Nat.lt_irrefl _ (h.lt hwf hs)

theorem region_disjoint (hwf : C.WF) {a b x : Sid} (hx : x < C.n) (hp : C.parent a = C.parent b) (hne : C.pos a ≠ C.pos b)
    (ha : Below C a x) (hb : Below C b x) : False := by
  have := Below.sibling hwf hx ha hb hp
  subst this; exact hne rfl

theorem ExitsBefore.irrefl (hwf : C.WF) {s : Sid} (hs : s < C.n) : ¬ ExitsBefore C s s := by
  rintro (h | ⟨a, b, h1, h2, h3, h4⟩)
  · exact Outer.irrefl hwf hs h
  · exact region_disjoint hwf hs h1 (by omega) h3 h4

theorem EntersBefore.irrefl (hwf : C.WF) {s : Sid} (hs : s < C.n) : ¬ EntersBefore C s s := by
  rintro (h | ⟨a, b, h1, h2, h3, h4⟩)
  · exact Outer.irrefl hwf hs h
  · exact region_disjoint hwf hs h1 (by omega) h3 h4

/-- The two orders are opposite. -/
theorem exitsBefore_iff {x y : Sid} : ExitsBefore C x y ↔ EntersBefore C y x := by
  constructor
  · rintro (h | ⟨a, b, h1, h2, h3, h4⟩)
    · exact .inl h
    · exact .inr ⟨b, a, h1.symm, h2, h4, h3⟩
  · rintro (h | ⟨a, b, h1, h2, h3, h4⟩)
    · exact .inl h
    · exact .inr ⟨b, a, h1.symm, h2, h4, h3⟩

theorem nodup_of_pairwise {R : Sid → Sid → Prop} {l : List Sid} (h : l.Pairwise R) (hi : ∀ x ∈ l, ¬ R x x) : l.Nodup := by
  unfold List.Nodup
  induction h with
  | nil => exact .nil
  | @cons a l ha _ ih =>
    refine .cons ?_ (ih fun x hx => hi x (List.mem_cons_of_mem _ hx))
    intro b hb hab
    subst hab
    exact hi a (by simp) (ha a hb)

theorem exitOrderF_pairwise (act : Sid → Bool) : ∀ (f : Nat) (s : Sid), (exitOrderF C act f s).Pairwise (ExitsBefore C) := by
  intro f
  induction f with
  | zero => intro s; exact .nil
  | succ f ih =>
    intro s
    rw [exitOrderF, List.pairwise_append]
    refine ⟨?_, List.pairwise_singleton _ _, ?_⟩
    · rw [List.pairwise_flatMap]
      refine ⟨?_, ?_⟩
      · intro i _
        split
        · exact .nil
        · exact ih _
      · rw [List.pairwise_reverse]
        refine List.pairwise_lt_range.imp ?_
        intro i j hij x hx y hy
        cases hi : childAt C act s j with
        | none => rw [hi] at hx; cases hx
        | some a =>
          cases hj : childAt C act s i with
          | none => rw [hj] at hy; cases hy
          | some b =>
            rw [hi] at hx
            rw [hj] at hy
            obtain ⟨_, _, h3, h4⟩ := childAt_some hi
            obtain ⟨_, _, k3, k4⟩ := childAt_some hj
            exact .inr ⟨a, b, by rw [h3, k3], by omega, (exitOrderF_below _ _ _ hx).1, (exitOrderF_below _ _ _ hy).1⟩
    · intro x hx y hy
      simp only [List.mem_singleton] at hy
      subst hy
      simp only [List.mem_flatMap] at hx
      obtain ⟨i, _, hx⟩ := hx
      cases hi : childAt C act y i with
      | none => rw [hi] at hx; cases hx
      | some a =>
        rw [hi] at hx
        obtain ⟨_, _, h3, _⟩ := childAt_some hi
        have := (exitOrderF_below _ _ _ hx).1
        left
        rcases this.eq_or_outer with rfl | ⟨q, h5, h6⟩
        · exact ⟨y, h3, .refl⟩
        · exact ⟨q, h5, Below.trans (.step h3 .refl) h6⟩

theorem Forest.below {act : Sid → Bool} (h : Forest C act) {t s : Sid} (hb : Below C t s) (hs : act s = true) : act t = true := by
  induction hb with
  | refl => exact hs
  | step h1 _ ih => exact ih (h.outer _ _ hs h1)

theorem Forest.mem_exitOrderF (hwf : C.WF) {act : Sid → Bool} (h : Forest C act) : ∀ (f : Nat) (s x : Sid),
    C.n - s ≤ f → act x = true → Below C s x → x ∈ exitOrderF C act f s := by
  intro f
  induction f with
  | zero =>
    intro s x hf hx hb
    have := hb.bound hwf (h.bound x hx); omega
  | succ f ih =>
    intro s x hf hx hb
    rw [exitOrderF]
    rcases hb.child with rfl | ⟨c, hp, hcb⟩
    · simp
    · have hc := h.below hcb hx
      have hcn := h.bound c hc
      have hlt := hwf.parent_lt hcn hp
      simp only [List.mem_append, List.mem_flatMap, List.mem_reverse, List.mem_range, List.mem_singleton]
      left
      refine ⟨C.pos c, pos_lt_some hwf hcn hp, ?_⟩
      have : childAt C act s (C.pos c) = some c := by
        cases hca : childAt C act s (C.pos c) with
        | none => exact absurd rfl (childAt_none hca hcn hc hp)
        | some d =>
          obtain ⟨h1, h2, h3, h4⟩ := childAt_some hca
          rw [h.region d c (by assumption) hc (by rw [h3, hp]) h4]
      rw [this]
      exact ih c x (by omega) hx hcb

theorem Forest.mem_exitOrder (hwf : C.WF) {act : Sid → Bool} (h : Forest C act) {s x : Sid} (hs : act s = true) :
    x ∈ exitOrder C act s ↔ (act x = true ∧ Below C s x) := by
  constructor
  · intro hx
    have hb := exitOrderF_below _ _ _ hx
    refine ⟨?_, hb.1⟩
    rcases hb.2 with rfl | h2
    · exact hs
    · exact h2
  · rintro ⟨h1, h2⟩
    exact h.mem_exitOrderF hwf _ _ _ (Nat.le_refl _) h1 h2

/-- The exit order of a subtree is the exit list of its active states. -/
theorem Forest.exitList (hwf : C.WF) {act : Sid → Bool} (h : Forest C act) {s : Sid} (hs : act s = true) :
    ExitList C (fun x => act x = true ∧ Below C s x) (exitOrder C act s) := by
  have hp : (exitOrder C act s).Pairwise (ExitsBefore C) := exitOrderF_pairwise _ _ _
  exact ⟨fun x => h.mem_exitOrder hwf hs, nodup_of_pairwise hp fun x hx => ExitsBefore.irrefl hwf (h.bound x ((h.mem_exitOrder hwf hs).1 hx).1), hp⟩

/-- In a legal configuration any two active states are ordered. -/
theorem Forest.total (hwf : C.WF) {act : Sid → Bool} (h : Forest C act) : ∀ x y, act x = true → act y = true → x ≠ y →
    ExitsBefore C x y ∨ ExitsBefore C y x := by
  -- follow `x` outward until the path meets the path of `y`
  have key : ∀ x y, act x = true → act y = true → Below C x y ∨ Below C y x ∨
      ∃ a b, C.parent a = C.parent b ∧ a ≠ b ∧ Below C a x ∧ Below C b y := by
    intro x
    induction x using Nat.strongRecOn with
    | _ x ih =>
      intro y hx hy
      cases hp : C.parent x with
      | none =>
        -- `y`'s outermost state
        have : ∀ z, act z = true → ∃ r, C.parent r = none ∧ Below C r z := by
          intro z
          induction z using Nat.strongRecOn with
          | _ z ihz =>
            intro hz
            cases hpz : C.parent z with
            | none => exact ⟨z, hpz, .refl⟩
            | some q =>
              obtain ⟨r, h1, h2⟩ := ihz q (hwf.parent_lt (h.bound z hz) hpz) (h.outer z q hz hpz)
              exact ⟨r, h1, .step hpz h2⟩
        obtain ⟨r, h1, h2⟩ := this y hy
        by_cases hr : x = r
        · subst hr; exact .inl h2
        · exact .inr (.inr ⟨x, r, by rw [hp, h1], hr, .refl, h2⟩)
      | some p =>
        rcases ih p (hwf.parent_lt (h.bound x hx) hp) y (h.outer x p hx hp) hy with h1 | h1 | ⟨a, b, h1, h2, h3, h4⟩
        · rcases h1.child with rfl | ⟨c, h2, h3⟩
          · exact .inr (.inl (.step hp .refl))
          · by_cases hc : x = c
            · subst hc; exact .inl h3
            · exact .inr (.inr ⟨x, c, by rw [hp, h2], hc, .refl, h3⟩)
        · exact .inr (.inl (.step hp h1))
        · exact .inr (.inr ⟨a, b, h1, h2, .step hp h3, h4⟩)
  intro x y hx hy hne
  rcases key x y hx hy with h1 | h1 | ⟨a, b, h1, h2, h3, h4⟩
  · rcases h1.eq_or_outer with rfl | ho
    · exact absurd rfl hne
    · exact .inr (.inl ho)
  · rcases h1.eq_or_outer with rfl | ho
    · exact absurd rfl hne
    · exact .inl (.inl ho)
  · have hpos : C.pos a ≠ C.pos b := fun he => h2 (h.region a b (h.below h3 hx) (h.below h4 hy) h1 he)
    rcases Nat.lt_or_ge (C.pos a) (C.pos b) with hl | hl
    · exact .inr (.inr ⟨b, a, h1.symm, hl, h4, h3⟩)
    · exact .inl (.inr ⟨a, b, h1, by omega, h3, h4⟩)

/-! ## Termination -/

theorem Outer.trans_below {C : Chart} {a b c : Sid} (h1 : Outer C a b) (h2 : Below C b c) : Outer C a c := by
  induction h2 with
  | refl => exact h1
  | step h3 _ ih => exact ⟨_, h3, ih.below⟩

theorem Below.trans_outer {C : Chart} {a b c : Sid} (h1 : Below C a b) (h2 : Outer C b c) : Outer C a c := by
  obtain ⟨p, h3, h4⟩ := h2
  exact ⟨p, h3, Below.trans h1 h4⟩

/-- Active states form a set closed under taking outer states. -/
def Closed (C : Chart) (act : Sid → Bool) : Prop := ∀ s p, act s = true → C.parent s = some p → act p = true

theorem Closed.below {act : Sid → Bool} (h : Closed C act) {t s : Sid} (hb : Below C t s) (hs : act s = true) : act t = true := by
  induction hb with
  | refl => exact hs
  | step h1 _ ih => exact ih (h _ _ hs h1)

theorem childless_iff {act : Sid → Bool} (hb : ∀ s, act s = true → s < C.n) {s : Sid} :
    childless C act s = true ↔ ∀ c, act c = true → C.parent c ≠ some s := by
  unfold childless
  simp only [List.all_eq_true, List.mem_range, Bool.not_eq_true', Bool.and_eq_false_imp, beq_eq_false_iff_ne, ne_eq]
  constructor
  · intro h c hc; exact h c (hb c hc) hc
  · intro h c _ hc; exact h c hc

theorem outer_inside {act : Sid → Bool} (hc : Closed C act) {s y : Sid} (hy : act y = true) (h : Outer C s y) :
    ∃ c, act c = true ∧ C.parent c = some s := by
  rcases h.below.child with rfl | ⟨c, h1, h2⟩
  · obtain ⟨p, h3, h4⟩ := h
    rcases h4.child with rfl | ⟨c, h1, h2⟩
    · exact ⟨_, hy, h3⟩
    · exact ⟨c, hc.below (.step h3 h2) hy, h1⟩
  · exact ⟨c, hc.below h2 hy, h1⟩

theorem mem_upward (hwf : C.WF) : ∀ (p : Sid) (act : Sid → Bool) (x : Sid), p < C.n → (∀ s, act s = true → s < C.n) → Closed C act →
    (x ∈ upward C (fun _ => false) act (some p) ↔ Below C x p ∧ ∀ y, act y = true → Outer C x y → Below C y p) := by
  intro p
  induction p using Nat.strongRecOn with
  | _ p ih =>
    intro act x hp hb hcl
    rw [upward_some hwf _ _ hp]
    simp only [Bool.false_or, Bool.not_eq_true']
    by_cases hc : childless C act p = false
    · rw [if_pos hc]
      simp only [List.not_mem_nil, false_iff, not_and]
      intro h1 h2
      have : ¬ childless C act p = true := by simp [hc]
      rw [childless_iff hb] at this
      apply this
      intro c h3 h4
      have h5 := h2 c h3 ⟨p, h4, h1⟩
      have h6 := h5.le hwf hp
      have h7 := hwf.parent_lt (hb c h3) h4
      omega
    · rw [if_neg hc]
      have hc' := (childless_iff hb).1 (by simpa using hc)
      have hb' : ∀ s, without act [p] s = true → s < C.n := fun s h => hb s (by simp [without] at h; exact h.1)
      have hcl' : Closed C (without act [p]) := by
        intro s q h1 h2
        simp only [without, List.contains_cons, List.contains_nil, Bool.or_false, Bool.and_eq_true, Bool.not_eq_true', beq_eq_false_iff_ne] at h1 ⊢
        refine ⟨hcl s q h1.1 h2, ?_⟩
        rintro rfl
        exact hc' s h1.1 h2
      simp only [List.mem_cons]
      constructor
      · rintro (rfl | hx)
        · refine ⟨.refl, fun y hy ho => ?_⟩
          obtain ⟨c, h1, h2⟩ := outer_inside hcl hy ho
          exact absurd h2 (hc' c h1)
        · cases hq : C.parent p with
          | none => rw [hq] at hx; cases hx
          | some q =>
            rw [hq] at hx
            obtain ⟨h1, h2⟩ := (ih q (hwf.parent_lt hp hq) _ x (parent_bound hwf hp hq) hb' hcl').1 hx
            refine ⟨.step hq h1, fun y hy ho => ?_⟩
            by_cases hyp : y = p
            · subst hyp; exact .refl
            · exact .step hq (h2 y (by simp [without, hy, hyp]) ho)
      · rintro ⟨h1, h2⟩
        rcases h1.eq_or_outer with rfl | ⟨q, hq, h3⟩
        · exact .inl rfl
        · right
          rw [hq]
          refine (ih q (hwf.parent_lt hp hq) _ x (parent_bound hwf hp hq) hb' hcl').2 ⟨h3, fun y hy ho => ?_⟩
          simp only [without, List.contains_cons, List.contains_nil, Bool.or_false, Bool.and_eq_true, Bool.not_eq_true', beq_eq_false_iff_ne] at hy
          rcases (h2 y hy.1 ho).eq_or_outer with rfl | ⟨q', hq', h4⟩
          · exact absurd rfl hy.2
          · rw [hq] at hq'; cases hq'; exact h4

theorem upwardF_pairwise (hwf : C.WF) (lock : Sid → Bool) : ∀ (f : Nat) (act : Sid → Bool) (c : Option Sid),
    (upwardF C lock f act c).Pairwise (fun x y => Outer C y x) ∧ ∀ x ∈ upwardF C lock f act c, ∃ p, c = some p ∧ Below C x p := by
  intro f
  induction f with
  | zero => intro act c; exact ⟨.nil, by simp [upwardF]⟩
  | succ f ih =>
    intro act c
    cases c with
    | none => exact ⟨.nil, by simp [upwardF]⟩
    | some p =>
      rw [upwardF]
      split
      · exact ⟨.nil, by simp⟩
      · obtain ⟨h1, h2⟩ := ih (without act [p]) (C.parent p)
        refine ⟨.cons ?_ h1, ?_⟩
        · intro y hy
          obtain ⟨q, h3, h4⟩ := h2 y hy
          exact ⟨q, h3, h4⟩
        · intro x hx
          rcases List.mem_cons.1 hx with rfl | hx
          · exact ⟨x, rfl, .refl⟩
          · obtain ⟨q, h3, h4⟩ := h2 x hx
            exact ⟨p, rfl, .step h3 h4⟩

/-- The states that end with `s`: the active states in `s`, and each outer state of `s` in which no other
state than those and outer states of `s` is active. -/
def EndsWith (C : Chart) (act : Sid → Bool) (s x : Sid) : Prop :=
  act x = true ∧ (Below C s x ∨ (Outer C x s ∧ ∀ y, act y = true → Outer C x y → Below C s y ∨ Outer C y s))

end SC.Spec
