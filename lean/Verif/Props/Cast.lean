import Verif.Cast
import Verif.Props.Config
import Verif.Example
/-!
# Property C27: `state_cast` and `state_downcast`
-/

namespace SC
open Spec Chart
variable {W : Type} {P : Prog W} {m : Mach W}

namespace Spec

/-- The order of the search: innermost states in the order of iteration, each followed by its outer
states from the inside to the outside. -/
def searchOrder (C : Chart) (leaves : List Sid) : List Sid := leaves.flatMap fun l => l :: C.ancestors l

end Spec

theorem searchUp_none (hit : Sid → Bool) (f : Nat) : searchUp P hit f none m = .ok none m := by
  cases f <;> rfl

/-- The list leads only to states of `act`; their objects exist, know their contexts, and
the contexts are in `act`. -/
structure Readable (C : Chart) (act : Sid → Bool) (m : Mach W) : Prop where
  obj : ∀ x, act x = true → x < C.n ∧ ∃ o, m.heap x = some o ∧ o.ctxSet = true
  outer : ∀ x p, act x = true → C.parent x = some p → act p = true
  slot : ∀ i s, m.slot i = some s → act s = true

theorem Inv.readable {C : Chart} {L : Sid → Nat} {pend : Option Sid} (hi : Inv C L pend m) : Readable C m.act m := by
  refine ⟨fun x hx => ?_, fun x p hx hp => hi.par_live hx hp, fun i s hs => ?_⟩
  · obtain ⟨o, ho⟩ := Option.isSome_iff_exists.1 hx
    exact ⟨hi.bound ho, o, ho, hi.ctx ho⟩
  · have hlt : i < m.endIx := by
      rcases Nat.lt_or_ge i m.endIx with h | h
      · exact h
      · rw [hi.slot_out h] at hs; cases hs
    obtain ⟨t, o, h1, h2, _⟩ := hi.slot_in hlt
    rw [hs] at h1; cases h1
    show (m.heap s).isSome = true
    rw [h2]; rfl

theorem searchUp_ok (hwf : P.toChart.WF) {act : Sid → Bool} (hi : Readable P.toChart act m)
    (hit : Sid → Bool) : ∀ (f : Nat) (s : Sid), s < f → act s = true →
    searchUp P hit f (some s) m = .ok ((s :: P.ancestors s).find? hit) m := by
  intro f
  induction f with
  | zero => intro s hs; exact absurd hs (Nat.not_lt_zero _)
  | succ f ih =>
    intro s hs hl
    obtain ⟨hb, o, ho, hctx⟩ := hi.obj s hl
    rw [searchUp]
    show M.bnd (getObj s) _ m = _
    unfold M.bnd
    simp only [getObj, ho]
    by_cases hh : hit s = true
    · rw [if_pos hh, List.find?_cons_of_pos hh]; rfl
    · rw [if_neg hh, List.find?_cons_of_neg hh]
      show M.bnd (outerStatePtr P s) _ m = _
      have h1 : outerStatePtr P s m = .ok (P.parent s) m := by
        unfold outerStatePtr
        show M.bnd (getObj s) _ m = _
        unfold M.bnd
        simp only [getObj, ho, hctx, if_true]
        rfl
      unfold M.bnd
      simp only [h1]
      cases hp : P.parent s with
      | none => rw [searchUp_none, ancestors_none hp]; rfl
      | some p =>
        have hlt := hwf.parent_lt hb hp
        rw [ancestors_some hwf hb hp]
        exact ih p (by omega) (hi.outer s p hl hp)

theorem searchLeaves_ok (hwf : P.toChart.WF) {act : Sid → Bool} (hi : Readable P.toChart act m)
    (hit : Sid → Bool) : ∀ (n i : Nat),
    searchLeaves P hit n i m = .ok ((searchOrder P.toChart ((List.range' i n).filterMap m.slot)).find? hit) m := by
  intro n
  induction n with
  | zero => intro i; rfl
  | succ n ih =>
    intro i
    have hup : searchUp P hit (P.n + 1) (m.slot i) m = .ok ((searchOrder P.toChart (m.slot i).toList).find? hit) m := by
      cases hs : m.slot i with
      | none => rw [searchUp_none]; rfl
      | some s =>
        have ha := hi.slot i s hs
        have := (hi.obj s ha).1
        rw [searchUp_ok hwf hi hit _ s (by omega) ha]
        simp [searchOrder]
    have hsplit : searchOrder P.toChart ((List.range' i (n + 1)).filterMap m.slot) =
        searchOrder P.toChart (m.slot i).toList ++ searchOrder P.toChart ((List.range' (i + 1) n).filterMap m.slot) := by
      rw [List.range'_succ]
      unfold searchOrder
      cases hs : m.slot i with
      | none => rw [List.filterMap_cons_none hs]; simp
      | some s => rw [List.filterMap_cons_some hs]; simp
    rw [hsplit, List.find?_append]
    rw [searchLeaves]
    show M.bnd (searchUp P hit (P.n + 1) (m.slot i)) _ m = _
    unfold M.bnd
    rw [hup]
    cases (searchOrder P.toChart (m.slot i).toList).find? hit with
    | some s => rfl
    | none => exact ih (i + 1)

theorem search_ok (hwf : P.toChart.WF) {act : Sid → Bool} (hi : Readable P.toChart act m)
    (hit : Sid → Bool) :
    searchLeaves P hit m.endIx 0 m = .ok ((searchOrder P.toChart m.leaves).find? hit) m := by
  rw [searchLeaves_ok hwf hi]
  unfold Mach.leaves
  rw [List.range_eq_range']

/-- On a stable machine the search passes exactly the active states. -/
theorem Stable.mem_searchOrder (hwf : P.toChart.WF) (hs : Stable P.toChart m) (s : Sid) :
    s ∈ searchOrder P.toChart m.leaves ↔ m.act s = true := by
  unfold searchOrder
  rw [List.mem_flatMap]
  have hmem := hs.innermost.1.mem
  constructor
  · rintro ⟨l, hl, h⟩
    have hla := ((hmem l).1 hl).1
    obtain ⟨o, ho⟩ := Option.isSome_iff_exists.1 hla
    rcases List.mem_cons.1 h with rfl | h
    · exact hla
    · obtain ⟨p, hp, hb⟩ := (mem_ancestors hwf (hs.inv.bound ho)).1 h
      have hcl : ∀ x, Below P.toChart s x → m.act x = true → m.act s = true := by
        intro x hx
        induction hx with
        | refl => exact id
        | step hp _ ih => intro h; exact ih (hs.inv.par_live h hp)
      exact hcl p hb (hs.inv.par_live hla hp)
  · intro ha
    obtain ⟨t, h1, h2, h3⟩ := hs.inv.leaf_below hwf hs.pOU (P.n - s) s (Nat.le_refl _) ha (fun _ _ => rfl)
    obtain ⟨o, ho⟩ := Option.isSome_iff_exists.1 h2
    refine ⟨t, (hmem t).2 ⟨h2, h3⟩, ?_⟩
    rcases h1.eq_or_outer with rfl | h1
    · exact List.mem_cons_self
    · exact List.mem_cons_of_mem _ ((mem_ancestors hwf (hs.inv.bound ho)).2 h1)

theorem stateCast_ok (hwf : P.toChart.WF) {act : Sid → Bool} (hi : Readable P.toChart act m) (conv : Sid → Bool) (k : CastTarget) :
    stateCast P conv k m = match (searchOrder P.toChart m.leaves).find? conv with
      | some s => .ok (some s) m
      | none => notFound k m := by
  unfold stateCast
  show M.bnd (searchLeaves P conv m.endIx 0) _ m = _
  unfold M.bnd
  rw [search_ok hwf hi]
  cases (searchOrder P.toChart m.leaves).find? conv <;> rfl

section
variable (hwf : P.toChart.WF) (hok : Contract P)
include hwf hok

/-- **C27 (`state_cast`).**  The machine is not changed.  If an active state converts to the target,
the result is an active state that does; otherwise a null pointer, or `std::bad_cast`. -/
theorem C27_state_cast (h : Visible P m) (conv : Sid → Bool) (k : CastTarget) :
    ((∃ s, m.act s = true ∧ conv s = true) ∧
      ∃ s, m.act s = true ∧ conv s = true ∧ stateCast P conv k m = .ok (some s) m) ∨
    ((∀ s, m.act s = true → conv s = false) ∧
      stateCast P conv k m = match k with
        | .pointer => .ok none m
        | .reference bad => .thrown bad m) := by
  have hs := (h.stable hwf hok).1
  rw [stateCast_ok hwf hs.inv.readable]
  cases hf : (searchOrder P.toChart m.leaves).find? conv with
  | some s =>
    have h1 := (hs.mem_searchOrder hwf s).1 (List.mem_of_find?_eq_some hf)
    have h2 := List.find?_some hf
    exact .inl ⟨⟨s, h1, h2⟩, s, h1, h2, rfl⟩
  | none =>
    refine .inr ⟨fun s ha => ?_, by cases k <;> rfl⟩
    have := (List.find?_eq_none.1 hf) s ((hs.mem_searchOrder hwf s).2 ha)
    simpa using this

/-- **C27 (which state is found).**  If several active states convert to the target, the result is the
first of them in the order: innermost states in the order of iteration, each followed by its outer
states. -/
theorem C27_first (h : Visible P m) (conv : Sid → Bool) (k : CastTarget) {s : Sid}
    (hr : stateCast P conv k m = .ok (some s) m) :
    ∃ a b, searchOrder P.toChart m.leaves = a ++ s :: b ∧ ∀ t ∈ a, conv t = false := by
  have hs := (h.stable hwf hok).1
  rw [stateCast_ok hwf hs.inv.readable] at hr
  cases hf : (searchOrder P.toChart m.leaves).find? conv with
  | some t =>
    rw [hf] at hr
    cases hr
    obtain ⟨_, a, b, h1, h2⟩ := List.find?_eq_some_iff_append.1 hf
    exact ⟨a, b, h1, fun t ht => by simpa using h2 t ht⟩
  | none => rw [hf] at hr; cases k <;> cases hr

/-- **C27 (`state_downcast`).**  The state is found iff it is active. -/
theorem C27_state_downcast (h : Visible P m) (t : Sid) (k : CastTarget) :
    stateDowncast P t k m = if m.act t = true then .ok (some t) m else match k with
        | .pointer => .ok none m
        | .reference bad => .thrown bad m := by
  have hd : stateDowncast P t k = stateCast P (fun s => s == t) k := rfl
  rw [hd]
  rcases C27_state_cast hwf hok h (fun s => s == t) k with ⟨-, s, h1, h2, h3⟩ | ⟨h1, h2⟩
  · simp only [beq_iff_eq] at h2
    subst h2
    rw [h3, if_pos h1]
  · have : m.act t ≠ true := fun ha => by simpa using h1 t ha
    rw [h2, if_neg this]

end

/-! ### Examples -/

namespace Ex

/-- States `C` (2), `G` (6) and their outer states are active; `D` (3) is not. -/
example : ∃ m : Mach Nat, Visible prog m ∧ m.act 1 = true ∧ m.act 3 = false ∧
    stateDowncast prog 1 .pointer m = .ok (some 1) m ∧ stateDowncast prog 3 (.reference 77) m = .thrown 77 m := by
  obtain ⟨m, h1, h2⟩ := scenario_ex (P := prog) [(0, .initiate 0)] 0 (fun m => m.act 1 && !m.act 3) (by decide +kernel)
  simp only [Bool.and_eq_true, Bool.not_eq_true'] at h2
  refine ⟨m, .inl h1, h2.1, h2.2, ?_, ?_⟩
  · rw [C27_state_downcast wf contract (.inl h1), if_pos h2.1]
  · rw [C27_state_downcast wf contract (.inl h1), if_neg (by rw [h2.2]; decide)]

/-- A cast that several active states satisfy. -/
example : ∃ m : Mach Nat, Visible prog m ∧ (match stateCast prog (fun s => s == 6 || s == 1 || s == 0) .pointer m with
    | .ok r _ => r == some 1
    | _ => false) = true := by
  obtain ⟨m, h1, h2⟩ := scenario_ex (P := prog) [(0, .initiate 0)] 0 (fun m => match stateCast prog (fun s => s == 6 || s == 1 || s == 0) .pointer m with
    | .ok r _ => r == some 1
    | _ => false) (by decide +kernel)
  exact ⟨m, .inl h1, h2⟩

end Ex
end SC
