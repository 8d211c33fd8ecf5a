import Verif.Chart
/-!
# A checker for well-formed charts
-/

namespace SC.Chart
variable (C : Chart)

/-- The static checks for one state (see `Chart.WF`). -/
def checkState (s : Sid) : Bool :=
  (match C.parent s with
    | none => true
    | some p => decide (p < s)) &&
  decide (C.pos s < C.regions (C.parent s)) &&
  decide ((C.init s).length ≤ 255) &&
  ((List.range (C.init s).length).all fun i => match (C.init s)[i]? with
    | none => true
    | some t => decide (t.st < C.n) && (C.parent t.st == some s) && (C.pos t.st == i) &&
        (t.kind != .shallow || C.shallowH s) && (t.kind != .deep || C.deepH s)) &&
  (!C.inhDeepCtx (C.parent s) || decide ((C.init s).length ≤ 1)) &&
  ((C.reactions s).all fun r => match r.kind with
    | .transition d a => C.transitOK s d a
    | _ => true)

/-- All static checks. -/
def check : Bool := (List.range C.n).all C.checkState && decide (C.initial < C.n) && (C.parent C.initial).isNone

theorem wf_of_check (h : C.check = true) : C.WF := by
  simp only [check, Bool.and_eq_true, List.all_eq_true, List.mem_range, decide_eq_true_eq] at h
  obtain ⟨⟨hs, hi⟩, hp⟩ := h
  have hs' : ∀ s, s < C.n → _ := fun s h => hs s h
  simp only [checkState, Bool.and_eq_true, decide_eq_true_eq] at hs'
  have hinit : ∀ {s i t}, s < C.n → (C.init s)[i]? = some t → (((t.st < C.n ∧ C.parent t.st = some s) ∧ C.pos t.st = i) ∧
      (t.kind = .shallow → C.shallowH s = true)) ∧ (t.kind = .deep → C.deepH s = true) := by
    intro s i t h ht
    obtain ⟨⟨⟨_, h1⟩, _⟩, _⟩ := hs' s h
    rw [List.all_eq_true] at h1
    have hlt : i < (C.init s).length := by
      rcases Nat.lt_or_ge i (C.init s).length with h | h
      · exact h
      · rw [List.getElem?_eq_none h] at ht; cases ht
    have := h1 i (by simpa using hlt)
    rw [ht] at this
    simp only [Bool.and_eq_true, decide_eq_true_eq, beq_iff_eq, Bool.or_eq_true, bne_iff_ne, ne_eq] at this
    refine ⟨⟨this.1.1, fun hk => ?_⟩, fun hk => ?_⟩
    · rcases this.1.2 with h | h
      · exact absurd hk h
      · exact h
    · rcases this.2 with h | h
      · exact absurd hk h
      · exact h
  constructor
  · intro s p h hp
    have := (hs' s h).1.1.1.1.1
    rw [hp] at this
    simpa using this
  · intro s h; exact (hs' s h).1.1.1.1.2
  · intro s i t h ht
    have := (hinit h ht).1.1
    exact ⟨this.1.1, this.1.2, this.2⟩
  · intro s h; exact (hs' s h).1.1.1.2
  · intro s i t h ht; exact (hinit h ht).1.2
  · intro s i t h ht; exact (hinit h ht).2
  · intro s h hd
    have := (hs' s h).1.2
    rw [hd] at this
    simpa using this
  · refine ⟨hi, ?_⟩
    cases hc : C.parent C.initial with
    | none => rfl
    | some p => rw [hc] at hp; cases hp
  · intro s r d a h hr hk
    have := (hs' s h).2
    rw [List.all_eq_true] at this
    have := this r hr
    rw [hk] at this
    exact this

end SC.Chart
