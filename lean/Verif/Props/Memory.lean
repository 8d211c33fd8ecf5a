import Verif.Props.AnyOrder
import Verif.Props.Cascade
import Verif.Props.History

/-!
# C57: the memory a machine keeps

List nodes for innermost states and entries of the history maps are never given back one by one. They are used again: there are never more list nodes
than innermost states existed together at some time, and never more history entries than there are regions with history.
-/

namespace SC
open Spec Chart
variable {W : Type} {P : Prog W} {m m' : Mach W}

namespace Spec

/-- The number of innermost states among the states in `act`. -/
def crowd (C : Chart) (act : Sid → Bool) : Nat := ((List.range C.n).filter fun s => act s && C.isLeaf s).length

/-- Region `i` of `p`: some state of the chart lies directly in it. -/
def IsRegion (C : Chart) (p i : Nat) : Prop := ∃ s, s < C.n ∧ C.parent s = some p ∧ C.pos s = i

theorem nodup_length {α : Type} [BEq α] [LawfulBEq α] : ∀ {l r : List α}, l.Nodup → (∀ x ∈ l, x ∈ r) → l.length ≤ r.length
  | [], _, _, _ => Nat.zero_le _
  | a :: l, r, h, hr => by
    have h1 := List.nodup_cons.1 h
    have h2 : ∀ x ∈ l, x ∈ r.erase a := fun x hx => (List.mem_erase_of_ne (by rintro rfl; exact h1.1 hx)).2 (hr x (List.mem_cons_of_mem _ hx))
    have h3 := nodup_length h1.2 h2
    have ha := hr a List.mem_cons_self
    rw [List.length_erase_of_mem ha] at h3
    have h4 := List.length_pos_of_mem ha
    rw [List.length_cons]
    omega

/-- Whatever replays leaves a set of objects that can exist at the same time. -/
theorem life_forest {C : Chart} {tr : List Obs} : ∀ {st : Life}, life C tr = some st → Forest C st.act := by
  induction tr using snocInd with
  | nil =>
    intro st h
    cases h
    refine ⟨?_, ?_, ?_⟩
    · intro s hs; cases hs
    · intro s p hs; cases hs
    · intro s t hs; cases hs
  | snoc tr o ih =>
    intro st h
    rw [life_snoc] at h
    cases h1 : life C tr with
    | none => rw [h1] at h; cases h
    | some st1 =>
      rw [h1, Option.bind_some] at h
      have hi := ih h1
      cases o with
      | enter x =>
        simp only [lifeStep] at h
        split at h
        · next hc =>
          cases h
          obtain ⟨_, hx, _, hp, hr⟩ := hc
          have hr' := (Spec.regionEmpty_iff hi.bound).1 hr
          refine ⟨?_, ?_, ?_⟩
          · intro s hs
            by_cases he : s = x
            · rw [he]; exact hx
            · simp only [if_neg he] at hs; exact hi.bound s hs
          · intro s p hs hp'
            simp only
            split
            · rfl
            · by_cases he : s = x
              · subst he; exact parentActive_iff.1 hp p hp'
              · simp only [if_neg he] at hs; exact hi.outer s p hs hp'
          · intro s t hs ht hp' hpos
            by_cases hsx : s = x
            · by_cases htx : t = x
              · rw [hsx, htx]
              · subst hsx
                simp only [if_neg htx] at ht
                exact absurd hpos.symm (hr' t ht hp'.symm)
            · simp only [if_neg hsx] at hs
              by_cases htx : t = x
              · subst htx
                exact absurd hpos (hr' s hs hp')
              · simp only [if_neg htx] at ht
                exact hi.region s t hs ht hp' hpos
        · cases h
      | destroy x =>
        simp only [lifeStep] at h
        split at h
        · next hc =>
          cases h
          have hch := hc.2.2
          have hact : ∀ s, (if s = x then false else st1.act s) = true → s ≠ x ∧ st1.act s = true := by
            intro s hs
            by_cases he : s = x
            · rw [if_pos he] at hs; cases hs
            · rw [if_neg he] at hs; exact ⟨he, hs⟩
          refine ⟨fun s hs => hi.bound s (hact s hs).2, ?_, fun s t hs ht => hi.region s t (hact s hs).2 (hact t ht).2⟩
          intro s p hs hp
          have hpx : p ≠ x := by
            rintro rfl
            unfold childless at hch
            have := (List.all_eq_true.1 hch) s (List.mem_range.2 (hi.bound s (hact s hs).2))
            rw [(hact s hs).2, hp] at this
            simp at this
          simp only [if_neg hpx]
          exact hi.outer s p (hact s hs).2 hp
        · cases h
      | _ => simp only [lifeStep] at h; split at h <;> cases h; exact hi

/-- A region that some operation since the last clearing concerned. -/
theorem entered_some {f : HOp → Option (Option Sid)} {l : List HOp} (h : entered f l = true) : ∃ o ∈ l, o ≠ .clear ∧ (f o).isSome = true := by
  unfold entered at h
  cases hf : l.reverse.find? fun o => (f o).isSome with
  | none => rw [hf] at h; cases h
  | some o =>
    refine ⟨o, by simpa using List.mem_of_find?_eq_some hf, ?_, List.find?_some (p := fun o => (f o).isSome) hf⟩
    rintro rfl
    rw [hf] at h
    cases h

end Spec

section
variable (hwf : P.toChart.WF) (hok : Contract P)
include hwf hok

/-- **C57.** The machine has a list node for every innermost state, and not more nodes than innermost states existed together at some time. -/
theorem C57_nodes (h : Visible P m) : m.leaves.length ≤ m.len ∧
    ∃ pre post, m.trace.map (·.2) = pre ++ post ∧ Forest P.toChart (alive pre) ∧ m.len ≤ crowd P.toChart (alive pre) := by
  have hs := (h.stable hwf hok).1.inv
  obtain ⟨h1, pre, post, st, l, h2, h3, h4, h5, h6⟩ := hs.end_le
  have hf := life_forest h3
  rw [life_act h3] at hf h5
  refine ⟨?_, pre, post, h2, hf, ?_⟩
  · rw [hs.leaves_eq, List.length_map, List.length_range]; exact h1
  · rw [← h6]
    refine nodup_length h4 fun x hx => ?_
    obtain ⟨h7, h8⟩ := h5 x hx
    rw [List.mem_filter]
    exact ⟨List.mem_range.2 (hf.bound x h7), by rw [h7, h8]; rfl⟩

/-- **C57.** However long the machine runs: if never more than `k` innermost states can exist together, there are at most `k` nodes. -/
theorem C57_bound (h : Visible P m) {k : Nat} (hk : ∀ act, Forest P.toChart act → crowd P.toChart act ≤ k) : m.len ≤ k := by
  obtain ⟨_, pre, _, _, hf, hl⟩ := C57_nodes hwf hok h
  exact Nat.le_trans hl (hk _ hf)

/-- **C57.** Without orthogonal regions there is at most one node. -/
theorem C57_one (h : Visible P m) (hr : ∀ p, p < P.n → P.regions (some p) ≤ 1) : m.len ≤ 1 := by
  refine C57_bound hwf hok h fun act hf => ?_
  unfold crowd
  have hl : ∀ x ∈ (List.range P.n).filter fun s => act s && P.isLeaf s, act x = true ∧ P.isLeaf x = true := by
    intro x hx
    have := (List.mem_filter.1 hx).2
    rw [Bool.and_eq_true] at this
    exact this
  have hn : ((List.range P.n).filter fun s => act s && P.isLeaf s).Nodup := List.nodup_range.filter _
  generalize (List.range P.n).filter (fun s => act s && P.isLeaf s) = l at hl hn
  match l, hl, hn with
  | [], _, _ => exact Nat.zero_le _
  | [_], _, _ => exact Nat.le_refl _
  | x :: y :: l, hl, hn =>
    exfalso
    obtain ⟨hx, hlx⟩ := hl x (by simp)
    obtain ⟨hy, hly⟩ := hl y (by simp)
    have hne : x ≠ y := by
      rintro rfl
      exact (List.nodup_cons.1 hn).1 (by simp)
    obtain ⟨c, d, h1, h2, h3, h4⟩ := AnyOrder.leaves_separate hwf hf hx hy hlx hly hne
    have hc := h3.bound hwf (hf.bound x hx)
    have hd := h4.bound hwf (hf.bound y hy)
    have p1 := hwf.pos_lt hc
    have p2 := hwf.pos_lt hd
    rw [← h1] at p2
    cases hp : P.parent c with
    | none =>
      rw [hp] at p1 p2
      have : P.regions none = 1 := rfl
      rw [this] at p1 p2
      exact h2 (by omega)
    | some p =>
      have := hr p (Nat.lt_trans (hwf.parent_lt hc hp) hc)
      rw [hp] at p1 p2
      exact h2 (by omega)

/-- **C57.** The maps have entries only for regions whose outer state has such a history, and for regions the client cleared. -/
theorem C57_entries (h : Visible P m) (p i : Nat) :
    (m.shKeys (p, i) = true → (P.shallowH p = true ∧ IsRegion P.toChart p i) ∨ .clearShallow (p, i) ∈ m.hlog) ∧
    (m.dhKeys (p, i) = true → (P.deepH p = true ∧ IsRegion P.toChart p i) ∨ .clearDeep (p, i) ∈ m.hlog) := by
  have hb := (h.knows hwf hok).2
  obtain ⟨e1, e2⟩ := (h.remembers hwf hok).held hb p i
  have hin : ∀ {s}, s < P.n → inRegion P.toChart p i s = true → IsRegion P.toChart p i := by
    intro s hs hx
    obtain ⟨c, h1, h2, h3⟩ := (inRegion_iff hwf hs).1 hx
    exact ⟨c, h2.bound hwf hs, h1, h3⟩
  constructor
  · intro hk
    rw [e1] at hk
    obtain ⟨o, h1, h2, h3⟩ := entered_some hk
    cases o with
    | exit s =>
      simp only [shallowSays] at h3
      split at h3
      · next hc => exact .inl ⟨hc.2.1, s, hb _ h1 s rfl, hc.1, hc.2.2⟩
      · cases h3
    | cut s k =>
      simp only [shallowSays] at h3
      split at h3
      · next hc => exact .inl ⟨hc.2.2.1, s, hb _ h1 s rfl, hc.2.1, hc.2.2.2⟩
      · cases h3
    | clearShallow k =>
      simp only [shallowSays] at h3
      split at h3
      · next hc => exact .inr (hc ▸ h1)
      · cases h3
    | clearDeep k => cases h3
    | clear => exact absurd rfl h2
  · intro hk
    rw [e2] at hk
    obtain ⟨o, h1, h2, h3⟩ := entered_some hk
    cases o with
    | exit s =>
      simp only [deepSays] at h3
      split at h3
      · next hc => exact .inl ⟨hc.2.1, hin (hb _ h1 s rfl) hc.2.2⟩
      · cases h3
    | cut s k =>
      simp only [deepSays] at h3
      split at h3
      · next hc => exact .inl ⟨hc.2.2.1, hin (hb _ h1 s rfl) hc.2.2.2⟩
      · cases h3
    | clearShallow k => cases h3
    | clearDeep k =>
      simp only [deepSays] at h3
      split at h3
      · next hc => exact .inr (hc ▸ h1)
      · cases h3
    | clear => exact absurd rfl h2

end

end SC

/-! ## The hypotheses can be met -/

namespace SC.Ex
open Spec

/-- Two innermost states existed, one exists, and there are two nodes and an entry for each history. -/
example : ∃ m, Visible prog m ∧ m.leaves = [8] ∧ m.len = 2 ∧ m.shKeys (1, 0) = true ∧ m.dhKeys (4, 0) = true ∧ m.shKeys (0, 0) = false := by
  obtain ⟨m, h1, h2⟩ := scenario_ex (P := prog) [(0, .initiate 0), (0, .process ⟨5, 0⟩ 0)] 0
    (fun m => decide (m.leaves = [8]) && decide (m.len = 2) && m.shKeys (1, 0) && m.dhKeys (4, 0) && !m.shKeys (0, 0)) (by decide +kernel)
  simp only [Bool.and_eq_true, decide_eq_true_eq, Bool.not_eq_true'] at h2
  exact ⟨m, .inl h1, h2.1.1.1.1, h2.1.1.1.2, h2.1.1.2, h2.1.2, h2.2⟩

/-- Both regions are left and entered again, many times: still two nodes. -/
example : ∃ m, Visible prog m ∧ m.leaves.length = 2 ∧ m.len = 2 ∧ (m.trace.map (·.2)).count (.enter 0) = 4 := by
  obtain ⟨m, h1, h2⟩ := scenario_ex (P := prog) [(0, .initiate 0), (0, .process ⟨5, 0⟩ 0), (0, .process ⟨6, 0⟩ 0), (0, .process ⟨5, 0⟩ 0), (0, .process ⟨6, 0⟩ 0),
      (0, .terminate), (0, .initiate 0)] 0
    (fun m => decide (m.leaves.length = 2) && decide (m.len = 2) && decide ((m.trace.map (·.2)).count (.enter 0) = 4)) (by decide +kernel)
  simp only [Bool.and_eq_true, decide_eq_true_eq] at h2
  exact ⟨m, .inl h1, h2.1.1, h2.1.2, h2.2⟩

/-- In this chart no more than two innermost states can exist together. -/
theorem crowd_two (act : Sid → Bool) (h : Forest prog.toChart act) : crowd prog.toChart act ≤ 2 := by
  have h23 : act 2 = true → act 3 = true → False := fun a b => absurd (h.region 2 3 a b rfl rfl) (by decide)
  have h67 : act 6 = true → act 7 = true → False := fun a b => absurd (h.region 6 7 a b rfl rfl) (by decide)
  have h08 : act 0 = true → act 8 = true → False := fun a b => absurd (h.region 0 8 a b rfl rfl) (by decide)
  have o1 : act 1 = true → act 0 = true := fun a => h.outer 1 0 a rfl
  have o2 : act 2 = true → act 0 = true := fun a => o1 (h.outer 2 1 a rfl)
  have o3 : act 3 = true → act 0 = true := fun a => o1 (h.outer 3 1 a rfl)
  have o5 : act 5 = true → act 0 = true := fun a => h.outer 4 0 (h.outer 5 4 a rfl) rfl
  have o6 : act 6 = true → act 0 = true := fun a => o5 (h.outer 6 5 a rfl)
  have o7 : act 7 = true → act 0 = true := fun a => o5 (h.outer 7 5 a rfl)
  have e : crowd prog.toChart act = ([2, 3, 6, 7, 8].filter act).length := by
    have e1 : List.range prog.n = [0, 1, 2, 3, 4, 5, 6, 7, 8] := by decide
    have e2 : [0, 1, 2, 3, 4, 5, 6, 7, 8].filter prog.isLeaf = [2, 3, 6, 7, 8] := by decide
    unfold crowd
    rw [show List.range prog.toChart.n = _ from e1, ← List.filter_filter]
    rw [show [0, 1, 2, 3, 4, 5, 6, 7, 8].filter prog.toChart.isLeaf = _ from e2]
  rw [e]
  cases a2 : act 2 <;> cases a3 : act 3 <;> cases a6 : act 6 <;> cases a7 : act 7 <;> cases a8 : act 8 <;>
    simp only [a2, a3, a6, a7, a8, forall_const, false_implies, Bool.false_eq_true] at h23 h67 h08 o2 o3 o6 o7 <;>
    first | contradiction | (simp [List.filter, a2, a3, a6, a7, a8]; done) | (exfalso; first | exact h08 o2 | exact h08 o3 | exact h08 o6 | exact h08 o7 | exact h23 | exact h67)

/-- So there are never more than two nodes. -/
example {m : Mach Nat} (h : Visible prog m) : m.len ≤ 2 := C57_bound wf contract h crowd_two

/-- A chart without orthogonal regions. -/
def still : Prog Unit := { wheel with ctor := fun _ _ w => { world := w } }

theorem still_wf : still.toChart.WF := wheel_wf
theorem still_contract : Contract still := ⟨fun _ _ _ h => (by cases h), fun _ _ _ _ _ _ _ h => (by cases h)⟩

example {m : Mach Unit} (h : Visible still m) : m.len ≤ 1 := C57_one still_wf still_contract h (by decide)

example : ∃ m, Visible still m ∧ m.leaves = [0] ∧ m.len = 1 := by
  obtain ⟨m, h1, h2⟩ := scenario_ex (P := still) [((), .initiate 4), ((), .process ⟨2, 0⟩ 4)] () (fun m => decide (m.leaves = [0]) && decide (m.len = 1)) (by decide +kernel)
  simp only [Bool.and_eq_true, decide_eq_true_eq] at h2
  exact ⟨m, .inl h1, h2.1, h2.2⟩

end SC.Ex
