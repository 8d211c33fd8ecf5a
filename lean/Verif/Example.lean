import Verif.Check
import Verif.HistLog
/-!
# A concrete program

Used to show that the hypotheses of the theorems are met by a non-trivial chart: nesting,
orthogonal regions, shallow and deep history, all kinds of reactions, user code that posts
events and throws, and an exception translator.

```
A (0) -- region 0 -- B (1, shallow history)  -- C (2) | D (3)
      -- region 1 -- E (4, deep history)     -- F (5) -- G (6) | H (7)
I (8)
```
-/

namespace SC.Ex

/-- The chart. -/
def chart : Chart where
  n := 9
  parent s := match s with
    | 1 => some 0 | 2 => some 1 | 3 => some 1 | 4 => some 0 | 5 => some 4 | 6 => some 5 | 7 => some 5
    | _ => none
  pos s := match s with
    | 4 => 1 | _ => 0
  init s := match s with
    | 0 => [⟨.plain, 1⟩, ⟨.plain, 4⟩]
    | 1 => [⟨.shallow, 2⟩]
    | 4 => [⟨.deep, 5⟩]
    | 5 => [⟨.plain, 6⟩]
    | _ => []
  shallowH s := s == 1
  deepH s := s == 4
  isSimple s := s == 2 || s == 6
  initial := 0
  reactions s := match s with
    | 0 => [⟨some 5, .transition ⟨.plain, 8⟩ none⟩, ⟨some 9, .transition ⟨.plain, 8⟩ (some 1)⟩]
    | 1 => [⟨some 8, .termination⟩]
    | 2 => [⟨some 1, .transition ⟨.plain, 3⟩ (some 7)⟩, ⟨some 2, .custom 0⟩]
    | 3 => [⟨some 1, .transition ⟨.plain, 2⟩ none⟩, ⟨some 3, .deferral⟩]
    | 5 => [⟨some 10, .inState (some 2)⟩]
    | 6 => [⟨some 4, .transition ⟨.plain, 7⟩ none⟩]
    | 8 => [⟨some 6, .transition ⟨.plain, 0⟩ none⟩, ⟨some 7, .termination⟩, ⟨some 10, .transition ⟨.shallow, 2⟩ none⟩,
      ⟨some 11, .transition ⟨.deep, 5⟩ none⟩, ⟨some 12, .inState (some 3)⟩]
    | _ => []

/-- User code. The world is a number chosen by the client that selects what fails. -/
def prog : Prog Nat :=
  { chart with
    ctor := fun s _ w => { world := w, throws := if w = 1 ∧ s = 3 then some 100 else if w = 7 ∧ s = 4 then some 7 else none }
    exit := fun s _ w => { world := w, throws := if w = 2 ∧ s = 2 then some 101 else if w = 6 ∧ s = 2 then some 5 else none }
    dtor := fun s _ w => (w, if s = 7 then [.post ⟨20, 0⟩] else [])
    action := fun a _ w => { world := w, throws := if w = 3 then some (102 + a) else none }
    react := fun s _ e _ w => ({ world := w, cmds := if w = 5 then [.post ⟨1, 0⟩, .post ⟨4, 0⟩] else [] },
      match e.val with
      | 0 => .discard
      | 1 => .forward
      | 2 => .defer
      | 3 => if s = 2 then .transit ⟨.plain, 3⟩ none else .discard
      | _ => .terminate)
    unconsumed := fun _ _ w => { world := w, throws := if w = 4 then some 103 else none }
    alloc := fun _ w => (w, none)
    translate := fun x => if 100 ≤ x then some ⟨9, x⟩ else none }

theorem wf : prog.toChart.WF := Chart.wf_of_check _ (by decide)

theorem contract : Contract prog := by
  constructor
  · intro s v w _; rfl
  · intro s r e v w d a h
    have h' : (match e.val with
      | 0 => Decision.discard
      | 1 => .forward
      | 2 => .defer
      | 3 => if s = 2 then .transit ⟨.plain, 3⟩ none else .discard
      | _ => .terminate) = .transit d a := h
    split at h'
    · cases h'
    · cases h'
    · cases h'
    · split at h'
      · next hs =>
        subst hs
        cases h'
        decide
      · cases h'
    · cases h'

theorem histAlloc : HistAlloc prog := fun _ _ => ⟨rfl, rfl⟩

end SC.Ex

namespace SC

/-- Calls that are legal for a simple reason. -/
def Call.easy {W : Type} (m : Mach W) : Call → Bool
  | .initiate _ => m.terminated
  | _ => true

/-- Run a list of calls, each after setting the environment; `none` if a call faults, does not return or is
an `initiate()` on a machine that is not terminated. -/
def scenario {W : Type} (P : Prog W) : List (W × Call) → Mach W → Option (Mach W)
  | [], m => some m
  | (w, c) :: l, m =>
    let m := { m with world := w }
    if c.easy m = true then
      match c.run P m with
      | .ok true m' => scenario P l m'
      | .thrown _ m' => scenario P l m'
      | _ => none
    else none

/-- The machine at the end of a scenario is one a client can have. -/
theorem scenario_reach {W : Type} {P : Prog W} (l : List (W × Call)) : ∀ {m m' : Mach W}, Reach P m → scenario P l m = some m' → Reach P m' := by
  induction l with
  | nil => intro m m' h hs; cases hs; exact h
  | cons a l ih =>
    obtain ⟨w, c⟩ := a
    intro m m' h hs
    unfold scenario at hs
    simp only at hs
    split at hs
    · next hl =>
      have hw : Reach P { m with world := w } := h.world w
      have hleg : c.legal P { m with world := w } := by
        cases c with
        | initiate k => exact Call.legal_of_terminated hl k
        | _ => trivial
      split at hs
      · next hr => exact ih (hw.returns hleg hr) hs
      · next hr => exact ih (hw.throws hleg hr) hs
      · cases hs
    · cases hs

/-- A machine with property `p` that a client can have; finally the environment is set to `w`. -/
theorem scenario_ex {W : Type} {P : Prog W} (l : List (W × Call)) (w : W) (p : Mach W → Bool)
    (h : ((scenario P l (Mach.fresh w)).any fun m => p { m with world := w }) = true) : ∃ m, Reach P m ∧ p m = true := by
  rw [Option.any_eq_true] at h
  obtain ⟨m, h1, h2⟩ := h
  exact ⟨_, (scenario_reach l (.fresh w) h1).world w, h2⟩

end SC
