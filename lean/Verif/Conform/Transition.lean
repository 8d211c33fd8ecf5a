import Verif.Conform.Basic
/-!
# test/TransitionTest.cpp

The expected sequences were extracted from the source of the test by a script. -/

namespace SC.Conform.Transition

/-- The chart (TransitionTest.cpp:258-372). States: `S0` 0, `S1` 1, `Default0<S1>` 2, `S11` 3, `Default2<S1>` 4, `Default1<S0>` 5, `Default2<S0>` 6, `S2` 7,
`Default0<S2>` 8, `Default1<S2>` 9, `S21` 10, `Default0<S21>` 11, `S211` 12, `Default2<S21>` 13. Events A to H: 0 to 7. Action `n`: `Transit` with event `n`. -/
def chart : Chart where
  n := 14
  parent s := match s with
    | 1 | 5 | 6 | 7 => some 0
    | 2 | 3 | 4 => some 1
    | 8 | 9 | 10 => some 7
    | 11 | 12 | 13 => some 10
    | _ => none
  pos s := match s with
    | 3 | 5 | 9 | 12 => 1
    | 4 | 6 | 10 | 13 => 2
    | _ => 0
  init s := match s with
    | 0 => [⟨.plain, 1⟩, ⟨.plain, 5⟩, ⟨.plain, 6⟩]
    | 1 => [⟨.plain, 2⟩, ⟨.plain, 3⟩, ⟨.plain, 4⟩]
    | 7 => [⟨.plain, 8⟩, ⟨.plain, 9⟩, ⟨.plain, 10⟩]
    | 10 => [⟨.plain, 11⟩, ⟨.plain, 12⟩, ⟨.plain, 13⟩]
    | _ => []
  shallowH _ := false
  deepH _ := false
  isSimple _ := false
  initial := 0
  reactions s := match s with
    | 0 => [⟨some 4, .transition ⟨.plain, 12⟩ none⟩]
    | 1 => [⟨some 0, .transition ⟨.plain, 1⟩ (some 0)⟩, ⟨some 1, .transition ⟨.plain, 3⟩ (some 1)⟩, ⟨some 2, .transition ⟨.plain, 7⟩ (some 2)⟩,
      ⟨some 3, .transition ⟨.plain, 0⟩ none⟩, ⟨some 5, .transition ⟨.plain, 12⟩ (some 5)⟩]
    | 3 => [⟨some 6, .transition ⟨.plain, 12⟩ (some 6)⟩, ⟨some 7, .custom 0⟩]
    | 7 => [⟨some 2, .transition ⟨.plain, 1⟩ (some 2)⟩, ⟨some 5, .transition ⟨.plain, 3⟩ (some 5)⟩]
    | 10 => [⟨some 7, .transition ⟨.plain, 10⟩ (some 7)⟩, ⟨some 1, .transition ⟨.plain, 12⟩ (some 1)⟩]
    | 12 => [⟨some 3, .transition ⟨.plain, 10⟩ (some 3)⟩, ⟨some 6, .transition ⟨.plain, 0⟩ none⟩]
    | _ => []

/-- The environment names the function that throws. `tr`: `exception_translator<>` (which makes any exception an event of type 9, to which nothing reacts)
or `null_exception_translator`. -/
def prog (tr : Bool) : Prog (Option Obs) :=
  let out (o : Obs) (w : Option Obs) : UOut (Option Obs) := { world := w, throws := if w = some o then some 1 else none }
  { chart with
    ctor := fun s _ w => out (.enter s) w
    exit := fun s _ w => out (.exit s) w
    dtor := fun _ _ w => (w, [])
    action := fun a _ w => out (.act a) w
    react := fun s i _ _ w => (out (.react s i) w, .discard)
    unconsumed := fun _ _ w => out .unconsumed w
    alloc := fun _ w => (w, none)
    translate := fun x => if tr then some ⟨9, x⟩ else none }

theorem wf (tr : Bool) : (prog tr).toChart.WF := Chart.wf_of_check chart (by decide +kernel)

/-- TransitionTest.cpp:408-710. -/
def steps : List (Step (Option Obs)) := [
  -- init
  ⟨none, [(.initiate 0, false)],
    [.enter 0, .enter 1, .enter 2, .enter 3, .enter 4, .enter 5, .enter 6]⟩,
  -- a1
  ⟨none, [(.process ⟨0, 0⟩ 0, false)],
    left 4 ++ left 3 ++ left 2 ++ left 1 ++ [.act 0, .enter 1, .enter 2, .enter 3, .enter 4]⟩,
  -- b1
  ⟨none, [(.process ⟨1, 0⟩ 0, false)],
    left 4 ++ left 3 ++ left 2 ++ left 1 ++ [.act 1, .enter 1, .enter 2, .enter 3, .enter 4]⟩,
  -- c1
  ⟨none, [(.process ⟨2, 0⟩ 0, false)],
    left 4 ++ left 3 ++ left 2 ++ left 1 ++ [.act 2, .enter 7, .enter 8, .enter 9, .enter 10, .enter 11, .enter 12, .enter 13]⟩,
  -- d2
  ⟨none, [(.process ⟨3, 0⟩ 0, false)],
    left 13 ++ left 12 ++ left 11 ++ left 10 ++ [.act 3, .enter 10, .enter 11, .enter 12, .enter 13]⟩,
  -- e2
  ⟨none, [(.process ⟨4, 0⟩ 0, false)],
    left 6 ++ left 5 ++ left 13 ++ left 12 ++ left 11 ++ left 10 ++ left 9 ++ left 8 ++ left 7 ++ left 0 ++ [.enter 0, .enter 7, .enter 8, .enter 9, .enter 10, .enter 11, .enter 12, .enter 13, .enter 5, .enter 6]⟩,
  -- f2
  ⟨none, [(.process ⟨5, 0⟩ 0, false)],
    left 13 ++ left 12 ++ left 11 ++ left 10 ++ left 9 ++ left 8 ++ left 7 ++ [.act 5, .enter 1, .enter 2, .enter 3, .enter 4]⟩,
  -- g1
  ⟨none, [(.process ⟨6, 0⟩ 0, false)],
    left 4 ++ left 3 ++ left 2 ++ left 1 ++ [.act 6, .enter 7, .enter 8, .enter 9, .enter 10, .enter 11, .enter 12, .enter 13]⟩,
  -- h2
  ⟨none, [(.process ⟨7, 0⟩ 0, false)],
    left 13 ++ left 12 ++ left 11 ++ left 10 ++ [.act 7, .enter 10, .enter 11, .enter 12, .enter 13]⟩,
  -- a2
  ⟨none, [(.process ⟨0, 0⟩ 0, false)],
    [.unconsumed]⟩,
  -- b2
  ⟨none, [(.process ⟨1, 0⟩ 0, false)],
    left 13 ++ left 12 ++ left 11 ++ left 10 ++ [.act 1, .enter 10, .enter 11, .enter 12, .enter 13]⟩,
  -- c2
  ⟨none, [(.process ⟨2, 0⟩ 0, false)],
    left 13 ++ left 12 ++ left 11 ++ left 10 ++ left 9 ++ left 8 ++ left 7 ++ [.act 2, .enter 1, .enter 2, .enter 3, .enter 4]⟩,
  -- d1
  ⟨none, [(.process ⟨3, 0⟩ 0, false)],
    left 6 ++ left 5 ++ left 4 ++ left 3 ++ left 2 ++ left 1 ++ left 0 ++ [.enter 0, .enter 1, .enter 2, .enter 3, .enter 4, .enter 5, .enter 6]⟩,
  -- f1
  ⟨none, [(.process ⟨5, 0⟩ 0, false)],
    left 4 ++ left 3 ++ left 2 ++ left 1 ++ [.act 5, .enter 7, .enter 8, .enter 9, .enter 10, .enter 11, .enter 12, .enter 13]⟩,
  -- g2
  ⟨none, [(.process ⟨6, 0⟩ 0, false)],
    left 6 ++ left 5 ++ left 13 ++ left 12 ++ left 11 ++ left 10 ++ left 9 ++ left 8 ++ left 7 ++ left 0 ++ [.enter 0, .enter 1, .enter 2, .enter 3, .enter 4, .enter 5, .enter 6]⟩,
  -- h1
  ⟨none, [(.process ⟨7, 0⟩ 0, false)],
    [.react 3 0]⟩,
  -- e1
  ⟨none, [(.process ⟨4, 0⟩ 0, false)],
    left 6 ++ left 5 ++ left 4 ++ left 3 ++ left 2 ++ left 1 ++ left 0 ++ [.enter 0, .enter 7, .enter 8, .enter 9, .enter 10, .enter 11, .enter 12, .enter 13, .enter 5, .enter 6]⟩,
  -- term
  ⟨none, [(.terminate, false)],
    left 6 ++ left 5 ++ left 13 ++ left 12 ++ left 11 ++ left 10 ++ left 9 ++ left 8 ++ left 7 ++ left 0⟩]

/-- TransitionTest.cpp:712-836, after `terminate()`. -/
def throwing : List (Step (Option Obs)) := [
  -- initThrow1
  ⟨some (Obs.enter 2), [(.initiate 0, true)],
    [.enter 0, .enter 1, .enterFail 2, .destroy 1, .destroy 0]⟩,
  -- initThrow2
  ⟨some (Obs.enter 3), [(.initiate 0, true)],
    [.enter 0, .enter 1, .enter 2, .enterFail 3, .destroy 2, .destroy 1, .destroy 0]⟩,
  -- a1Throw1
  ⟨some (Obs.act 0), [(.initiate 0, false), (.process ⟨0, 0⟩ 0, true)],
    [.enter 0, .enter 1, .enter 2, .enter 3, .enter 4, .enter 5, .enter 6] ++ left 4 ++ left 3 ++ left 2 ++ left 1 ++ [.act 0, .destroy 6, .destroy 5, .destroy 0]⟩,
  -- c1Throw1
  ⟨some (Obs.enter 12), [(.initiate 0, false), (.process ⟨2, 0⟩ 0, true)],
    [.enter 0, .enter 1, .enter 2, .enter 3, .enter 4, .enter 5, .enter 6] ++ left 4 ++ left 3 ++ left 2 ++ left 1 ++ [.act 2, .enter 7, .enter 8, .enter 9, .enter 10, .enter 11, .enterFail 12, .destroy 6, .destroy 5, .destroy 11, .destroy 10, .destroy 9, .destroy 8, .destroy 7, .destroy 0]⟩,
  -- c1Throw2
  ⟨some (Obs.exit 3), [(.initiate 0, false), (.process ⟨2, 0⟩ 0, true)],
    [.enter 0, .enter 1, .enter 2, .enter 3, .enter 4, .enter 5, .enter 6] ++ left 4 ++ [.exitFail 3, .destroy 3, .destroy 6, .destroy 5, .destroy 2, .destroy 1, .destroy 0]⟩]

example : conforms (prog false) steps (Mach.fresh none) = true := by decide +kernel
example : conforms (prog false) throwing (Mach.fresh none) = true := by decide +kernel
example : conforms (prog true) throwing (Mach.fresh none) = true := by decide +kernel

/-- The test is also run with BOOST_STATECHART_RELAX_TRANSITION_CONTEXT (Jamfile.v2:69-70). All actions are members of `S0`. -/
def relaxed (tr : Bool) : Prog (Option Obs) := { prog tr with relaxed := true, actCtx := fun _ => some 0 }

theorem relaxed_wf (tr : Bool) : (relaxed tr).toChart.WF := Chart.wf_of_check { chart with relaxed := true, actCtx := fun _ => some 0 } (by decide +kernel)

example : conforms (relaxed false) steps (Mach.fresh none) = true := by decide +kernel
example : conforms (relaxed true) steps (Mach.fresh none) = true := by decide +kernel
example : conforms (relaxed false) throwing (Mach.fresh none) = true := by decide +kernel
example : conforms (relaxed true) throwing (Mach.fresh none) = true := by decide +kernel

end SC.Conform.Transition
