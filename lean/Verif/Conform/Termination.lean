import Verif.Conform.Basic
/-!
# test/TerminationTest.cpp and test/StateIterationTest.cpp

The calls and requirements were extracted from the sources of the tests by a script. -/

namespace SC.Conform.Termination

/-- The chart (TerminationTest.cpp:36-37, 119-157). States `A` to `G`: 0 to 6. Events `EvTerminateA` to `EvTerminateG`: 0 to 6. -/
def chart : Chart where
  n := 7
  parent s := match s with
    | 1 | 2 => some 0
    | 3 | 4 => some 2
    | 5 | 6 => some 4
    | _ => none
  pos s := match s with
    | 2 | 4 | 6 => 1
    | _ => 0
  init s := match s with
    | 0 => [⟨.plain, 1⟩, ⟨.plain, 2⟩]
    | 2 => [⟨.plain, 3⟩, ⟨.plain, 4⟩]
    | 4 => [⟨.plain, 5⟩, ⟨.plain, 6⟩]
    | _ => []
  shallowH _ := false
  deepH _ := false
  isSimple _ := true
  initial := 0
  reactions s := [⟨some s, .termination⟩]

theorem wf : chart.WF := Chart.wf_of_check chart (by decide +kernel)

/-- TerminationTest.cpp:186-270. -/
def test : List Do := [
  .active [], .call (.initiate 0), .active [0, 1, 2, 3, 4, 5, 6], .call (.process ⟨4, 0⟩ 0), .active [0, 1, 2, 3], .call (.process ⟨4, 0⟩ 0),
  .active [0, 1, 2, 3], .call (.initiate 0), .active [0, 1, 2, 3, 4, 5, 6], .call (.process ⟨2, 0⟩ 0), .active [0, 1], .call (.process ⟨2, 0⟩ 0),
  .active [0, 1], .call (.initiate 0), .active [0, 1, 2, 3, 4, 5, 6], .call (.process ⟨0, 0⟩ 0), .active [], .call (.process ⟨0, 0⟩ 0), .active [],
  .call (.initiate 0), .active [0, 1, 2, 3, 4, 5, 6], .call (.process ⟨6, 0⟩ 0), .active [0, 1, 2, 3, 4, 5], .call (.process ⟨6, 0⟩ 0),
  .active [0, 1, 2, 3, 4, 5], .call (.process ⟨5, 0⟩ 0), .active [0, 1, 2, 3], .call (.process ⟨5, 0⟩ 0), .active [0, 1, 2, 3],
  .call (.process ⟨3, 0⟩ 0), .active [0, 1], .call (.process ⟨3, 0⟩ 0), .active [0, 1], .call (.process ⟨1, 0⟩ 0), .active [],
  .call (.process ⟨1, 0⟩ 0), .active [], .call (.initiate 0), .active [0, 1, 2, 3, 4, 5, 6], .call (.process ⟨1, 0⟩ 0), .active [0, 2, 3, 4, 5, 6],
  .call (.process ⟨1, 0⟩ 0), .active [0, 2, 3, 4, 5, 6], .call (.process ⟨3, 0⟩ 0), .active [0, 2, 4, 5, 6], .call (.process ⟨3, 0⟩ 0),
  .active [0, 2, 4, 5, 6], .call (.process ⟨5, 0⟩ 0), .active [0, 2, 4, 6], .call (.process ⟨5, 0⟩ 0), .active [0, 2, 4, 6],
  .call (.process ⟨6, 0⟩ 0), .active [], .call (.process ⟨6, 0⟩ 0), .active [], .call (.initiate 0), .active [0, 1, 2, 3, 4, 5, 6],
  .call (.process ⟨4, 0⟩ 0), .active [0, 1, 2, 3], .call (.process ⟨4, 0⟩ 0), .active [0, 1, 2, 3], .call (.process ⟨2, 0⟩ 0), .active [0, 1],
  .call (.process ⟨2, 0⟩ 0), .active [0, 1], .call (.process ⟨0, 0⟩ 0), .active [], .call (.process ⟨0, 0⟩ 0), .active [], .call (.initiate 0),
  .active [0, 1, 2, 3, 4, 5, 6], .call (.initiate 0), .active [0, 1, 2, 3, 4, 5, 6], .call .terminate, .active [], .call .terminate, .active []]

example : passes (quiet chart) test (Mach.fresh ()) = true := by decide +kernel

/-- `TerminationEventBaseTest` (TerminationTest.cpp:173-180). -/
def baseChart : Chart where
  n := 1
  parent _ := none
  pos _ := 0
  init _ := []
  shallowH _ := false
  deepH _ := false
  isSimple _ := true
  initial := 0
  reactions _ := [⟨none, .termination⟩]

theorem baseWf : baseChart.WF := Chart.wf_of_check baseChart (by decide +kernel)

/-- TerminationTest.cpp:273-281. -/
def baseTest : List Do := [
  .call (.initiate 0), .terminated false, .call (.process ⟨0, 0⟩ 0), .terminated true, .call (.initiate 0), .terminated false,
  .call (.process ⟨1, 0⟩ 0), .terminated true]

example : passes (quiet baseChart) baseTest (Mach.fresh ()) = true := by decide +kernel

/-- The chart of StateIterationTest.cpp:34-35, 72-100. States `A` to `G`: 0 to 6. Events `EvToA` 0, `EvToB` 1, `EvToD` 2, `EvToE` 3. -/
def iterChart : Chart where
  n := 7
  parent s := match s with
    | 2 | 3 | 4 => some 1
    | 5 | 6 => some 4
    | _ => none
  pos s := match s with
    | 3 | 4 | 6 => 1
    | _ => 0
  init s := match s with
    | 1 => [⟨.plain, 2⟩, ⟨.plain, 3⟩]
    | 4 => [⟨.plain, 5⟩, ⟨.plain, 6⟩]
    | _ => []
  shallowH _ := false
  deepH _ := false
  isSimple _ := true
  initial := 0
  reactions s := match s with
    | 0 => [⟨some 1, .transition ⟨.plain, 1⟩ none⟩]
    | 1 => [⟨some 0, .transition ⟨.plain, 0⟩ none⟩]
    | 3 => [⟨some 3, .transition ⟨.plain, 4⟩ none⟩]
    | 4 => [⟨some 2, .transition ⟨.plain, 3⟩ none⟩]
    | _ => []

theorem iterWf : iterChart.WF := Chart.wf_of_check iterChart (by decide +kernel)

/-- StateIterationTest.cpp:120-147. -/
def iterTest : List Do := [
  .leaves [], .call (.initiate 0), .leaves [0], .call (.process ⟨1, 0⟩ 0), .leaves [2, 3], .call (.process ⟨0, 0⟩ 0), .leaves [0],
  .call (.process ⟨1, 0⟩ 0), .leaves [2, 3], .call (.process ⟨3, 0⟩ 0), .leaves [2, 5, 6], .call (.process ⟨2, 0⟩ 0), .leaves [2, 3],
  .call (.process ⟨3, 0⟩ 0), .leaves [2, 5, 6], .call (.process ⟨0, 0⟩ 0), .leaves [0], .call .terminate, .leaves []]

example : passes (quiet iterChart) iterTest (Mach.fresh ()) = true := by decide +kernel

end SC.Conform.Termination
