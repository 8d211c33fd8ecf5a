import Verif.Conform.Basic
/-!
# test/DeferralTest.cpp and test/DeferralBug.cpp

The calls and requirements were extracted from the sources of the tests by a script. -/

namespace SC.Conform.Deferral

/-- The chart (DeferralTest.cpp:39-98). States: `Active` 0, `Running` 1, `Idle` 2, `Dead` 3.
Events: `EvLeafDeferred` 0, `EvNodeDeferred` 1, `EvSwitch` 2, `EvDestroy` 3. -/
def chart : Chart where
  n := 4
  parent s := match s with
    | 1 | 2 => some 0
    | _ => none
  pos _ := 0
  init s := match s with
    | 0 => [⟨.plain, 2⟩]
    | _ => []
  shallowH _ := false
  deepH _ := false
  isSimple _ := true
  initial := 0
  reactions s := match s with
    | 0 => [⟨some 0, .custom 0⟩, ⟨some 1, .deferral⟩, ⟨some 3, .transition ⟨.plain, 3⟩ none⟩]
    | 1 => [⟨some 2, .transition ⟨.plain, 2⟩ none⟩]
    | 2 => [⟨some 2, .transition ⟨.plain, 1⟩ none⟩, ⟨some 0, .deferral⟩]
    | 3 => [⟨some 1, .custom 0⟩]
    | _ => []

theorem wf : chart.WF := Chart.wf_of_check chart (by decide +kernel)

/-- What increments the count. -/
def processed : List Obs := [.react 0 0, .react 3 0]

/-- DeferralTest.cpp:128-153. -/
def test : List Do := [
  .call (.initiate 5), .call (.process ⟨2, 0⟩ 5), .count processed 0, .call (.process ⟨2, 0⟩ 5), .count processed 0, .call (.process ⟨0, 0⟩ 5),
  .count processed 0, .call (.process ⟨2, 0⟩ 5), .count processed 1, .call (.process ⟨2, 0⟩ 5), .count processed 1, .call (.process ⟨0, 0⟩ 5),
  .call (.process ⟨0, 0⟩ 5), .count processed 1, .call (.process ⟨2, 0⟩ 5), .count processed 3, .call (.process ⟨2, 0⟩ 5), .count processed 3,
  .call (.process ⟨1, 0⟩ 5), .count processed 3, .call (.process ⟨2, 0⟩ 5), .count processed 3, .call (.process ⟨1, 0⟩ 5), .count processed 3,
  .call (.process ⟨3, 0⟩ 5), .count processed 5]

example : passes (quiet chart) test (Mach.fresh ()) = true := by decide +kernel

/-- `DeferralEventBaseTest` (DeferralTest.cpp:101-122). States `X1` to `X3`: 0 to 2. Events: `EvToX2` 0, `EvToX3` 1. -/
def baseChart : Chart where
  n := 3
  parent _ := none
  pos _ := 0
  init _ := []
  shallowH _ := false
  deepH _ := false
  isSimple _ := true
  initial := 0
  reactions s := match s with
    | 0 => [⟨some 0, .transition ⟨.plain, 1⟩ none⟩, ⟨none, .deferral⟩]
    | 1 => [⟨some 1, .transition ⟨.plain, 2⟩ none⟩]
    | _ => []

theorem baseWf : baseChart.WF := Chart.wf_of_check baseChart (by decide +kernel)

/-- DeferralTest.cpp:157-169. -/
def baseTest : List Do := [
  .notIn 0, .call (.initiate 5), .isIn 0, .call (.process ⟨1, 0⟩ 5), .isIn 0, .call (.process ⟨0, 0⟩ 5), .isIn 2, .call (.initiate 5), .isIn 0,
  .call (.process ⟨0, 0⟩ 5), .isIn 1]

example : passes (quiet baseChart) baseTest (Mach.fresh ()) = true := by decide +kernel

/-- The chart of DeferralBug.cpp:25-65. States: `s1` 0, `s2` 1, `s3` 2, `s4_1` 3, `s4_2` 4.
Events: `ev1to2` 0, `ev2to3` 1, `ev3to4_1` 2, `ev3to4_2` 3. -/
def bugChart : Chart where
  n := 5
  parent _ := none
  pos _ := 0
  init _ := []
  shallowH _ := false
  deepH _ := false
  isSimple _ := true
  initial := 0
  reactions s := match s with
    | 0 => [⟨some 0, .transition ⟨.plain, 1⟩ none⟩, ⟨some 1, .deferral⟩, ⟨some 2, .deferral⟩, ⟨some 3, .deferral⟩]
    | 1 => [⟨some 1, .transition ⟨.plain, 2⟩ none⟩, ⟨some 2, .deferral⟩, ⟨some 3, .deferral⟩]
    | 2 => [⟨some 2, .transition ⟨.plain, 3⟩ none⟩, ⟨some 3, .transition ⟨.plain, 4⟩ none⟩]
    | _ => []

theorem bugWf : bugChart.WF := Chart.wf_of_check bugChart (by decide +kernel)

/-- DeferralBug.cpp:70-81. -/
def bugTest : List Do := [
  .call (.initiate 9), .call (.process ⟨2, 0⟩ 9), .call (.process ⟨1, 0⟩ 9), .call (.process ⟨3, 0⟩ 9), .call (.process ⟨0, 0⟩ 9), .isIn 3,
  .call (.initiate 9), .call (.process ⟨2, 0⟩ 9), .call (.process ⟨3, 0⟩ 9), .call (.process ⟨0, 0⟩ 9), .call (.process ⟨1, 0⟩ 9), .isIn 3]

example : passes (quiet bugChart) bugTest (Mach.fresh ()) = true := by decide +kernel

end SC.Conform.Deferral
