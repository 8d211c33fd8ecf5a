import Verif.Conform.Basic
import Verif.Result
/-!
# The tests that must not compile, and the tests of results

Charts the library rejects are not well-formed in the model; each becomes well-formed if what the test is about is put right. Not covered:
InconsistentHistoryTest5 to 8 (clearing a history that does not exist, which does nothing in the model), InvalidResultAssignTest and
InvalidResultDefCtorTest (there is no such operation in the model). -/

namespace SC.Conform.Static

/-- A chart with a state that has inner states. -/
def two (init : List Target) (sh dh : Bool) (rs : List Reaction) : Chart where
  n := 2
  parent s := match s with
    | 1 => some 0
    | _ => none
  pos _ := 0
  init s := match s with
    | 0 => init
    | _ => []
  shallowH s := s == 0 && sh
  deepH s := s == 0 && dh
  isSimple _ := true
  initial := 0
  reactions s := match s with
    | 0 => rs
    | _ => []

/-- InvalidChartTest1.cpp: `A` does not have inner states. -/
example : ¬ (two [] false false []).WF := fun h => absurd (h.pos_lt (s := 1) (by decide)) (by decide)
example : (two [⟨.plain, 1⟩] false false []).WF := Chart.wf_of_check _ (by decide)

/-- InvalidChartTest2.cpp and InvalidChartTest3.cpp: `A` (0) with inner states `B` (1) and `C` (2). -/
def three (pB pC : Nat) (init : List Target) : Chart where
  n := 3
  parent s := match s with
    | 1 | 2 => some 0
    | _ => none
  pos s := match s with
    | 1 => pB
    | 2 => pC
    | _ => 0
  init s := match s with
    | 0 => init
    | _ => []
  shallowH _ := false
  deepH _ := false
  isSimple _ := true
  initial := 0
  reactions _ := []

/-- InvalidChartTest2.cpp: `A` does not have an orthogonal region with the number 1. -/
example : ¬ (three 0 1 [⟨.plain, 1⟩]).WF := fun h => absurd (h.pos_lt (s := 2) (by decide)) (by decide)
example : (three 0 0 [⟨.plain, 1⟩]).WF := Chart.wf_of_check _ (by decide)

/-- InvalidChartTest3.cpp: `B` is the first inner initial state but belongs to region 1. -/
example : ¬ (three 1 1 [⟨.plain, 1⟩, ⟨.plain, 2⟩]).WF := fun h => absurd (h.init_ok (s := 0) (i := 0) (t := ⟨.plain, 1⟩) (by decide) rfl).2.2 (by decide)
example : (three 0 1 [⟨.plain, 1⟩, ⟨.plain, 2⟩]).WF := Chart.wf_of_check _ (by decide)

/-- InconsistentHistoryTest1.cpp and InconsistentHistoryTest3.cpp: an inner initial history of a state without history. -/
example : ¬ (two [⟨.shallow, 1⟩] false false []).WF := fun h => absurd (h.init_shallow (s := 0) (i := 0) (by decide) rfl rfl) (by decide)
example : (two [⟨.shallow, 1⟩] true false []).WF := Chart.wf_of_check _ (by decide)
example : ¬ (two [⟨.deep, 1⟩] false false []).WF := fun h => absurd (h.init_deep (s := 0) (i := 0) (by decide) rfl rfl) (by decide)
example : (two [⟨.deep, 1⟩] false true []).WF := Chart.wf_of_check _ (by decide)

/-- InconsistentHistoryTest2.cpp and InconsistentHistoryTest4.cpp: a transition to a history of the other kind. -/
example : ¬ (two [⟨.plain, 1⟩] false true [⟨some 0, .transition ⟨.shallow, 1⟩ none⟩]).WF :=
  fun h => absurd (h.trans_ok (s := 0) (by decide) (List.mem_singleton.2 rfl) rfl) (by decide)
example : (two [⟨.plain, 1⟩] true false [⟨some 0, .transition ⟨.shallow, 1⟩ none⟩]).WF := Chart.wf_of_check _ (by decide)
example : ¬ (two [⟨.plain, 1⟩] true false [⟨some 0, .transition ⟨.deep, 1⟩ none⟩]).WF :=
  fun h => absurd (h.trans_ok (s := 0) (by decide) (List.mem_singleton.2 rfl) rfl) (by decide)
example : (two [⟨.plain, 1⟩] false true [⟨some 0, .transition ⟨.deep, 1⟩ none⟩]).WF := Chart.wf_of_check _ (by decide)

/-- UnsuppDeepHistoryTest.cpp: `A` (0) with deep history, `B` (1) with regions `C` (2) and `D` (3). -/
def deep (dh : Bool) : Chart where
  n := 4
  parent s := match s with
    | 1 => some 0
    | 2 | 3 => some 1
    | _ => none
  pos s := match s with
    | 3 => 1
    | _ => 0
  init s := match s with
    | 0 => [⟨.plain, 1⟩]
    | 1 => [⟨.plain, 2⟩, ⟨.plain, 3⟩]
    | _ => []
  shallowH _ := false
  deepH s := s == 0 && dh
  isSimple _ := true
  initial := 0
  reactions _ := []

example : ¬ (deep true).WF := fun h => absurd (h.deep_one (s := 1) (by decide) (by decide)) (by decide)
example : (deep false).WF := Chart.wf_of_check _ (by decide)

/-- InvalidTransitionTest1.cpp: `Active` (0) with regions `Idle0` (1) and `Idle1` (2), and a transition from 1 to `d`. -/
def idle (d : Nat) : Chart where
  n := 3
  parent s := match s with
    | 1 | 2 => some 0
    | _ => none
  pos s := match s with
    | 2 => 1
    | _ => 0
  init s := match s with
    | 0 => [⟨.plain, 1⟩, ⟨.plain, 2⟩]
    | _ => []
  shallowH _ := false
  deepH _ := false
  isSimple _ := true
  initial := 0
  reactions s := match s with
    | 1 => [⟨some 0, .transition ⟨.plain, d⟩ none⟩]
    | _ => []

example : ¬ (idle 2).WF := fun h => absurd (h.trans_ok (s := 1) (by decide) (List.mem_singleton.2 rfl) rfl) (by decide)
example : (idle 1).WF := Chart.wf_of_check _ (by decide)

/-- InvalidTransitionTest2.cpp: `Active` (0), `Idle0` (1) with `Idle00` (3), `Idle1` (2) with `Idle10` (4), and a transition from 4 to `d`. -/
def idle2 (d : Nat) : Chart where
  n := 5
  parent s := match s with
    | 1 | 2 => some 0
    | 3 => some 1
    | 4 => some 2
    | _ => none
  pos s := match s with
    | 2 => 1
    | _ => 0
  init s := match s with
    | 0 => [⟨.plain, 1⟩, ⟨.plain, 2⟩]
    | 1 => [⟨.plain, 3⟩]
    | 2 => [⟨.plain, 4⟩]
    | _ => []
  shallowH _ := false
  deepH _ := false
  isSimple _ := true
  initial := 0
  reactions s := match s with
    | 4 => [⟨some 0, .transition ⟨.plain, d⟩ none⟩]
    | _ => []

example : ¬ (idle2 3).WF := fun h => absurd (h.trans_ok (s := 4) (by decide) (List.mem_singleton.2 rfl) rfl) (by decide)
example : (idle2 2).WF := Chart.wf_of_check _ (by decide)

/-- InvalidResultCopyTest.cpp: `r`, `rCopy1` and its consumption, `rCopy2`. -/
example : (match Result.run ({} : Result.St Nat) [.make 0, .copy 0, .get 1, .copy 0] with | .assert => true | _ => false) = true := by decide
example : (match Result.run ({} : Result.St Nat) [.make 0, .copy 0, .get 1] with | .ok s => s.read == [0] | _ => false) = true := by decide

/-- UnconsumedResultTest.cpp. -/
example : (match Result.run ({} : Result.St Nat) [.make 0, .destroy 0] with | .assert => true | _ => false) = true := by decide

end SC.Conform.Static
