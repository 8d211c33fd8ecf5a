import Verif.Conform.Basic
/-!
# test/HistoryTest.cpp

The calls and requirements were extracted from the source of the test by a script. -/

namespace SC.Conform.History

/-- The chart (HistoryTest.cpp:50-118). States: `A` 0, `B` 1, `J` 2, `K` 3, `L` 4, `M` 5, `N` 6, `O` 7, `P` 8, `Q` 9, `C` 10, `D` 11, `E` 12, `F` 13, `G` 14, `H` 15, `I` 16.
Events: `EvToB` 0, `EvToD` 1, `EvToDShallow` 2, `EvToDDeep` 3, `EvToDShallowLocal` 4, `EvToDDeepLocal` 5, `EvToF` 6, `EvToFShallow` 7, `EvToFDeep` 8, `EvToH` 9, `EvToI` 10, `EvToM` 11, `EvToQ` 12, `EvWhatever` 13. -/
def chart : Chart where
  n := 17
  parent s := match s with
    | 1 | 10 => some 0
    | 2 | 3 | 6 | 7 => some 1
    | 4 | 5 => some 3
    | 8 | 9 => some 7
    | 11 | 12 => some 10
    | 13 | 14 => some 12
    | 15 | 16 => some 14
    | _ => none
  pos s := match s with
    | 6 | 7 => 1
    | _ => 0
  init s := match s with
    | 0 => [⟨.plain, 1⟩]
    | 1 => [⟨.shallow, 2⟩, ⟨.deep, 6⟩]
    | 3 => [⟨.plain, 4⟩]
    | 7 => [⟨.plain, 8⟩]
    | 10 => [⟨.plain, 11⟩]
    | 12 => [⟨.plain, 13⟩]
    | 14 => [⟨.plain, 15⟩]
    | _ => []
  shallowH s := s == 1 || s == 10 || s == 12
  deepH s := s == 1 || s == 10 || s == 12
  isSimple _ := true
  initial := 0
  reactions s := match s with
    | 0 => [⟨some 0, .transition ⟨.plain, 1⟩ none⟩, ⟨some 1, .transition ⟨.plain, 11⟩ none⟩, ⟨some 2, .transition ⟨.shallow, 11⟩ none⟩,
      ⟨some 3, .transition ⟨.deep, 11⟩ none⟩, ⟨some 6, .transition ⟨.plain, 13⟩ none⟩, ⟨some 7, .transition ⟨.shallow, 13⟩ none⟩,
      ⟨some 8, .transition ⟨.deep, 13⟩ none⟩, ⟨some 9, .transition ⟨.plain, 15⟩ none⟩, ⟨some 10, .transition ⟨.plain, 16⟩ none⟩,
      ⟨some 11, .transition ⟨.plain, 5⟩ none⟩, ⟨some 12, .transition ⟨.plain, 9⟩ none⟩]
    | 14 => [⟨some 4, .transition ⟨.shallow, 11⟩ none⟩, ⟨some 5, .transition ⟨.deep, 11⟩ none⟩]
    | _ => []

/-- `unconsumed_event` throws. -/
def prog : Prog Unit := { quiet chart with unconsumed := fun _ _ w => { world := w, throws := some 1 } }

theorem wf : prog.toChart.WF := Chart.wf_of_check chart (by decide +kernel)

/-- HistoryTest.cpp:123-170. -/
def test1 : List Do := [
  .notIn 1, .call (.initiate 0), .notIn 11, .isIn 1, .call (.process ⟨2, 0⟩ 0), .isIn 11, .call (.process ⟨2, 0⟩ 0), .isIn 11,
  .call (.process ⟨10, 0⟩ 0), .isIn 16, .call (.process ⟨2, 0⟩ 0), .isIn 13, .call (.process ⟨9, 0⟩ 0), .isIn 15, .call (.process ⟨2, 0⟩ 0), .isIn 13,
  .call (.process ⟨6, 0⟩ 0), .isIn 13, .call (.process ⟨0, 0⟩ 0), .isIn 1, .call (.process ⟨2, 0⟩ 0), .isIn 13, .call (.initiate 0),
  .call (.process ⟨2, 0⟩ 0), .isIn 11, .call (.process ⟨10, 0⟩ 0), .isIn 16, .call (.process ⟨0, 0⟩ 0), .isIn 1, .call (.clearShallow (10, 0)),
  .call (.process ⟨2, 0⟩ 0), .isIn 11]

/-- HistoryTest.cpp:172-215. -/
def test2 : List Do := [
  .call (.initiate 0), .isIn 1, .call (.process ⟨3, 0⟩ 0), .isIn 11, .call (.process ⟨3, 0⟩ 0), .isIn 11, .call (.process ⟨10, 0⟩ 0), .isIn 16,
  .call (.process ⟨0, 0⟩ 0), .isIn 1, .call (.process ⟨3, 0⟩ 0), .isIn 16, .call (.process ⟨9, 0⟩ 0), .isIn 15, .call (.process ⟨0, 0⟩ 0), .isIn 1,
  .call (.process ⟨3, 0⟩ 0), .isIn 15, .call (.process ⟨6, 0⟩ 0), .isIn 13, .call (.process ⟨0, 0⟩ 0), .isIn 1, .call (.process ⟨3, 0⟩ 0), .isIn 13,
  .call (.initiate 0), .call (.process ⟨3, 0⟩ 0), .isIn 11, .call (.process ⟨10, 0⟩ 0), .isIn 16, .call (.process ⟨0, 0⟩ 0), .isIn 1,
  .call (.clearDeep (10, 0)), .call (.process ⟨3, 0⟩ 0), .isIn 11]

/-- HistoryTest.cpp:218-256. -/
def test3 : List Do := [
  .call (.initiate 0), .isIn 1, .call (.process ⟨7, 0⟩ 0), .isIn 13, .call (.process ⟨7, 0⟩ 0), .isIn 13, .call (.process ⟨10, 0⟩ 0), .isIn 16,
  .call (.process ⟨7, 0⟩ 0), .isIn 15, .call (.process ⟨9, 0⟩ 0), .isIn 15, .call (.process ⟨0, 0⟩ 0), .isIn 1, .call (.process ⟨7, 0⟩ 0), .isIn 15,
  .call (.process ⟨10, 0⟩ 0), .isIn 16, .call (.initiate 0), .call (.process ⟨7, 0⟩ 0), .isIn 13, .call (.process ⟨10, 0⟩ 0), .isIn 16,
  .call (.process ⟨0, 0⟩ 0), .isIn 1, .call (.clearShallow (12, 0)), .call (.process ⟨7, 0⟩ 0), .isIn 13]

/-- HistoryTest.cpp:258-331. -/
def test4 : List Do := [
  .call (.initiate 0), .isIn 1, .call (.process ⟨8, 0⟩ 0), .isIn 13, .call (.process ⟨8, 0⟩ 0), .isIn 13, .call (.process ⟨10, 0⟩ 0), .isIn 16,
  .call (.process ⟨0, 0⟩ 0), .isIn 1, .call (.process ⟨8, 0⟩ 0), .isIn 16, .call (.process ⟨9, 0⟩ 0), .isIn 15, .call (.process ⟨0, 0⟩ 0), .isIn 1,
  .call (.process ⟨8, 0⟩ 0), .isIn 15, .call (.process ⟨6, 0⟩ 0), .isIn 13, .call (.process ⟨0, 0⟩ 0), .isIn 1, .call (.process ⟨8, 0⟩ 0), .isIn 13,
  .call (.initiate 0), .call (.process ⟨8, 0⟩ 0), .isIn 13, .call (.process ⟨10, 0⟩ 0), .isIn 16, .call (.process ⟨0, 0⟩ 0), .isIn 1,
  .call (.clearDeep (12, 0)), .call (.process ⟨8, 0⟩ 0), .isIn 13, .call (.initiate 0), .throws (.process ⟨13, 0⟩ 0), .call (.process ⟨10, 0⟩ 0),
  .isIn 16, .call (.process ⟨4, 0⟩ 0), .isIn 13, .call (.process ⟨10, 0⟩ 0), .call (.process ⟨5, 0⟩ 0), .isIn 16, .call (.process ⟨0, 0⟩ 0), .isIn 2,
  .isIn 6, .call (.process ⟨11, 0⟩ 0), .isIn 5, .call (.process ⟨0, 0⟩ 0), .isIn 4, .isIn 6, .call (.process ⟨12, 0⟩ 0), .isIn 9,
  .call (.process ⟨0, 0⟩ 0), .isIn 9]

example : passes prog test1 (Mach.fresh ()) = true := by decide +kernel
example : passes prog test2 (Mach.fresh ()) = true := by decide +kernel
example : passes prog test3 (Mach.fresh ()) = true := by decide +kernel
example : passes prog test4 (Mach.fresh ()) = true := by decide +kernel

end SC.Conform.History
