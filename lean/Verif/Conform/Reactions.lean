import Verif.Conform.Basic
/-!
# test/InStateReactionTest.cpp, test/CustomReactionTest.cpp, test/TriggeringEventTest.cpp, test/StateCastTest.cpp -/

namespace SC.Conform.Reactions

/-- The chart (InStateReactionTest.cpp:23-67). States: `A` 0, `B` 1. Events `E` to `I`: 0 to 4.
Action 0: `A::IncrementCount`; action 1: `B::IncrementCount`. -/
def inChart : Chart where
  n := 2
  parent s := match s with
    | 1 => some 0
    | _ => none
  pos _ := 0
  init s := match s with
    | 0 => [⟨.plain, 1⟩]
    | _ => []
  shallowH _ := false
  deepH _ := false
  isSimple _ := true
  initial := 0
  reactions s := match s with
    | 0 => [⟨some 0, .inState (some 0)⟩, ⟨none, .inState (some 0)⟩]
    | 1 => [⟨some 1, .inState (some 1)⟩, ⟨some 2, .inState (some 0)⟩, ⟨some 4, .inState none⟩]
    | _ => []

theorem inWf : inChart.WF := Chart.wf_of_check inChart (by decide +kernel)

/-- InStateReactionTest.cpp:84-99 (extracted by a script). -/
def inTest : List Do := [
  .call (.initiate 0), .isIn 0, .isIn 1, .count [.act 0] 0, .count [.act 1] 0, .call (.process ⟨1, 0⟩ 0),
  .isIn 0, .isIn 1, .count [.act 0] 0, .count [.act 1] 1, .call (.process ⟨0, 0⟩ 0), .isIn 0, .isIn 1, .count [.act 0] 1, .count [.act 1] 1,
  .call (.process ⟨0, 0⟩ 0), .call (.process ⟨1, 0⟩ 0), .isIn 0, .isIn 1, .count [.act 0] 2, .count [.act 1] 2, .call (.process ⟨2, 0⟩ 0),
  .isIn 0, .isIn 1, .count [.act 0] 3, .count [.act 1] 2, .call (.process ⟨3, 0⟩ 0), .isIn 0, .isIn 1, .count [.act 0] 4, .count [.act 1] 2,
  .call (.process ⟨4, 0⟩ 0), .isIn 0, .isIn 1, .count [.act 0] 4, .count [.act 1] 2]

example : passes (quiet inChart) inTest (Mach.fresh ()) = true := by decide +kernel

/-- The chart of CustomReactionTest.cpp:45-296. States `A` to `F`: 0 to 5. Events: `EvToC` 0, `EvToD` 1, `EvDiscardNever` 2, `EvDiscardInB` 3,
`EvDiscardInD` 4, `EvTransit` 5, `EvTransitWithAction` 6, `EvDefer` 7, `EvTerminate` 8. Custom reaction `n` is that to event `n`. -/
def customChart : Chart where
  n := 6
  parent s := match s with
    | 1 => some 0
    | 2 | 3 => some 1
    | 4 | 5 => some 3
    | _ => none
  pos s := match s with
    | 5 => 1
    | _ => 0
  init s := match s with
    | 0 => [⟨.plain, 1⟩]
    | 1 => [⟨.plain, 2⟩]
    | 3 => [⟨.plain, 4⟩, ⟨.plain, 5⟩]
    | _ => []
  shallowH _ := false
  deepH _ := false
  isSimple _ := true
  initial := 0
  reactions s := match s with
    | 0 => [⟨some 2, .custom 2⟩, ⟨some 3, .custom 3⟩, ⟨some 4, .custom 4⟩, ⟨some 7, .custom 7⟩, ⟨some 8, .custom 8⟩, ⟨some 6, .custom 6⟩, ⟨some 5, .custom 5⟩]
    | 2 => [⟨some 1, .transition ⟨.plain, 3⟩ none⟩, ⟨some 2, .custom 2⟩, ⟨some 3, .custom 3⟩, ⟨some 4, .custom 4⟩]
    | 3 => [⟨some 0, .transition ⟨.plain, 2⟩ none⟩, ⟨some 2, .custom 2⟩, ⟨some 3, .custom 3⟩, ⟨some 4, .custom 4⟩]
    | _ => [⟨some 2, .custom 2⟩, ⟨some 3, .custom 3⟩, ⟨some 4, .custom 4⟩]

theorem customWf : customChart.WF := Chart.wf_of_check customChart (by decide +kernel)

/-- `BOOST_FAIL` throws. -/
def customProg : Prog Unit :=
  { quiet customChart with
    react := fun s i _ _ w => match i, s with
      | 2, _ => ({ world := w }, .forward)
      | 3, 0 => ({ world := w, throws := some 1 }, .discard)
      | 3, 1 => ({ world := w }, .discard)
      | 3, _ => ({ world := w }, .forward)
      | 4, 0 => ({ world := w, throws := some 1 }, .discard)
      | 4, 1 => ({ world := w, throws := some 1 }, .discard)
      | 4, 3 => ({ world := w }, .discard)
      | 4, _ => ({ world := w }, .forward)
      | 5, _ => ({ world := w }, .transit ⟨.plain, 0⟩ none)
      | 6, _ => ({ world := w }, .transit ⟨.plain, 0⟩ (some 6))
      | 7, _ => ({ world := w }, .defer)
      | _, _ => ({ world := w }, .terminate) }

/-- CustomReactionTest.cpp:346-369. The test requires that at most one of `E` and `F` is visited; the model follows the order of the list, so
`E` comes first. Where `EvDiscardNever` has to visit all of `A`, `B`, `D`, `E`, `F`, nothing is said about how often. -/
def customTest : List Do := [
  .call (.initiate 0), .call (.process ⟨2, 0⟩ 0), .count [.react 2 2] 1, .count [.react 1 2] 1, .count [.react 0 2] 1,
  .call (.process ⟨3, 0⟩ 0), .count [.react 2 3] 1, .count [.react 1 3] 1, .count [.react 0 3] 0,
  .call (.process ⟨1, 0⟩ 0), .isIn 3,
  .call (.process ⟨2, 0⟩ 0), .atLeast [.react 4 2] 1, .atLeast [.react 5 2] 1, .atLeast [.react 3 2] 1, .atLeast [.react 1 2] 2, .atLeast [.react 0 2] 2,
  .call (.process ⟨4, 0⟩ 0), .count [.react 3 4] 1, .count [.react 4 4, .react 5 4] 1,
  .call (.process ⟨3, 0⟩ 0), .count [.react 3 3] 1, .count [.react 1 3] 2, .count [.react 4 3, .react 5 3] 1]

example : passes customProg customTest (Mach.fresh ()) = true := by decide +kernel

/-- The reactions that the test only compiles (CustomReactionTest.cpp:131-155). -/
example : passes customProg [.call (.initiate 0), .call (.process ⟨1, 0⟩ 0), .isIn 3, .call (.process ⟨5, 0⟩ 0), .isIn 2, .call (.process ⟨1, 0⟩ 0),
    .call (.process ⟨7, 0⟩ 3), .call (.process ⟨6, 0⟩ 3), .isIn 2, .count [.act 6] 1, .count [.react 0 7] 2, .call (.process ⟨8, 0⟩ 3), .terminated true]
    (Mach.fresh ()) = true := by decide +kernel

/-- `CustomReactionEventBaseTest` (CustomReactionTest.cpp:311-340). -/
def baseChart : Chart where
  n := 1
  parent _ := none
  pos _ := 0
  init _ := []
  shallowH _ := false
  deepH _ := false
  isSimple _ := true
  initial := 0
  reactions _ := [⟨none, .custom 0⟩]

/-- CustomReactionTest.cpp:373-378. -/
example : passes (quiet baseChart) [.call (.initiate 0), .count [.react 0 0] 0, .call (.process ⟨0, 0⟩ 0), .count [.react 0 0] 1,
    .call (.process ⟨1, 0⟩ 0), .count [.react 0 0] 2] (Mach.fresh ()) = true := by decide +kernel

/-- The chart of TriggeringEventTest.cpp:29-87. States: `A` 0, `B` 1. Events: `EvGoToB` 0, `EvDoIt` 1, `exception_thrown` 9.
Actions: `Transit` 0, `DoIt` 1, `HandleException` 2. -/
def trigChart : Chart where
  n := 2
  parent _ := none
  pos _ := 0
  init _ := []
  shallowH _ := false
  deepH _ := false
  isSimple _ := false
  initial := 0
  reactions s := match s with
    | 0 => [⟨some 0, .transition ⟨.plain, 1⟩ (some 0)⟩]
    | 1 => [⟨some 1, .inState (some 1)⟩, ⟨some 9, .inState (some 2)⟩]
    | _ => []

def trigProg : Prog Unit :=
  { quiet trigChart with
    action := fun a _ w => { world := w, throws := if a = 1 then some 3 else none }
    translate := fun x => some ⟨9, x⟩ }

/-- TriggeringEventTest.cpp:93-96. -/
example : passes trigProg [.call (.initiate 0), .call (.process ⟨0, 0⟩ 0), .call (.process ⟨1, 0⟩ 0), .call .terminate,
    .trace [(none, .enter 0), (some ⟨0, 0⟩, .exit 0), (some ⟨0, 0⟩, .destroy 0), (some ⟨0, 0⟩, .act 0), (some ⟨0, 0⟩, .enter 1),
      (some ⟨1, 0⟩, .act 1), (some ⟨9, 3⟩, .act 2), (none, .exit 1), (none, .destroy 1)]] (Mach.fresh ()) = true := by decide +kernel

/-- The chart of StateCastTest.cpp:72-116. States `A` to `H`: 0 to 7. Events: `EvToB` 0, `EvToF` 1, `EvCheck` 2. -/
def castChart : Chart where
  n := 8
  parent s := match s with
    | 2 | 3 => some 0
    | 4 | 5 => some 2
    | 6 | 7 => some 3
    | _ => none
  pos s := match s with
    | 3 => 1
    | _ => 0
  init s := match s with
    | 0 => [⟨.plain, 2⟩, ⟨.plain, 3⟩]
    | 2 => [⟨.plain, 4⟩]
    | 3 => [⟨.plain, 6⟩]
    | _ => []
  shallowH _ := false
  deepH _ := false
  isSimple s := s != 4 && s != 5
  initial := 0
  reactions s := match s with
    | 0 => [⟨some 0, .transition ⟨.plain, 1⟩ none⟩]
    | 1 => [⟨some 1, .transition ⟨.plain, 5⟩ none⟩]
    | 4 => [⟨some 2, .custom 4⟩]
    | 5 => [⟨some 2, .custom 5⟩]
    | _ => []

theorem castWf : castChart.WF := Chart.wf_of_check castChart (by decide +kernel)

/-- A machine that looks as user code sees it. -/
def ofView (v : View) : Mach Unit :=
  { Mach.fresh () with heap := v.objs, slot := fun i => (v.slots[i]?).join, len := v.slots.length, endIx := v.slots.length }

/-- StateCastTest.cpp:118-142: a requirement that is not met throws. -/
def castProg : Prog Unit :=
  { quiet castChart with
    ctor := fun s _ w => { world := w, cmds := if s = 4 ∨ s = 5 then [.post ⟨2, 0⟩] else [] }
    react := fun s _ _ v w =>
      let met := passes (quiet castChart) [.isIn 0, .notIn 1, .isIn 2, .isIn 3, if s = 4 then .isIn 4 else .notIn 4, if s = 5 then .isIn 5 else .notIn 5,
        .isIn 6, .notIn 7] (ofView v)
      ({ world := w, throws := if met then none else some 1 }, .discard) }

/-- StateCastTest.cpp:148-200 (extracted by a script). -/
def castTest : List Do := [
  .notIn 0, .notIn 1, .notIn 2, .notIn 3, .notIn 4, .notIn 5, .notIn 6, .notIn 7, .call (.initiate 1), .isIn 0, .notIn 1, .isIn 2, .isIn 3, .isIn 4,
  .notIn 5, .isIn 6, .notIn 7, .call (.process ⟨0, 0⟩ 1), .notIn 0, .isIn 1, .notIn 2, .notIn 3, .notIn 4, .notIn 5, .notIn 6, .notIn 7,
  .call (.process ⟨1, 0⟩ 1), .isIn 0, .notIn 1, .isIn 2, .isIn 3, .notIn 4, .isIn 5, .isIn 6, .notIn 7, .call .terminate, .notIn 0, .notIn 1,
  .notIn 2, .notIn 3, .notIn 4, .notIn 5, .notIn 6, .notIn 7,
  .count [.react 4 4] 1, .count [.react 5 5] 1]

example : passes castProg castTest (Mach.fresh ()) = true := by decide +kernel

end SC.Conform.Reactions
