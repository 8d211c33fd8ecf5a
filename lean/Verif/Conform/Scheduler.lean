import Verif.Conform.Basic
import Verif.Fifo.Async
/-!
# test/FifoSchedulerTest.cpp

The test also passes references as constructor arguments and changes the variables before the processor is created; arguments are opaque numbers here. -/

namespace SC.Conform.Scheduler
open SC.Fifo

/-- The chart (FifoSchedulerTest.cpp:122-144). Events: `EvTerminate` 0, `EvFail` 1, `EvCheckCtorArgs` 2, with the expected arguments as payload. -/
def chart : Chart where
  n := 1
  parent _ := none
  pos _ := 0
  init _ := []
  shallowH _ := false
  deepH _ := false
  isSimple _ := true
  initial := 0
  reactions _ := [⟨some 2, .custom 2⟩, ⟨some 0, .termination⟩, ⟨some 1, .custom 1⟩]

theorem wf : chart.WF := Chart.wf_of_check chart (by decide +kernel)

/-- A machine with constructor arguments `a`. The environment tells whether the reaction to `EvCheckCtorArgs` has run, in which case the machine queues
`EvTerminate` for itself; a requirement that is not met throws. -/
def prog (a : Nat) : SC.Prog (Bool × Bool) :=
  { chart with
    ctor := fun _ _ w => { world := w }
    exit := fun _ _ w => { world := w }
    dtor := fun _ _ w => (w, [])
    action := fun _ _ w => { world := w }
    react := fun _ i e _ w =>
      if i = 2 then ({ world := (true, w.2), throws := if e.val = a then none else some 1 }, .discard)
      else ({ world := w, throws := some 1 }, .discard)
    unconsumed := fun _ _ w => { world := w }
    alloc := fun _ w => (w, none)
    translate := fun _ => none }

/-- The second component of the environment is `workItem1Processed` or `workItem2Processed`. -/
def fleet : Fleet (Bool × Bool) where
  prog := prog
  ev e := if e < 2 then ⟨e, 0⟩ else ⟨2, e - 2⟩
  ctor _ _ := .ret
  calls h w := if w.1 then .put (false, w.2) (.deliver (.event 0) h .ret) else .ret
  dtor _ := .ret
  item _ := .get fun w => .put (w.1, true) .ret
  fuel := 0

/-- `RunScheduler`: the number of items that have to be processed; otherwise `UnexpectedEventCount` is thrown. -/
def runScheduler (n : Nat) (k : Code (Bool × Bool)) : Code (Bool × Bool) := .call 0 (fun i => if i = n then k else .throw 99) .throw

/-- `Check` (FifoSchedulerTest.cpp:170-216). -/
def check (h a : Nat) (k : Code (Bool × Bool)) : Code (Bool × Bool) :=
  runScheduler 1 <|
  .deliver .initiate h <| .deliver (.event (2 + a)) h <| runScheduler 3 <|
  .deliver (.event 1) h <| runScheduler 1 <|
  .deliver .initiate h <| .deliver (.event (2 + a)) h <| runScheduler 3 <|
  .deliver (.event 1) h <| runScheduler 1 <|
  .destroy h <| .deliver .initiate h <| .deliver (.event (2 + a)) h <| runScheduler 3 k

/-- The `Check`s for one processor after the other. -/
def checks : List Nat → Code (Bool × Bool) → Code (Bool × Bool)
  | [], k => k
  | a :: l, k => .create a fun h => check h a (checks l k)

/-- FifoSchedulerTest.cpp:227-318. -/
def test : Code (Bool × Bool) :=
  checks [0, 1, 6, 12, 65, 123] <|
  runScheduler 0 <| .item (some 0) <| runScheduler 1 <|
  .get fun w => if w.2 then .put (w.1, false) <|
    .terminate <| runScheduler 1 <| .terminated fun b => if b then
      runScheduler 0 <| .item (some 0) <| runScheduler 0 <| .get fun w => if w.2 then .throw 98 else .ret
    else .throw 97
  else .throw 96

/-- No requirement is violated, and no machine faults. -/
def passed : Bool :=
  match exec (fun n m => Fifo.run (Fifo.body fleet.beh) 20 n m) (test.lift.run .ret .throw) { st := { user := { env := (false, false) } } } with
  | .ok _ m => !m.st.fault && !m.st.user.fault && !m.st.user.bad && decide (m.st.log = [0, 1, 2, 3, 4, 5].flatMap fun h =>
      [.made h ([0, 1, 6, 12, 65, 123].getD h 0), .called .initiate h, .called (.event (2 + [0, 1, 6, 12, 65, 123].getD h 0)) h, .called (.event 0) h,
        .called (.event 1) h, .called .initiate h, .called (.event (2 + [0, 1, 6, 12, 65, 123].getD h 0)) h, .called (.event 0) h, .called (.event 1) h, .gone h])
  | _ => false

example : passed = true := by decide +kernel

end SC.Conform.Scheduler
