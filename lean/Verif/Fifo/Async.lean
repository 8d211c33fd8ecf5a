import Verif.Fifo.Scheduler
import Verif.Reach

/-!
# `asynchronous_state_machine`

Model of `/repo/include/boost/statechart/asynchronous_state_machine.hpp` (lines 36-80) and
`event_processor.hpp` (lines 24-78): the processors of a scheduler are state machines of the model
of `Verif.Dispatch`.

All user code shares one environment of type `V`: the world of each machine while it runs, and what
client code and work items read and write.  Callbacks of a machine can call the scheduler
(`my_scheduler()`); the model makes these calls when the operation on the machine has ended, which
gives the same queue, as nothing else runs in between.
-/

namespace SC.Fifo

variable {V : Type}

/-- The user's code. Machines of several types can be made; the argument of the constructor tells
which. -/
structure Fleet (V : Type) where
  /-- Chart and callbacks of the machines made with argument `a`. -/
  prog : Nat → SC.Prog V
  /-- The events. -/
  ev : Nat → Event
  /-- The exception, if there is no memory for the node of `processorSet_` for the processor of a handle. -/
  node : Nat → Option Nat := fun _ => none
  /-- The constructor of the most derived class. -/
  ctor : Nat → Nat → Code V
  /-- The calls of the scheduler made by callbacks of the machine of a handle. -/
  calls : Nat → V → Code V
  /-- The destructor of the most derived class. -/
  dtor : Nat → Code V
  item : Nat → Code V
  /-- Bound for the number of queued events a machine processes in one call. -/
  fuel : Nat

/-- The machines and the environment.  `gone` is a ghost: the machines that were destroyed, with
handle and argument.  `fault` is set when a machine faults or does not exist; `bad` when the
precondition of `initiate()` (`Call.legal`) does not hold or `fuel` was not enough. -/
structure Yard (V : Type) where
  env : V
  mach : Nat → Option (Nat × Mach V) := fun _ => none
  gone : List (Nat × Nat × Mach V) := []
  bad : Bool := false
  fault : Bool := false

/-- User code that has no access to the machines. -/
def Code.lift : Code V → Code (Yard V)
  | .ret => .ret
  | .throw x => .throw x
  | .create a k => .create a fun h => (k h).lift
  | .destroy h k => .destroy h k.lift
  | .deliver o h k => .deliver o h k.lift
  | .item i k => .item i k.lift
  | .terminate k => .terminate k.lift
  | .terminated k => .terminated fun b => (k b).lift
  | .call n k c => .call n (fun i => (k i).lift) (fun x => (c x).lift)
  | .get k => .get fun y => (k y.env).lift
  | .put v k => .get fun y => .put { y with env := v } k.lift

/-- Code followed by code, or by a handler after an exception. -/
def Code.andThen {W : Type} : Code W → Code W → (Nat → Code W) → Code W
  | .ret, r, _ => r
  | .throw x, _, t => t x
  | .create a k, r, t => .create a fun h => (k h).andThen r t
  | .destroy h k, r, t => .destroy h (k.andThen r t)
  | .deliver o h k, r, t => .deliver o h (k.andThen r t)
  | .item i k, r, t => .item i (k.andThen r t)
  | .terminate k, r, t => .terminate (k.andThen r t)
  | .terminated k, r, t => .terminated fun b => (k b).andThen r t
  | .call n k c, r, t => .call n (fun i => (k i).andThen r t) (fun x => (c x).andThen r t)
  | .get k, r, t => .get fun w => (k w).andThen r t
  | .put w k, r, t => .put w (k.andThen r t)

namespace Fleet
variable (A : Fleet V)

/-- `initiate_impl`, `process_event_impl`, `terminate_impl`
(asynchronous_state_machine.hpp:66-79). -/
def call : HOp → Call
  | .initiate => .initiate A.fuel
  | .terminate => .terminate
  | .event e => .process (A.ev e) A.fuel

/-- `Call.legal`, decided by trying. -/
def legal (P : SC.Prog V) (m : Mach V) : Call → Bool
  | .initiate _ => match SC.terminate P m with
    | .ok _ m1 => m1.terminated
    | _ => true
  | _ => true

/-- `event_processor::initiate`, `process_event`, `terminate` (event_processor.hpp:42-55) on the
machine of handle `h`. -/
def operate (o : HOp) (h : Nat) : Code (Yard V) :=
  .get fun y => match y.mach h with
    | none => .put { y with fault := true } .ret
    | some (a, m) =>
      if legal (A.prog a) { m with world := y.env } (A.call o) then
        match (A.call o).run (A.prog a) { m with world := y.env } with
        | .ok true m' => .put { y with env := m'.world, mach := upd y.mach h (some (a, m')) } (A.calls h m'.world).lift
        | .ok false _ => .put { y with bad := true } .ret
        | .thrown x m' => .put { y with env := m'.world, mach := upd y.mach h (some (a, m')) }
            ((A.calls h m'.world).lift.andThen (.throw x) (fun _ => .throw x))
        | .fault _ => .put { y with fault := true } .ret
      else .put { y with bad := true } .ret

/-- Construction of a machine; the base class comes first. -/
def make (h a : Nat) : Code (Yard V) :=
  (A.ctor h a).lift.andThen (.get fun y => .put { y with mach := upd y.mach h (some (a, Mach.fresh y.env)) } .ret) .throw

/-- `~state_machine`, after the destructor of the derived class. -/
def unmake (h : Nat) : Code (Yard V) :=
  .get fun y => match y.mach h with
    | none => .put { y with fault := true } .ret
    | some (a, m) => match SC.destruct (A.prog a) { m with world := y.env } with
      | .ok _ m' => .put { y with env := m'.world, mach := upd y.mach h none, gone := y.gone ++ [(h, a, m')] } (A.calls h m'.world).lift
      | _ => .put { y with fault := true } .ret

def beh : Fun → Code (Yard V)
  | .node h => match A.node h with
    | some x => .throw x
    | none => .ret
  | .ctor h a => A.make h a
  | .op o h => A.operate o h
  | .dtor h => (A.dtor h).lift.andThen (A.unmake h) (fun _ => A.unmake h)
  | .item i => (A.item i).lift

end Fleet

/-- A scheduler of state machines a client can get hold of. -/
inductive AReach (A : Fleet V) : Wk Op (Ct (Yard V)) → Prop where
  | fresh (v : V) : AReach A { st := { user := { env := v } } }
  | client {m} (k : Nat) (c : Code V) : AReach A m →
      AReach A (exec (fun n m => run (body A.beh) k n m) (c.lift.run .ret .throw) m).wk
  | run {m} (k n : Nat) : AReach A m → AReach A (run (body A.beh) k n m).wk

end SC.Fifo
