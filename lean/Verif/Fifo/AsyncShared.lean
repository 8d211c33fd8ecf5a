import Verif.Fifo.Async
import Verif.Fifo.Shared

/-!
# Asynchronous state machines and several threads

As `Fifo.Async`, but other threads use the scheduler at the same time (`Fifo.Shared`): they queue work items and change the environment, but do not touch the
machines, which only the thread that calls `operator()` can get at. An operation on a machine is one step: other threads do not change the environment while it
lasts. What callbacks read in the meantime of what other threads write must be thought of as part of the environment at the start of the operation.
-/

namespace SC.Fifo

variable {V : Type}

/-- Another thread changes the environment. -/
def OnlyEnv (y y' : Yard V) : Prop := ∃ v, y' = { y with env := v }

/-- A scheduler of state machines between calls of the thread that calls `operator()`, with whatever other threads have done. -/
inductive AShared (wait : Bool) (A : Fleet V) : Wk Op (Ct (Yard V)) → Prop where
  | fresh (v : V) : AShared wait A { st := { user := { env := v } } }
  | other {m m'} : AShared wait A m → Env OnlyEnv m m' → AShared wait A m'
  | client {m m'} (k : Nat) (c : Code V) : AShared wait A m →
      (execS OnlyEnv (fun n m o => loopS OnlyEnv wait (body A.beh) k n 0 m o) (c.lift.run .ret .throw) m (.ok () m') ∨
        ∃ x, execS OnlyEnv (fun n m o => loopS OnlyEnv wait (body A.beh) k n 0 m o) (c.lift.run .ret .throw) m (.thrown x m')) → AShared wait A m'

end SC.Fifo
