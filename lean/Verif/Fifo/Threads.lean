import Verif.Fifo.Worker

/-!
# `fifo_worker` with several threads

Model of `/repo/include/boost/statechart/fifo_worker.hpp` built with `BOOST_HAS_THREADS`, as an
interleaving of atomic steps.  Thread 0 is the one that calls `operator()` (the comment in lines
110-111 allows only one such thread); all other threads, any number of them, call
`queue_work_item` and `terminate`.  Thread 0 does so too, inside work items and between calls of
`operator()`.

The mutex and the condition variable are modelled by what they guarantee: a locked mutex can only
be locked by one thread; `wait` releases the mutex and puts the thread to sleep in one atomic step
and locks the mutex again before it returns; `notify_one` wakes the sleeping thread if there is
one; a sleeping thread may also wake up without a reason.  Each other access to a member is one
step, so that a thread may be stopped between any two of them.

Not modelled here: exceptions of `std::list` and nested calls of `operator()` (for these see
`Verif.Fifo.Worker`).
-/

namespace SC.Fifo

/-- Where a thread is inside `queue_work_item` (lines 75-92). -/
inductive CallPc (ι : Type) where
  /-- Not in a call. -/
  | idle
  /-- Line 83: about to lock the mutex. -/
  | lock (w : Work ι)
  /-- Line 86: about to push an empty item. -/
  | push (w : Work ι)
  /-- Line 87: about to swap the pushed item with the argument. -/
  | swap (w : Work ι)
  /-- Line 90: about to notify. -/
  | notify (w : Work ι)
  /-- Line 92: about to unlock the mutex. -/
  | unlock (w : Work ι)
deriving DecidableEq, Repr

/-- Where thread 0 is inside `operator()` (lines 117-139) and `dequeue_item` (lines 143-176). -/
inductive LoopPc (ι : Type) where
  /-- Not in `operator()`. -/
  | outside
  /-- Line 121: about to evaluate the loop condition. -/
  | check
  /-- Line 146: about to lock the mutex. -/
  | lock
  /-- Line 148: about to test for an empty queue. -/
  | test
  /-- Line 153: about to evaluate the condition of the inner loop. -/
  | recheck
  /-- Line 155: in `wait`. -/
  | blocked
  /-- Lines 172-174: about to take the item out. -/
  | pop
  /-- Line 175: about to unlock the mutex with `w` taken out. -/
  | unlock (w : Option (Work ι))
  /-- Line 134: executing `w`. -/
  | running (w : Work ι)
deriving DecidableEq, Repr

/-- The state of the system.  The last four fields are ghosts. -/
structure Sys (ι : Type) where
  queue : List (Option (Work ι)) := []
  owner : Option Nat := none
  /-- Thread 0 sleeps in `wait` and has not been woken. -/
  waiting : Bool := false
  terminated : Bool := false
  max : Nat := 0
  count : Nat := 0
  call : Nat → CallPc ι := fun _ => .idle
  loop : LoopPc ι := .outside
  /-- The items each thread passed to `queue_work_item`, in order. -/
  calls : Nat → List (Work ι) := fun _ => []
  /-- The items put into the queue, in order, with the thread that did it. -/
  pushed : List (Nat × Work ι) := []
  /-- The items taken out of the queue, in order. -/
  taken : List (Work ι) := []
  /-- The items called, in order. -/
  started : List (Work ι) := []

variable {ι : Type}


/-- A thread's own code runs, so that it may call `queue_work_item`. -/
def Sys.free (s : Sys ι) (t : Nat) : Prop :=
  t ≠ 0 ∨ s.loop = .outside ∨ ∃ i, s.loop = .running (.user i)

/-- `Step wait t s s'`: thread `t` makes a step; `wait` is `waitOnEmptyQueue_`. -/
inductive Step (wait : Bool) : Nat → Sys ι → Sys ι → Prop where
  /- `queue_work_item` -/
  | callBegin {t s} (w : Work ι) : s.call t = .idle → s.free t →
      Step wait t s { s with
        call := upd s.call t (.lock w)
        calls := upd s.calls t (s.calls t ++ [w]) }
  | callEmpty {t s} : s.call t = .idle → s.free t → Step wait t s s
  | callLock {t s w} : s.call t = .lock w → s.owner = none →
      Step wait t s { s with
        call := upd s.call t (.push w)
        owner := some t }
  | callPush {t s w} : s.call t = .push w →
      Step wait t s { s with
        call := upd s.call t (.swap w)
        queue := s.queue ++ [none] }
  | callSwap {t s w} : s.call t = .swap w →
      Step wait t s { s with
        call := upd s.call t (.notify w)
        queue := s.queue.dropLast ++ [some w]
        pushed := s.pushed ++ [(t, w)] }
  | callNotify {t s w} : s.call t = .notify w →
      Step wait t s { s with
        call := upd s.call t (.unlock w)
        waiting := false }
  | callUnlock {t s w} : s.call t = .unlock w →
      Step wait t s { s with
        call := upd s.call t .idle
        owner := none }
  /- `operator()` -/
  | enter {s} (max : Nat) : s.loop = .outside → s.call 0 = .idle →
      Step wait 0 s { s with
        loop := .check
        max := max
        count := 0 }
  | checkGo {s} : s.loop = .check → s.terminated = false → (s.max = 0 ∨ s.count < s.max) →
      Step wait 0 s { s with loop := .lock }
  | checkStop {s} : s.loop = .check → ¬(s.terminated = false ∧ (s.max = 0 ∨ s.count < s.max)) →
      Step wait 0 s { s with loop := .outside }
  | lock {s} : s.loop = .lock → s.owner = none →
      Step wait 0 s { s with
        loop := .test
        owner := some 0 }
  | testEmpty {s} : s.loop = .test → wait = false → s.queue = [] →
      Step wait 0 s { s with loop := .unlock none }
  | testGo {s} : s.loop = .test → ¬(wait = false ∧ s.queue = []) →
      Step wait 0 s { s with loop := .recheck }
  | sleep {s} : s.loop = .recheck → s.queue = [] →
      Step wait 0 s { s with
        loop := .blocked
        waiting := true
        owner := none }
  | wakeUp {s} : s.loop = .blocked → s.waiting = true →
      Step wait 0 s { s with waiting := false }
  | relock {s} : s.loop = .blocked → s.waiting = false → s.owner = none →
      Step wait 0 s { s with
        loop := .recheck
        owner := some 0 }
  | recheckGo {s} : s.loop = .recheck → s.queue ≠ [] →
      Step wait 0 s { s with loop := .pop }
  | pop {s w q} : s.loop = .pop → s.queue = w :: q →
      Step wait 0 s { s with
        loop := .unlock w
        queue := q
        taken := s.taken ++ w.toList }
  | unlockItem {s w} : s.loop = .unlock (some w) →
      Step wait 0 s { s with
        loop := .running w
        owner := none
        started := s.started ++ [w] }
  | unlockEmpty {s} : s.loop = .unlock none →
      Step wait 0 s { s with
        loop := .outside
        owner := none }
  | itemReturns {s i} : s.loop = .running (.user i) → s.call 0 = .idle →
      Step wait 0 s { s with
        loop := .check
        count := s.count + 1 }
  | itemThrows {s i} : s.loop = .running (.user i) → s.call 0 = .idle →
      Step wait 0 s { s with loop := .outside }
  | itemStops {s} : s.loop = .running .stop → s.call 0 = .idle →
      Step wait 0 s { s with
        loop := .check
        count := s.count + 1
        terminated := true }

/-- The states a system can get into. -/
inductive Reachable (wait : Bool) : Sys ι → Prop where
  | fresh : Reachable wait {}
  | step {t s s'} : Reachable wait s → Step wait t s s' → Reachable wait s'

end SC.Fifo
