/-!
# `fifo_worker`

Model of `/repo/include/boost/statechart/fifo_worker.hpp` as one thread sees it: the queue, the
loop of `operator()` and what work items may do while they run.  The interleavings with other
threads are in `Verif.Fifo.Threads`.

A work item (`function0< void >`, line 70) is user code.  It can queue further items, ask the
worker to terminate, call `terminated()`, throw, and call `operator()` of the same worker again;
it can also read and write any state of its own (`σ`).  `Prog` is the syntax tree of such code.
-/

namespace SC.Fifo

/-- Changes one entry of a function. -/
def upd {α : Type} (f : Nat → α) (t : Nat) (a : α) : Nat → α := fun i => if i = t then a else f i

theorem upd_same {α : Type} (f : Nat → α) (t : Nat) (a : α) : upd f t a t = a := by simp [upd]

theorem upd_ne {α : Type} (f : Nat → α) {t i : Nat} (a : α) (h : i ≠ t) : upd f t a i = f i := by
  simp [upd, h]

/-- What a non-empty `work_item` holds: the bound `terminate_impl` of line 106 or user code. -/
inductive Work (ι : Type) where
  | stop
  | user (i : ι)
deriving DecidableEq, Repr

/-- The code of a user's work item: `queue_work_item` (lines 75-102), `terminate` (104-108),
`terminated` (112-115) and `operator()` (117-139) are what it can call.  `call n k h` calls `operator()( n )` on the same worker and
continues with `k` on the returned count or with `h` if an exception came out of the call. -/
inductive Prog (ι σ : Type) where
  | ret
  | throw (x : Nat)
  /-- `queue_work_item`; `none` is an empty function object. -/
  | queue (w : Option ι) (k : Prog ι σ)
  | terminate (k : Prog ι σ)
  | terminated (k : Bool → Prog ι σ)
  | call (n : Nat) (k : Nat → Prog ι σ) (h : Nat → Prog ι σ)
  | get (k : σ → Prog ι σ)
  | put (s : σ) (k : Prog ι σ)

/-- What can be observed of a worker. -/
inductive Ev (ι : Type) where
  /-- A work item entered the queue. -/
  | queued (w : Work ι)
  /-- The worker called a work item. -/
  | start (w : Work ι)
  /-- The work item returned. -/
  | fin (w : Work ι)
  /-- An exception left the work item. -/
  | fail (w : Work ι)
deriving DecidableEq, Repr

/-- The members of `fifo_worker` (lines 184-199) and the state of the user's code.  `log` is a
ghost: it is written but never read. -/
structure Wk (ι σ : Type) where
  queue : List (Option (Work ι)) := []
  terminated : Bool := false
  st : σ
  log : List (Ev ι) := []

/-- Outcome of running code: it returned, it threw, or it was still running when the number of
steps the model was given ran out. -/
inductive Out (ι σ α : Type) where
  | ok (a : α) (m : Wk ι σ)
  | thrown (x : Nat) (m : Wk ι σ)
  | more (m : Wk ι σ)

/-- The worker an outcome leaves behind. -/
def Out.wk {ι σ α : Type} : Out ι σ α → Wk ι σ
  | .ok _ m => m
  | .thrown _ m => m
  | .more m => m

variable {ι σ : Type}

/-- `queue_work_item` (lines 75-92): an empty item is dropped; otherwise an empty item is pushed
to the back and swapped with the argument. -/
def queueWorkItem (w : Option (Work ι)) (m : Wk ι σ) : Wk ι σ :=
  match w with
  | none => m
  | some v =>
    let pushed := m.queue ++ [none]
    { m with
      queue := pushed.dropLast ++ [some v]
      log := m.log ++ [.queued v] }

/-- `terminate` (lines 104-108). -/
def terminate (m : Wk ι σ) : Wk ι σ := queueWorkItem (some .stop) m

/-- `dequeue_item` (lines 143-176) without waiting: the item taken out, empty if the queue is
empty. -/
def dequeueItem (m : Wk ι σ) : Option (Work ι) × Wk ι σ :=
  match m.queue with
  | [] => (none, m)
  | w :: q => (w, { m with queue := q })

/-- Runs user code; `lp` stands for `operator()`. -/
def exec (lp : Nat → Wk ι σ → Out ι σ Nat) : Prog ι σ → Wk ι σ → Out ι σ Unit
  | .ret, m => .ok () m
  | .throw x, m => .thrown x m
  | .queue w k, m => exec lp k (queueWorkItem (w.map .user) m)
  | .terminate k, m => exec lp k (Fifo.terminate m)
  | .terminated k, m => exec lp (k m.terminated) m
  | .get k, m => exec lp (k m.st) m
  | .put s k, m => exec lp k { m with st := s }
  | .call n k h, m =>
    match lp n m with
    | .ok c m' => exec lp (k c) m'
    | .thrown x m' => exec lp (h x) m'
    | .more m' => .more m'

/-- `item()` (line 134): `terminate_impl` (lines 178-181) sets the flag, other items run user
code.  The log records start and end. -/
def callItem (body : ι → Prog ι σ) (lp : Nat → Wk ι σ → Out ι σ Nat) (w : Work ι)
    (m : Wk ι σ) : Out ι σ Unit :=
  let m : Wk ι σ := { m with log := m.log ++ [.start w] }
  let r : Out ι σ Unit := match w with
    | .stop => .ok () { m with terminated := true }
    | .user i => exec lp (body i) m
  match r with
  | .ok _ m => .ok () { m with log := m.log ++ [.fin w] }
  | .thrown x m => .thrown x { m with log := m.log ++ [.fail w] }
  | .more m => .more m

/-- The loop of `operator()` (lines 121-138) with `maxItemCount = max`, entered with
`itemCount = c`. -/
def loop (body : ι → Prog ι σ) : Nat → Nat → Nat → Wk ι σ → Out ι σ Nat
  | 0, _, _, m => .more m
  | k + 1, max, c, m =>
    if !m.terminated && (max == 0 || decide (c < max)) then
      let (item, m) := dequeueItem m
      match item with
      | none => .ok c m
      | some w =>
        match callItem body (fun n m => loop body k n 0 m) w m with
        | .ok _ m => loop body k max (c + 1) m
        | .thrown x m => .thrown x m
        | .more m => .more m
    else .ok c m

/-- `operator()( max )` (lines 117-139), given `k` steps. -/
def run (body : ι → Prog ι σ) (k max : Nat) (m : Wk ι σ) : Out ι σ Nat := loop body k max 0 m

end SC.Fifo
