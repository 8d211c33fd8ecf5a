import Verif.Fifo.Worker

/-!
# `fifo_scheduler` and `processor_container`

Model of `/repo/include/boost/statechart/fifo_scheduler.hpp` (lines 32-194) and
`/repo/include/boost/statechart/processor_container.hpp` (lines 64-430) on top of the worker of
`Verif.Fifo.Worker`.

A processor handle is a `weak_ptr` to a *holder*, a heap object that holds a processor or is empty
(`processor_holder_type`, lines 70-75).  Holders are numbered in the order they are made.  The
model counts the strong references to each holder: one from the bound `create_processor_impl*`
functor, one from `processorSet_`, one from each `pProcessor` variable in the `*_impl` functions.
`lock()` succeeds iff there is a strong reference.

The code of the processors (constructor, `initiate`, `terminate`, `process_event`, destructor) and
of other work items is user code (`Code`).  The allocation of the nodes of `processorSet_` may throw (`Fun.node`).  Other allocations are made by the
caller of the scheduler, before anything is changed: if one of them throws, this is as if the caller had thrown instead of calling the scheduler.  The seven overloads of `create_processor` differ only in
the arguments they pass on to the constructor; the model has one, with arguments of type `Nat`.
`dispose` is the destructor of the scheduler.
-/

namespace SC.Fifo

/-- The operations on a processor (lines 391-420). -/
inductive HOp where
  | initiate
  | terminate
  | event (e : Nat)
deriving DecidableEq, Repr

/-- The work items of a scheduler.  A handle is `none` if it refers to no holder at all. -/
inductive Op where
  | create (h : Nat) (arg : Nat)
  | destroy (h : Option Nat)
  | deliver (o : HOp) (h : Option Nat)
  | item (i : Nat)
deriving DecidableEq, Repr

/-- What can be observed of processors. -/
inductive PEv where
  /-- The processor of handle `h` was constructed. -/
  | made (h arg : Nat)
  /-- The constructor of the processor of handle `h` threw. -/
  | failed (h : Nat)
  /-- There was no memory for the node of `processorSet_`: the processor of handle `h` was not made. -/
  | lost (h : Nat)
  /-- The processor of handle `h` was called. -/
  | called (o : HOp) (h : Nat)
  /-- The processor of handle `h` was destroyed. -/
  | gone (h : Nat)
deriving DecidableEq, Repr

/-- The container, and the state `W` of the user's code.  `log`, `fault`, `nulls` and `busy` are ghosts: `fault` is
set when an empty holder is dereferenced, and when a reference is released that does not exist. -/
structure Ct (W : Type) where
  next : Nat := 0
  refs : Nat → Nat := fun _ => 0
  /-- `processorSet_` -/
  set : Nat → Bool := fun _ => false
  /-- The holder holds a processor. -/
  full : Nat → Bool := fun _ => false
  log : List PEv := []
  fault : Bool := false
  /-- The handles of the empty holders that were dereferenced, with the log at that time. -/
  nulls : List (Nat × List PEv) := []
  /-- The number of calls of the processor that have not ended. -/
  busy : Nat → Nat := fun _ => 0
  user : W


/-- User code: it can call the scheduler, throw, and use its own state.  `call` calls `operator()`
of the scheduler. -/
inductive Code (W : Type) where
  | ret
  | throw (x : Nat)
  | create (arg : Nat) (k : Nat → Code W)
  | destroy (h : Nat) (k : Code W)
  | deliver (o : HOp) (h : Nat) (k : Code W)
  | item (i : Option Nat) (k : Code W)
  | terminate (k : Code W)
  | terminated (k : Bool → Code W)
  | call (n : Nat) (k : Nat → Code W) (c : Nat → Code W)
  | get (k : W → Code W)
  | put (w : W) (k : Code W)

/-- The exception, if the code does nothing but throw it. -/
def Code.fails {W : Type} : Code W → Option Nat
  | .throw x => some x
  | _ => none

/-- The functions of the user.  `node h` is the allocation of the node of `processorSet_` for holder `h`.  This is not code that uses the scheduler; all
that matters is whether it throws (`Code.fails`).  Each holder is inserted once, so any sequence of outcomes is given by a function of the handle. -/
inductive Fun where
  | node (h : Nat)
  | ctor (h arg : Nat)
  | op (o : HOp) (h : Nat)
  | dtor (h : Nat)
  | item (i : Nat)
deriving DecidableEq, Repr

variable {W : Type}

/-- A handle the user has.  Code cannot make up handles; a number that is not the number of a holder
stands for a handle that was never assigned. -/
def handle (c : Ct W) (h : Nat) : Option Nat := if h < c.next then some h else none

/-- Runs user code and goes on with `onRet` or, after an exception, with `onThrow`.  The calls of the
scheduler are those of fifo_scheduler.hpp 48-188; each makes a work item and queues it. Other threads can act at `get` (`Fifo.Shared`). -/
def Code.run : Code W → Prog Op (Ct W) → (Nat → Prog Op (Ct W)) → Prog Op (Ct W)
  | .ret, kr, _ => kr
  | .throw x, _, kt => kt x
  -- `create_processor`: fifo_scheduler.hpp 48-125, processor_container.hpp 111-264 with
  -- `make_processor_holder` (304-307); the functor is left with the only strong reference
  | .create a k, kr, kt => .get fun c =>
      .put { c with
        next := c.next + 1
        refs := upd c.refs c.next 1 }
      (.queue (some (.create c.next a)) ((k c.next).run kr kt))
  -- fifo_scheduler.hpp 127-131, processor_container.hpp 266-271
  | .destroy h k, kr, kt => .get fun c =>
      .queue (some (.destroy (handle c h))) (k.run kr kt)
  -- fifo_scheduler.hpp 133-152, processor_container.hpp 273-300
  | .deliver o h k, kr, kt => .get fun c =>
      .queue (some (.deliver o (handle c h))) (k.run kr kt)
  -- fifo_scheduler.hpp 159-171
  | .item i k, kr, kt => .get fun _ => .queue (i.map .item) (k.run kr kt)
  -- fifo_scheduler.hpp 173-176
  | .terminate k, kr, kt => .get fun _ => .terminate (k.run kr kt)
  -- fifo_scheduler.hpp 180-183
  | .terminated k, kr, kt => .terminated fun b => (k b).run kr kt
  -- fifo_scheduler.hpp 185-188
  | .call n k c, kr, kt => .call n (fun i => (k i).run kr kt) (fun x => (c x).run kr kt)
  | .get k, kr, kt => .get fun c => (k c.user).run kr kt
  | .put w k, kr, kt => .get fun c => .put { c with user := w } (k.run kr kt)

/-- Releases a strong reference to holder `h`.  The last one deletes the holder and with it the
processor.  A destructor must not throw; an exception is ignored here. -/
def release (beh : Fun → Code W) (h : Nat) (k : Prog Op (Ct W)) : Prog Op (Ct W) :=
  .get fun c =>
    if c.refs h = 1 then
      if c.full h then
        .put { c with
          refs := upd c.refs h 0
          full := upd c.full h false
          log := c.log ++ [.gone h] }
        ((beh (.dtor h)).run k (fun _ => k))
      else .put { c with refs := upd c.refs h 0 } k
    else .put { c with
      refs := upd c.refs h (c.refs h - 1)
      fault := c.fault || c.refs h == 0 } k

/-- A call of processor `h` has ended. -/
def leave (h : Nat) (k : Prog Op (Ct W)) : Prog Op (Ct W) :=
  .get fun c => .put { c with busy := upd c.busy h (c.busy h - 1) } k

/-- The work items: `create_processor_impl0` (lines 309-316 and its variants up to 379) followed by
the destruction of the functor (if `insert` throws, nothing was inserted), `destroy_processor_impl` (381-389), `initiate_processor_impl`,
`terminate_processor_impl` and `queue_event_impl` (391-420), and the user's own items. -/
def body (beh : Fun → Code W) : Op → Prog Op (Ct W)
  | .create h a => match (beh (.node h)).fails with
    | some x => .get fun c => .put { c with log := c.log ++ [.lost h] }
        (release beh h (.throw x))
    | none => .get fun c =>
      .put { c with
        set := upd c.set h true
        refs := upd c.refs h (c.refs h + 1) }
      ((beh (.ctor h a)).run
        (.get fun c => .put { c with
            full := upd c.full h true
            log := c.log ++ [.made h a] }
          (release beh h .ret))
        (fun x => .get fun c => .put { c with log := c.log ++ [.failed h] }
          (release beh h (.throw x))))
  | .destroy none => .ret
  | .destroy (some h) => .get fun c =>
      if c.refs h = 0 then .ret
      else
        -- `lock()` and `erase()`
        .put { c with
          refs := upd c.refs h (if c.set h then c.refs h else c.refs h + 1)
          set := upd c.set h false }
        (release beh h .ret)
  | .deliver _ none => .ret
  | .deliver o (some h) => .get fun c =>
      if c.refs h = 0 then .ret
      else if c.full h then
        .put { c with
          refs := upd c.refs h (c.refs h + 1)
          log := c.log ++ [.called o h]
          busy := upd c.busy h (c.busy h + 1) }
        ((beh (.op o h)).run (leave h (release beh h .ret)) (fun x => leave h (release beh h (.throw x))))
      else .put { c with
        fault := true
        nulls := c.nulls ++ [(h, c.log)] } .ret
  | .item i => (beh (.item i)).run .ret .throw

/-- The code of a processor's destructor while the scheduler is destroyed.  The worker does not exist any more, so calling the scheduler
is undefined behaviour. -/
def Code.finish : Code W → Ct W → Ct W
  | .ret, c => c
  | .throw _, c => c
  | .get k, c => (k c.user).finish c
  | .put w k, c => k.finish { c with user := w }
  | .create _ _, c => { c with fault := true }
  | .destroy _ _, c => { c with fault := true }
  | .deliver _ _ _, c => { c with fault := true }
  | .item _ _, c => { c with fault := true }
  | .terminate _, c => { c with fault := true }
  | .terminated _, c => { c with fault := true }
  | .call _ _ _, c => { c with fault := true }

/-- `release` while the scheduler is destroyed. -/
def drop (beh : Fun → Code W) (h : Nat) (c : Ct W) : Ct W :=
  if c.refs h = 1 then
    if c.full h then
      (beh (.dtor h)).finish { c with
        refs := upd c.refs h 0
        full := upd c.full h false
        log := c.log ++ [.gone h] }
    else { c with refs := upd c.refs h 0 }
  else { c with
    refs := upd c.refs h (c.refs h - 1)
    fault := c.fault || c.refs h == 0 }

/-- The destruction of a queued function object.  Only the functors made by `create_processor` own a reference to a holder. -/
def dropItem (beh : Fun → Code W) (c : Ct W) : Option (Work Op) → Ct W
  | some (.user (.create h _)) => drop beh h c
  | _ => c

/-- `~fifo_scheduler()`: first `worker_` with its queue, then `container_` with `processorSet_` are destroyed (fifo_scheduler.hpp 190-194,
fifo_worker.hpp 184-190, processor_container.hpp 422-429).  `order` is the order of the elements of the set, which depends on addresses. -/
def dispose (beh : Fun → Code W) (order : List Nat) (m : Wk Op (Ct W)) : Ct W :=
  let c := m.queue.foldl (dropItem beh) m.st
  order.foldl (fun c h => drop beh h c) { c with set := fun _ => false }

end SC.Fifo
