import Verif.Fifo.Async
import Verif.Ref

/-!
# A scheduler of reference machines

What a `fifo_scheduler` with `asynchronous_state_machine`s should do, without reference counts, holders and functors: a queue of work items, and for each
handle a reference machine (`Ref.lean`) or nothing. It is not a model of code in /repo but what the code is compared with (C58). Code of the user is that of
`Fleet`; code in work items does not call `operator()`.
-/

namespace SC.Fifo

variable {V : Type}

structure Hub (V : Type) where
  queue : List (Work Op) := []
  terminated : Bool := false
  /-- The number of handles given out. -/
  next : Nat := 0
  env : V
  mach : Nat → Option (Nat × Ref.St V) := fun _ => none
  /-- An operation did not end, or `initiate()` was called where its initial termination fails. -/
  bad : Bool := false
  /-- What happened to the machines. -/
  log : List PEv := []

namespace Hub

inductive Out (V α : Type) where
  | ok (a : α) (u : Hub V)
  | thrown (x : Nat) (u : Hub V)
  | more (u : Hub V)

/-- What an outcome leaves behind. -/
def Out.hub {α : Type} : Out V α → Hub V
  | .ok _ u => u
  | .thrown _ u => u
  | .more u => u

def push (w : Work Op) (u : Hub V) : Hub V := { u with queue := u.queue ++ [w] }

/-- A handle that was never given out refers to nothing. -/
def known (u : Hub V) (h : Nat) : Option Nat := if h < u.next then some h else none

/-- Runs code of the user; `lp` stands for `operator()`. -/
def exec (lp : Nat → Hub V → Out V Nat) : Code V → Hub V → Out V Unit
  | .ret, u => .ok () u
  | .throw x, u => .thrown x u
  | .create a k, u => exec lp (k u.next) { u.push (.user (.create u.next a)) with next := u.next + 1 }
  | .destroy h k, u => exec lp k (u.push (.user (.destroy (u.known h))))
  | .deliver o h k, u => exec lp k (u.push (.user (.deliver o (u.known h))))
  | .item none k, u => exec lp k u
  | .item (some i) k, u => exec lp k (u.push (.user (.item i)))
  | .terminate k, u => exec lp k (u.push .stop)
  | .terminated k, u => exec lp (k u.terminated) u
  | .get k, u => exec lp (k u.env) u
  | .put v k, u => exec lp k { u with env := v }
  | .call n k c, u => match lp n u with
    | .ok i u => exec lp (k i) u
    | .thrown x u => exec lp (c x) u
    | .more u => .more u

/-- Code in work items, which does not call `operator()`. -/
def code (c : Code V) (u : Hub V) : Out V Unit := exec (fun _ u => .more u) c u

variable (A : Fleet V)

/-- The operation on the reference machine. -/
def op : HOp → Ref.Op
  | .initiate => .initiate A.fuel
  | .terminate => .terminate
  | .event e => .process (A.ev e) A.fuel

/-- The initial termination of `initiate()` leaves the machine terminated or throws. -/
def legal (P : SC.Prog V) (st : Ref.St V) : HOp → Bool
  | .initiate => match Ref.stop P st with
    | .ok _ st => st.root.isNone
    | .thrown _ _ => true
  | _ => true

/-- There may be no memory for the machine. -/
def create (h a : Nat) (u : Hub V) : Out V Unit := match A.node h with
  | some x => .thrown x { u with log := u.log ++ [.lost h] }
  | none => match code (A.ctor h a) u with
    | .ok _ u => .ok () { u with
        mach := upd u.mach h (some (a, Ref.start u.env))
        log := u.log ++ [.made h a] }
    | .thrown x u => .thrown x { u with log := u.log ++ [.failed h] }
    | .more u => .more u

/-- The machine is destroyed after the destructor of its class was called. -/
def destroy (h : Nat) (u : Hub V) : Out V Unit := match u.mach h with
  | none => .ok () u
  | some (a, st) =>
    let u := (code (A.dtor h) { u with log := u.log ++ [.gone h] }).hub
    match Ref.leaveAll (A.prog a) false { st with world := u.env } with
    | .ok _ st => .ok () (code (A.calls h st.world) { u with
        env := st.world
        mach := upd u.mach h none }).hub
    | .thrown _ _ => .ok () u

/-- An operation on a machine, if it exists, and then the calls of the scheduler its callbacks have made. -/
def deliver (o : HOp) (h : Nat) (u : Hub V) : Out V Unit := match u.mach h with
  | none => .ok () u
  | some (a, st) =>
    let u : Hub V := { u with log := u.log ++ [.called o h] }
    if legal (A.prog a) { st with world := u.env } o then
      match Ref.run (A.prog a) (op A o) { st with world := u.env } with
      | .ok true st => code (A.calls h st.world) { u with
          env := st.world
          mach := upd u.mach h (some (a, st)) }
      | .ok false _ => .ok () { u with bad := true }
      | .thrown x st => .thrown x (code (A.calls h st.world) { u with
          env := st.world
          mach := upd u.mach h (some (a, st)) }).hub
    else .ok () { u with bad := true }

def work : Work Op → Hub V → Out V Unit
  | .stop, u => .ok () { u with terminated := true }
  | .user (.create h a), u => create A h a u
  | .user (.destroy (some h)), u => destroy A h u
  | .user (.destroy none), u => .ok () u
  | .user (.deliver o (some h)), u => deliver A o h u
  | .user (.deliver _ none), u => .ok () u
  | .user (.item i), u => code (A.item i) u

/-- `operator()( max )`, given `k` steps, `c` items having been executed. -/
def loop : Nat → Nat → Nat → Hub V → Out V Nat
  | 0, _, _, u => .more u
  | k + 1, max, c, u =>
    if u.terminated = true ∨ (max ≠ 0 ∧ max ≤ c) then .ok c u
    else match u.queue with
      | [] => .ok c u
      | w :: q => match work A w { u with queue := q } with
        | .ok _ u => loop k max (c + 1) u
        | .thrown x u => .thrown x u
        | .more u => .more u

/-- A client calls `operator()( max )`. -/
def run (k max : Nat) (u : Hub V) : Out V Nat := loop A k max 0 u

/-- A client runs code of its own. -/
def client (k : Nat) (c : Code V) (u : Hub V) : Out V Unit := exec (fun n u => run A k n u) c u

/-- Code that must not call the scheduler; `none` if it does. -/
def alone : Code V → V → Option V
  | .ret, v => some v
  | .throw _, v => some v
  | .get k, v => alone (k v) v
  | .put v k, _ => alone k v
  | _, _ => none

/-- The scheduler is destroyed, and with it the machines, in the order `l`; `none` if one of them calls the scheduler. -/
def dispose : List Nat → Hub V → Option (Hub V)
  | [], u => some u
  | h :: l, u => match u.mach h with
    | none => dispose l u
    | some (a, st) => match alone (A.dtor h) u.env with
      | none => none
      | some v => match Ref.leaveAll (A.prog a) false { st with world := v } with
        | .ok _ st => match alone (A.calls h st.world) st.world with
          | none => none
          | some v => dispose l { u with
              env := v
              mach := upd u.mach h none
              log := u.log ++ [.gone h] }
        | .thrown _ _ => none

end Hub
end SC.Fifo
