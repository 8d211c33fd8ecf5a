import Verif.Fifo.Hub

/-!
# A scheduler of reference machines, used by several threads

`Fifo.Hub` with other threads (C61). It is not a model of code in /repo but what the code is compared with. Work items are written as sequences of atomic steps
(`Script`); other threads may queue work items, request termination and change the environment before each step and at the end (`Script.Runs`). `Script.run` is
the same without other threads.
-/

namespace SC.Fifo

variable {V : Type}

namespace Hub

/-- A step of another thread. -/
inductive Env : Hub V → Hub V → Prop where
  | create (a : Nat) (u) : Env u { u.push (.user (.create u.next a)) with next := u.next + 1 }
  | destroy (h : Nat) (u) : Env u (u.push (.user (.destroy (u.known h))))
  | deliver (o : HOp) (h : Nat) (u) : Env u (u.push (.user (.deliver o (u.known h))))
  | item (i : Nat) (u) : Env u (u.push (.user (.item i)))
  | terminate (u) : Env u (u.push .stop)
  | env (v : V) (u) : Env u { u with env := v }

/-- Any number of steps of other threads. -/
inductive Others : Hub V → Hub V → Prop where
  | refl (u) : Others u u
  | step {u u1 u2} : Others u u1 → Env u1 u2 → Others u u2

end Hub

/-- Code as a sequence of atomic steps. What comes next depends on the state before the step. -/
inductive Script (V : Type) where
  | ret
  | throw (x : Nat)
  | step (f : Hub V → Hub V) (k : Hub V → Script V)
  /-- A call of `operator()`. -/
  | call (n : Nat) (k : Nat → Script V) (c : Nat → Script V)

namespace Script

/-- A script followed by a script, or by a handler after an exception. -/
def andThen : Script V → Script V → (Nat → Script V) → Script V
  | .ret, r, _ => r
  | .throw x, _, t => t x
  | .step f k, r, t => .step f fun u => (k u).andThen r t
  | .call n k c, r, t => .call n (fun i => (k i).andThen r t) (fun x => (c x).andThen r t)

/-- Runs a script alone; `lp` stands for `operator()`. -/
def run (lp : Nat → Hub V → Hub.Out V Nat) : Script V → Hub V → Hub.Out V Unit
  | .ret, u => .ok () u
  | .throw x, u => .thrown x u
  | .step f k, u => (k u).run lp (f u)
  | .call n k c, u => match lp n u with
    | .ok i u => (k i).run lp u
    | .thrown x u => (c x).run lp u
    | .more u => .more u

/-- The outcomes a script can have when other threads act in between. `.more` stands for any moment. -/
def Runs (lp : Nat → Hub V → Hub.Out V Nat → Prop) : Script V → Hub V → Hub.Out V Unit → Prop
  | .ret, u, o => ∃ u1, Hub.Others u u1 ∧ (o = .more u1 ∨ o = .ok () u1)
  | .throw x, u, o => ∃ u1, Hub.Others u u1 ∧ (o = .more u1 ∨ o = .thrown x u1)
  | .step f k, u, o => ∃ u1, Hub.Others u u1 ∧ (o = .more u1 ∨ (k u1).Runs lp (f u1) o)
  | .call n k c, u, o => ∃ u1, Hub.Others u u1 ∧ (o = .more u1 ∨ ∃ r, lp n u1 r ∧ match r with
    | .ok i u => (k i).Runs lp u o
    | .thrown x u => (c x).Runs lp u o
    | .more u => o = .more u)

/-- Code of the user. -/
def code : Code V → Script V
  | .ret => .ret
  | .throw x => .throw x
  | .create a k => .step (fun u => { u.push (.user (.create u.next a)) with next := u.next + 1 }) fun u => code (k u.next)
  | .destroy h k => .step (fun u => u.push (.user (.destroy (u.known h)))) fun _ => code k
  | .deliver o h k => .step (fun u => u.push (.user (.deliver o (u.known h)))) fun _ => code k
  | .item none k => code k
  | .item (some i) k => .step (fun u => u.push (.user (.item i))) fun _ => code k
  | .terminate k => .step (fun u => u.push .stop) fun _ => code k
  | .terminated k => .step id fun u => code (k u.terminated)
  | .get k => .step id fun u => code (k u.env)
  | .put v k => .step (fun u => { u with env := v }) fun _ => code k
  | .call n k c => .call n (fun i => code (k i)) (fun x => code (c x))

variable (A : Fleet V)

/-- There may be no memory for the machine. -/
def create (h a : Nat) : Script V := match A.node h with
  | some x => .step (fun u => { u with log := u.log ++ [.lost h] }) fun _ => .throw x
  | none => (code (A.ctor h a)).andThen
    (.step (fun u => { u with mach := upd u.mach h (some (a, Ref.start u.env)) }) fun _ =>
      .step (fun u => { u with log := u.log ++ [.made h a] }) fun _ => .ret)
    fun x => .step (fun u => { u with log := u.log ++ [.failed h] }) fun _ => .throw x

/-- The machine leaves all its states, which is one step, and then come the calls of the scheduler its callbacks have made. -/
def leave (h : Nat) : Script V := .step
  (fun u => match u.mach h with
    | none => u
    | some (a, st) => match Ref.leaveAll (A.prog a) false { st with world := u.env } with
      | .ok _ st => { u with env := st.world, mach := upd u.mach h none }
      | .thrown _ _ => u)
  fun u => match u.mach h with
    | none => .ret
    | some (a, st) => match Ref.leaveAll (A.prog a) false { st with world := u.env } with
      | .ok _ st => (code (A.calls h st.world)).andThen .ret fun _ => .ret
      | .thrown _ _ => .ret

/-- The machine is destroyed after the destructor of its class was called. -/
def destroy (h : Nat) : Script V := .step
  (fun u => match u.mach h with
    | none => u
    | some _ => { u with log := u.log ++ [.gone h] })
  fun u => match u.mach h with
    | none => .ret
    | some _ => (code (A.dtor h)).andThen (leave A h) fun _ => leave A h

/-- An operation on a machine, which is one step, and then the calls of the scheduler its callbacks have made. -/
def operate (o : HOp) (h : Nat) : Script V := .step
  (fun u => match u.mach h with
    | none => u
    | some (a, st) =>
      if Hub.legal (A.prog a) { st with world := u.env } o then
        match Ref.run (A.prog a) (Hub.op A o) { st with world := u.env } with
        | .ok true st => { u with env := st.world, mach := upd u.mach h (some (a, st)) }
        | .ok false _ => { u with bad := true }
        | .thrown _ st => { u with env := st.world, mach := upd u.mach h (some (a, st)) }
      else { u with bad := true })
  fun u => match u.mach h with
    | none => .ret
    | some (a, st) =>
      if Hub.legal (A.prog a) { st with world := u.env } o then
        match Ref.run (A.prog a) (Hub.op A o) { st with world := u.env } with
        | .ok true st => code (A.calls h st.world)
        | .ok false _ => .ret
        | .thrown x st => (code (A.calls h st.world)).andThen (.throw x) fun _ => .throw x
      else .ret

/-- An operation, if the machine exists. -/
def deliver (o : HOp) (h : Nat) : Script V := .step
  (fun u => match u.mach h with
    | none => u
    | some _ => { u with log := u.log ++ [.called o h] })
  fun u => match u.mach h with
    | none => .ret
    | some _ => operate A o h

def work : Work Op → Script V
  | .stop => .step (fun u => { u with terminated := true }) fun _ => .ret
  | .user (.create h a) => create A h a
  | .user (.destroy (some h)) => destroy A h
  | .user (.destroy none) => .ret
  | .user (.deliver o (some h)) => deliver A o h
  | .user (.deliver _ none) => .ret
  | .user (.item i) => code (A.item i)

end Script

namespace Hub

/-- `operator()( max )` among other threads, given `k` steps, `c` items having been executed. With `wait`, it does not return when the queue is empty.
Code in work items does not call `operator()`. -/
def Loops (wait : Bool) (A : Fleet V) : Nat → Nat → Nat → Hub V → Out V Nat → Prop
  | 0, _, _, u, o => o = .more u
  | k + 1, max, c, u, o => ∃ u1, Others u u1 ∧ (o = .more u1 ∨
    if u1.terminated = true ∨ (max ≠ 0 ∧ max ≤ c) then o = .ok c u1
    else match u1.queue with
      | [] => wait = false ∧ o = .ok c u1
      | w :: q => ∃ r, (Script.work A w).Runs (fun _ u o => o = .more u) { u1 with queue := q } r ∧ match r with
        | .ok _ u => Loops wait A k max (c + 1) u o
        | .thrown x u => o = .thrown x u
        | .more u => o = .more u)

end Hub
end SC.Fifo
