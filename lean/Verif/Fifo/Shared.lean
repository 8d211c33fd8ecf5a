import Verif.Fifo.Scheduler

/-!
# A scheduler used by several threads

`Fifo.Worker` and `Fifo.Scheduler` describe the thread that calls `operator()` when it is alone. Here other threads, any number of them, call the scheduler at the
same time (fifo_scheduler.hpp 48-176). What they can do is queue work items (`Env`): `queue_work_item` locks the mutex, so that one item is queued at a time
(`Fifo.Threads`); the holder that `create_processor` makes is not known to another thread before its creation is queued, so that both are one step here. The state `user` of
the code may change as `U` allows. `processorSet_`, the holders and `terminated_` are used by work items only, and these are run by one thread only (fifo_worker.hpp 110-111).

`execS`, `callItemS` and `loopS` relate a state to the outcomes that `exec`, `callItem` and `loop` can have when other threads make any number of steps before
each access to shared data and after each call of the scheduler. `.more` stands for any moment in between. With `wait`, `operator()` does not return when the queue is
empty, but waits (fifo_worker.hpp 148-156).
-/

namespace SC.Fifo

variable {W : Type} {U : W → W → Prop}

/-- A step of another thread. -/
inductive Env (U : W → W → Prop) : Wk Op (Ct W) → Wk Op (Ct W) → Prop where
  | create (a : Nat) (m) : Env U m (queueWorkItem (some (.user (.create m.st.next a)))
      { m with st := { m.st with
          next := m.st.next + 1
          refs := upd m.st.refs m.st.next 1 } })
  | destroy (h : Nat) (m) : Env U m (queueWorkItem (some (.user (.destroy (handle m.st h)))) m)
  | deliver (o : HOp) (h : Nat) (m) : Env U m (queueWorkItem (some (.user (.deliver o (handle m.st h)))) m)
  | item (i : Nat) (m) : Env U m (queueWorkItem (some (.user (.item i))) m)
  | terminate (m) : Env U m (Fifo.terminate m)
  | user (w : W) (m) : U m.st.user w → Env U m { m with st := { m.st with user := w } }

/-- Any number of steps of other threads. -/
inductive Others (U : W → W → Prop) : Wk Op (Ct W) → Wk Op (Ct W) → Prop where
  | refl (m) : Others U m m
  | step {m m1 m2} : Others U m m1 → Env U m1 m2 → Others U m m2

/-- `exec` among other threads. -/
def execS (U : W → W → Prop) (lp : Nat → Wk Op (Ct W) → Out Op (Ct W) Nat → Prop) : Prog Op (Ct W) → Wk Op (Ct W) → Out Op (Ct W) Unit → Prop
  | .ret, m, o => o = .ok () m
  | .throw x, m, o => o = .thrown x m
  | .queue w k, m, o => ∃ m1, Others U (queueWorkItem (w.map .user) m) m1 ∧ (o = .more m1 ∨ execS U lp k m1 o)
  | .terminate k, m, o => ∃ m1, Others U (Fifo.terminate m) m1 ∧ (o = .more m1 ∨ execS U lp k m1 o)
  | .terminated k, m, o => ∃ m1, Others U m m1 ∧ (o = .more m1 ∨ execS U lp (k m1.terminated) m1 o)
  | .get k, m, o => ∃ m1, Others U m m1 ∧ (o = .more m1 ∨ execS U lp (k m1.st) m1 o)
  | .put s k, m, o => execS U lp k { m with st := s } o
  | .call n k h, m, o => ∃ r, lp n m r ∧ match r with
    | .ok c m' => execS U lp (k c) m' o
    | .thrown x m' => execS U lp (h x) m' o
    | .more m' => o = .more m'

/-- `callItem` among other threads. -/
def callItemS (U : W → W → Prop) (body : Op → Prog Op (Ct W)) (lp : Nat → Wk Op (Ct W) → Out Op (Ct W) Nat → Prop) (w : Work Op) (m : Wk Op (Ct W)) (o : Out Op (Ct W) Unit) : Prop :=
  let m : Wk Op (Ct W) := { m with log := m.log ++ [.start w] }
  ∃ r : Out Op (Ct W) Unit, (match w with
    | .stop => r = .ok () { m with terminated := true }
    | .user i => execS U lp (body i) m r) ∧
  match r with
  | .ok _ m => o = .ok () { m with log := m.log ++ [.fin w] }
  | .thrown x m => o = .thrown x { m with log := m.log ++ [.fail w] }
  | .more m => o = .more m

/-- `loop` among other threads. -/
def loopS (U : W → W → Prop) (wait : Bool) (body : Op → Prog Op (Ct W)) : Nat → Nat → Nat → Wk Op (Ct W) → Out Op (Ct W) Nat → Prop
  | 0, _, _, m, o => o = .more m
  | k + 1, max, c, m, o => ∃ m1, Others U m m1 ∧ (o = .more m1 ∨
    if (!m1.terminated && (max == 0 || decide (c < max))) = true then
      if wait = true ∧ m1.queue = [] then o = .more m1
      else match dequeueItem m1 with
        | (none, m2) => o = .ok c m2
        | (some w, m2) => ∃ r, callItemS U body (fun n m o => loopS U wait body k n 0 m o) w m2 r ∧ match r with
          | .ok _ m3 => loopS U wait body k max (c + 1) m3 o
          | .thrown x m3 => o = .thrown x m3
          | .more m3 => o = .more m3
    else o = .ok c m1)

/-- A scheduler between calls of the thread that calls `operator()`, with whatever other threads have done. -/
inductive Shared (U : W → W → Prop) (wait : Bool) (beh : Fun → Code W) : Wk Op (Ct W) → Prop where
  | fresh (w : W) : Shared U wait beh { st := { user := w } }
  | other {m m'} : Shared U wait beh m → Env U m m' → Shared U wait beh m'
  /-- Client code outside of work items. -/
  | client {m m'} (k : Nat) (c : Code W) : Shared U wait beh m →
      (execS U (fun n m o => loopS U wait (body beh) k n 0 m o) (c.run .ret .throw) m (.ok () m') ∨
        ∃ x, execS U (fun n m o => loopS U wait (body beh) k n 0 m o) (c.run .ret .throw) m (.thrown x m')) → Shared U wait beh m'

/-- A scheduler at any time. -/
def SharedBusy (U : W → W → Prop) (wait : Bool) (beh : Fun → Code W) (m : Wk Op (Ct W)) : Prop :=
  Shared U wait beh m ∨ ∃ (m0 : Wk Op (Ct W)) (k : Nat) (c : Code W), Shared U wait beh m0 ∧
    execS U (fun n m o => loopS U wait (body beh) k n 0 m o) (c.run .ret .throw) m0 (.more m)

/-! ### Without other threads -/

theorem execS_of_exec {lp : Nat → Wk Op (Ct W) → Out Op (Ct W) Nat} {lpS : Nat → Wk Op (Ct W) → Out Op (Ct W) Nat → Prop} (hlp : ∀ n m, lpS n m (lp n m)) :
    ∀ (p : Prog Op (Ct W)) (m : Wk Op (Ct W)), execS U lpS p m (exec lp p m)
  | .ret, _ => rfl
  | .throw _, _ => rfl
  | .queue _ k, _ => ⟨_, .refl _, .inr (execS_of_exec hlp k _)⟩
  | .terminate k, _ => ⟨_, .refl _, .inr (execS_of_exec hlp k _)⟩
  | .terminated k, _ => ⟨_, .refl _, .inr (execS_of_exec hlp (k _) _)⟩
  | .get k, _ => ⟨_, .refl _, .inr (execS_of_exec hlp (k _) _)⟩
  | .put _ k, _ => execS_of_exec hlp k _
  | .call n k h, m => by
    rw [execS, exec]
    refine ⟨lp n m, hlp n m, ?_⟩
    cases lp n m with
    | ok c m' => exact execS_of_exec hlp (k c) m'
    | thrown x m' => exact execS_of_exec hlp (h x) m'
    | more m' => rfl

theorem callItemS_of_callItem {body : Op → Prog Op (Ct W)} {lp : Nat → Wk Op (Ct W) → Out Op (Ct W) Nat}
    {lpS : Nat → Wk Op (Ct W) → Out Op (Ct W) Nat → Prop} (hlp : ∀ n m, lpS n m (lp n m)) (w : Work Op) (m : Wk Op (Ct W)) :
    callItemS U body lpS w m (callItem body lp w m) := by
  cases w with
  | stop => exact ⟨_, rfl, rfl⟩
  | user i =>
    refine ⟨_, execS_of_exec hlp (body i) _, ?_⟩
    unfold callItem
    simp only
    cases exec lp (body i) { m with log := m.log ++ [.start (.user i)] } <;> rfl

theorem loopS_of_loop (body : Op → Prog Op (Ct W)) : ∀ (k max c : Nat) (m : Wk Op (Ct W)), loopS U false body k max c m (loop body k max c m)
  | 0, _, _, _ => rfl
  | k + 1, max, c, m => by
    refine ⟨m, .refl _, .inr ?_⟩
    rw [loop]
    by_cases hc : (!m.terminated && (max == 0 || decide (c < max))) = true
    · rw [if_pos hc, if_pos hc, if_neg (by simp)]
      cases hd : dequeueItem m with
      | mk w m2 =>
        cases w with
        | none => rfl
        | some w =>
          refine ⟨_, callItemS_of_callItem (fun n m => loopS_of_loop body k n 0 m) w m2, ?_⟩
          simp only
          cases callItem body (fun n m => loop body k n 0 m) w m2 with
          | ok a m3 => exact loopS_of_loop body k max (c + 1) m3
          | thrown x m3 => rfl
          | more m3 => rfl
    · rw [if_neg hc, if_neg hc]

end SC.Fifo
