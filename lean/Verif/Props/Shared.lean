import Verif.Props.Lives

/-!
# C49: a scheduler used by several threads

The life of processors is in `Props.Lives` (`C49_life`, `C49_exists`, `C49_busy`, `C49_dispose`). Here: the order of execution, and when `operator()` returns.
-/

namespace SC.Fifo

open Spec

variable {W : Type} {U : W → W → Prop}

theorem Inv.env {m m' : Wk Op (Ct W)} (h : Inv m) (he : Env U m m') : Inv m' := by
  cases he with
  | create a =>
    refine Inv.queueWorkItem ?_ _
    exact h.congr rfl rfl rfl rfl
  | destroy d => exact h.queueWorkItem _
  | deliver o d => exact h.queueWorkItem _
  | item i => exact h.queueWorkItem _
  | terminate => exact h.queueWorkItem _
  | user w => exact h.congr rfl rfl rfl rfl

theorem Inv.others {m m' : Wk Op (Ct W)} (h : Inv m) (ho : Others U m m') : Inv m' := by
  induction ho with
  | refl => exact h
  | step _ he ih => exact ih.env he

theorem execS_inv {lp : Nat → Wk Op (Ct W) → Out Op (Ct W) Nat → Prop} (hl : ∀ n m o, Inv m → lp n m o → Inv o.wk) :
    ∀ (p : Prog Op (Ct W)) (m : Wk Op (Ct W)) (o : Out Op (Ct W) Unit), Inv m → execS U lp p m o → Inv o.wk
  | .ret, m, o, h, he => by cases (show o = _ from he); exact h
  | .throw x, m, o, h, he => by cases (show o = _ from he); exact h
  | .queue w k, m, o, h, he => by
    obtain ⟨m1, h1, rfl | h2⟩ := he
    · exact (h.queueWorkItem _).others h1
    · exact execS_inv hl k m1 o ((h.queueWorkItem _).others h1) h2
  | .terminate k, m, o, h, he => by
    obtain ⟨m1, h1, rfl | h2⟩ := he
    · exact (h.queueWorkItem _).others h1
    · exact execS_inv hl k m1 o ((h.queueWorkItem _).others h1) h2
  | .terminated k, m, o, h, he => by
    obtain ⟨m1, h1, rfl | h2⟩ := he
    · exact h.others h1
    · exact execS_inv hl (k _) m1 o (h.others h1) h2
  | .get k, m, o, h, he => by
    obtain ⟨m1, h1, rfl | h2⟩ := he
    · exact h.others h1
    · exact execS_inv hl (k _) m1 o (h.others h1) h2
  | .put s k, m, o, h, he => execS_inv hl k { m with st := s } o (h.congr rfl rfl rfl rfl) he
  | .call n k hd, m, o, h, he => by
    rw [execS] at he
    obtain ⟨r, h1, h2⟩ := he
    have hr := hl n m r h h1
    cases r with
    | ok c m' => exact execS_inv hl (k c) m' o hr h2
    | thrown x m' => exact execS_inv hl (hd x) m' o hr h2
    | more m' => cases (show o = _ from h2); exact hr

theorem callItemS_inv {body : Op → Prog Op (Ct W)} {lp : Nat → Wk Op (Ct W) → Out Op (Ct W) Nat → Prop} (hl : ∀ n m o, Inv m → lp n m o → Inv o.wk)
    {m : Wk Op (Ct W)} (h : Inv m) {w : Work Op} {q : List (Option (Work Op))} (hq : m.queue = some w :: q) (ht : m.terminated = false)
    {o : Out Op (Ct W) Unit} (he : callItemS U body lp w { m with queue := q } o) : Inv o.wk := by
  have hs := h.start hq ht
  cases w with
  | stop =>
    obtain ⟨_, rfl, h2⟩ := he
    cases (show o = _ from h2)
    refine hs.congr rfl ?_ ?_ ?_
    · simp [Out.wk]
    · simp [Out.wk, starts_append, starts]
    · simp [Out.wk, queueds_append, queueds]
  | user i =>
    simp only [Bool.or_false] at hs
    obtain ⟨r, h1, h2⟩ := he
    have hr := execS_inv hl (body i) _ r hs h1
    cases r with
    | ok a m' =>
      cases (show o = _ from h2)
      exact hr.congr rfl rfl (by simp [Out.wk, starts_append, starts]) (by simp [Out.wk, queueds_append, queueds])
    | thrown x m' =>
      cases (show o = _ from h2)
      exact hr.congr rfl rfl (by simp [Out.wk, starts_append, starts]) (by simp [Out.wk, queueds_append, queueds])
    | more m' => cases (show o = _ from h2); exact hr

/-- What a call of `operator()` leaves behind. -/
def Halts (wait : Bool) (max c : Nat) : Out Op (Ct W) Nat → Prop
  | .ok n m => c ≤ n ∧ (max ≠ 0 → n ≤ max) ∧ (m.terminated = true ∨ (max ≠ 0 ∧ n = max) ∨ (wait = false ∧ m.queue = []))
  | _ => True

theorem loopS_inv (wait : Bool) (body : Op → Prog Op (Ct W)) : ∀ (k max c : Nat) (m : Wk Op (Ct W)) (o : Out Op (Ct W) Nat), Inv m → (max ≠ 0 → c ≤ max) →
    loopS U wait body k max c m o → Inv o.wk ∧ Halts wait max c o
  | 0, _, _, m, o, h, _, he => by cases (show o = _ from he); exact ⟨h, trivial⟩
  | k + 1, max, c, m, o, h, hm, he => by
    obtain ⟨m1, h1, he⟩ := he
    replace h := h.others h1
    rcases he with rfl | he
    · exact ⟨h, trivial⟩
    split at he
    · rename_i hc
      have ht : m1.terminated = false := by
        cases hm : m1.terminated with
        | false => rfl
        | true => rw [hm] at hc; simp at hc
      have hcm : max ≠ 0 → c + 1 ≤ max := by
        intro h0
        rw [ht] at hc
        simp [h0] at hc
        exact hc
      split at he
      · rw [he]; exact ⟨h, trivial⟩
      · rename_i hw
        unfold dequeueItem at he
        cases hq : m1.queue with
        | nil =>
          rw [hq] at he
          cases (show o = _ from he)
          refine ⟨h, Nat.le_refl _, hm, .inr (.inr ⟨?_, hq⟩)⟩
          cases hx : wait with
          | false => rfl
          | true => exact absurd ⟨hx, hq⟩ hw
        | cons w q =>
          rw [hq] at he
          cases w with
          | none => exact absurd rfl (h.full none (by rw [hq]; exact List.mem_cons_self))
          | some w =>
            obtain ⟨r, h2, h3⟩ := he
            have hr := callItemS_inv (body := body) (fun n m o h he => (loopS_inv wait body k n 0 m o h (fun _ => Nat.zero_le _) he).1) h hq ht h2
            cases r with
            | ok a m' =>
              obtain ⟨g1, g2⟩ := loopS_inv wait body k max (c + 1) m' o hr hcm h3
              refine ⟨g1, ?_⟩
              cases o with
              | ok n m => exact ⟨Nat.le_of_succ_le g2.1, g2.2⟩
              | _ => trivial
            | thrown x m' => cases (show o = _ from h3); exact ⟨hr, trivial⟩
            | more m' => cases (show o = _ from h3); exact ⟨hr, trivial⟩
    · rename_i hc
      cases (show o = _ from he)
      refine ⟨h, Nat.le_refl _, hm, ?_⟩
      cases ht : m1.terminated with
      | true => exact .inl rfl
      | false =>
        rw [ht] at hc
        simp at hc
        exact .inr (.inl ⟨hc.1, by have := hm hc.1; omega⟩)

theorem SharedBusy.inv {wait : Bool} {beh : Fun → Code W} {m : Wk Op (Ct W)} (h : SharedBusy U wait beh m) : Inv m := by
  have hc : ∀ {m : Wk Op (Ct W)} (k : Nat) (c : Code W) (o : Out Op (Ct W) Unit), Inv m →
      execS U (fun n m o => loopS U wait (body beh) k n 0 m o) (c.run .ret .throw) m o → Inv o.wk := fun k c o h he =>
    execS_inv (fun n m o h he => (loopS_inv wait (body beh) k n 0 m o h (fun _ => Nat.zero_le _) he).1) _ _ o h he
  have hs : ∀ {m}, Shared U wait beh m → Inv m := by
    intro m h
    induction h with
    | fresh w => exact .fresh _
    | other _ he ih => exact ih.env he
    | client k c _ hr ih => rcases hr with hr | ⟨x, hr⟩ <;> exact hc k c _ ih hr
  rcases h with h | ⟨m0, k, c, h, hr⟩
  · exact hs h
  · exact hc k c _ (hs h) hr

/-- **C49 (order).**  At any time the items that were executed, followed by those in the queue, are those that were queued, by whichever thread, in the order they were
queued. `terminated()` is true iff a request for termination was executed, and nothing is executed after it. -/
theorem C49_order {wait : Bool} {beh : Fun → Code W} {m : Wk Op (Ct W)} (h : SharedBusy U wait beh m) :
    starts m.log ++ m.queue.filterMap id = queueds m.log ∧ (m.terminated = true ↔ Work.stop ∈ starts m.log) ∧
    ∀ a b, starts m.log = a ++ Work.stop :: b → b = [] :=
  ⟨h.inv.fifo, h.inv.stopped, h.inv.last⟩

/-- **C49 (return).**  `operator()( max )` returns only when the worker is terminated, when it has executed `max` items, or, unless it was told to wait,
when the queue is empty. -/
theorem C49_returns {wait : Bool} {beh : Fun → Code W} {m m' : Wk Op (Ct W)} (h : SharedBusy U wait beh m) {k max n : Nat}
    (hr : loopS U wait (body beh) k max 0 m (.ok n m')) :
    (max ≠ 0 → n ≤ max) ∧ (m'.terminated = true ∨ (max ≠ 0 ∧ n = max) ∨ (wait = false ∧ m'.queue = [])) :=
  (loopS_inv wait (body beh) k max 0 m _ h.inv (fun _ => Nat.zero_le _) hr).2.2

namespace Ex

/-- Other threads may change the state of the code in any way. -/
abbrev Any : Unit → Unit → Prop := fun _ _ => True

/-- A processor that does nothing. -/
def still : Fun → Code Unit := fun _ => .ret

/-- Another thread has created a processor and sent it an event. -/
def sent : Wk Op (Ct Unit) :=
  queueWorkItem (some (.user (.deliver (.event 7) (some 0))))
    (queueWorkItem (some (.user (.create 0 5))) { st := { user := (), next := 1, refs := upd (fun _ => 0) 0 1 } })

theorem sent_shared (wait : Bool) : Shared Any wait still sent :=
  .other (.other (.fresh ()) (.create 5 _)) (.deliver (.event 7) 0 _)

/-- The state of the worker while it runs the constructor, before and after the other thread asks for the destruction of the processor. -/
def inCtor : Wk Op (Ct Unit) :=
  { sent with
    queue := [some (.user (.deliver (.event 7) (some 0)))]
    log := sent.log ++ [.start (.user (.create 0 5))] }

/-- The other thread asks for the destruction of the processor and for termination. -/
def asked : Wk Op (Ct Unit) := Fifo.terminate (queueWorkItem (some (.user (.destroy (some 0)))) inCtor)

theorem asked_others : Others Any inCtor asked := .step (.step (.refl _) (.destroy 0 _)) (.terminate _)

/-- The outcome of the constructor. -/
def built : Out Op (Ct Unit) Unit := exec (fun n m => Fifo.run (Fifo.body still) 9 n m) (Fifo.body still (.create 0 5)) asked

/-- What is left when `operator()` has returned. -/
def left : Out Op (Ct Unit) Nat :=
  loop (Fifo.body still) 9 0 1 { built.wk with log := built.wk.log ++ [.fin (.user (.create 0 5))] }

theorem built_ok : built = .ok () built.wk := by
  have h : (match built with
    | .ok _ _ => true
    | _ => false) = true := by decide +kernel
  revert h
  cases built with
  | ok a m => exact fun _ => rfl
  | _ => intro h; cases h

theorem left_ok : left = .ok 4 left.wk := by
  have h : (match left with
    | .ok n _ => n == 4
    | _ => false) = true := by decide +kernel
  revert h
  cases left with
  | ok n m => intro h; rw [beq_iff_eq.1 h]; rfl
  | _ => intro h; cases h

/-- The other thread acts while the worker is about to execute the creation. -/
theorem left_runs : loopS Any false (Fifo.body still) 10 0 0 sent left := by
  refine ⟨sent, .refl _, .inr ?_⟩
  rw [if_pos (by decide +kernel), if_neg (by simp)]
  refine ⟨.ok () { built.wk with log := built.wk.log ++ [.fin (.user (.create 0 5))] }, ⟨built, ?_, by rw [built_ok]; rfl⟩, loopS_of_loop _ 9 0 1 _⟩
  exact ⟨asked, asked_others, .inr (execS_of_exec (U := Any) (lp := fun n m => Fifo.run (Fifo.body still) 9 n m) (fun n m => loopS_of_loop (U := Any) _ 9 n 0 m) _ asked)⟩

theorem left_shared : Shared Any false still left.wk := by
  refine .client 10 (.call 0 (fun _ => .ret) .throw) (sent_shared false) (.inl ?_)
  rw [Code.run, execS]
  refine ⟨left, left_runs, ?_⟩
  rw [left_ok]
  rfl

/-- The destruction and the termination, which were asked for during the creation, are executed after the event, which was queued before. -/
example : left.wk.st.log = [.made 0 5, .called (.event 7) 0, .gone 0] ∧ left.wk.terminated = true ∧ left.wk.st.fault = false ∧
    starts left.wk.log = [.user (.create 0 5), .user (.deliver (.event 7) (some 0)), .user (.destroy (some 0)), .stop] := by
  decide +kernel

example : PEv.gone 0 ∈ left.wk.st.log ↔ (∃ a, PEv.made 0 a ∈ left.wk.st.log) ∧ Work.user (.destroy (some 0)) ∈ starts left.wk.log :=
  (C49_exists left_shared 0).2

/-- A moment in the window between taking an item out and its first action. -/
theorem asked_busy (wait : Bool) : SharedBusy Any wait still asked := by
  refine .inr ⟨sent, 1, .call 0 (fun _ => .ret) .throw, sent_shared wait, ?_⟩
  rw [Code.run, execS]
  refine ⟨.more asked, ⟨sent, .refl _, .inr ?_⟩, rfl⟩
  rw [if_pos (by decide +kernel), if_neg (by rintro ⟨-, h⟩; revert h; decide +kernel)]
  exact ⟨.more asked, ⟨.more asked, ⟨asked, asked_others, .inl rfl⟩, rfl⟩, rfl⟩

example : starts asked.log = [.user (.create 0 5)] ∧ asked.st.log = [] := by decide +kernel

/-- A worker that waits. -/
example : SharedBusy Any true still ({ st := { user := () } } : Wk Op (Ct Unit)) := by
  refine .inr ⟨_, 1, .call 0 (fun _ => .ret) .throw, .fresh (), ?_⟩
  rw [Code.run, execS]
  refine ⟨.more _, ⟨_, .refl _, .inr ?_⟩, rfl⟩
  rw [if_pos (by rfl), if_pos ⟨rfl, rfl⟩]

end Ex

end SC.Fifo
