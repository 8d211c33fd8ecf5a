import Verif.Fifo.Worker

/-!
# C30: the worker executes queued items in order, each exactly once
-/

namespace SC.Fifo

variable {ι σ : Type}

namespace Spec

/-- The items that were started, in order. -/
def starts : List (Ev ι) → List (Work ι)
  | [] => []
  | .start w :: l => w :: starts l
  | _ :: l => starts l

/-- The items that entered the queue, in order. -/
def queueds : List (Ev ι) → List (Work ι)
  | [] => []
  | .queued w :: l => w :: queueds l
  | _ :: l => queueds l

/-- What a stretch of the log belongs to: the inside of one work item, a call of `operator()` that
returned `n`, a call that let an exception out. -/
inductive Kind where
  | inside
  | returned (n : Nat)
  | broken

/-- The shape of a stretch of the log.  A call that returned `n` consists of exactly `n` items,
each started, run and finished before the next.  A call that let an exception out consists of
finished items and one that failed. -/
inductive Word : Kind → List (Ev ι) → Prop where
  | nil : Word .inside []
  | queued {b} (w : Work ι) : Word .inside b → Word .inside (b ++ [.queued w])
  | nested {b l n} : Word .inside b → Word (.returned n) l → Word .inside (b ++ l)
  | caught {b l} : Word .inside b → Word .broken l → Word .inside (b ++ l)
  | none : Word (.returned 0) []
  | item {l b n} (w : Work ι) : Word (.returned n) l → Word .inside b →
      Word (.returned (n + 1)) (l ++ (.start w :: b ++ [.fin w]))
  | broke {l b n} (w : Work ι) : Word (.returned n) l → Word .inside b →
      Word .broken (l ++ (.start w :: b ++ [.fail w]))

theorem starts_append (a b : List (Ev ι)) : starts (a ++ b) = starts a ++ starts b := by
  induction a with
  | nil => rfl
  | cons e a ih => cases e <;> simp [starts, ih]

theorem queueds_append (a b : List (Ev ι)) : queueds (a ++ b) = queueds a ++ queueds b := by
  induction a with
  | nil => rfl
  | cons e a ih => cases e <;> simp [queueds, ih]

end Spec

open Spec

/-- A worker a client can get hold of: freshly constructed and then used through its public
functions.  The last step may be a call of `operator()` that is still running. -/
inductive Reach (body : ι → Prog ι σ) : Wk ι σ → Prop where
  | fresh (s : σ) : Reach body { st := s }
  | queue {m} (w : Option ι) : Reach body m → Reach body (queueWorkItem (w.map .user) m)
  | terminate {m} : Reach body m → Reach body (Fifo.terminate m)
  | run {m} (k n : Nat) : Reach body m → Reach body (run body k n m).wk
  /-- Other code of the client changes its own state. -/
  | client {m} (s : σ) : Reach body m → Reach body { m with st := s }

/-- What holds of every worker at any time. -/
structure Inv (m : Wk ι σ) : Prop where
  full : ∀ w ∈ m.queue, w ≠ none
  fifo : starts m.log ++ m.queue.filterMap id = queueds m.log
  stopped : m.terminated = true ↔ Work.stop ∈ starts m.log
  last : ∀ a b, starts m.log = a ++ Work.stop :: b → b = []

theorem Inv.fresh (s : σ) : Inv ({ st := s } : Wk ι σ) :=
  ⟨by simp, rfl, by simp [starts], by simp [starts]⟩

theorem Inv.congr {m m' : Wk ι σ} (h : Inv m) (hq : m'.queue = m.queue)
    (ht : m'.terminated = m.terminated) (hs : starts m'.log = starts m.log)
    (hu : queueds m'.log = queueds m.log) : Inv m' :=
  ⟨hq ▸ h.full, by rw [hs, hq, hu]; exact h.fifo, by rw [ht, hs]; exact h.stopped,
    by rw [hs]; exact h.last⟩

theorem Inv.queueWorkItem {m : Wk ι σ} (h : Inv m) (w : Option (Work ι)) :
    Inv (queueWorkItem w m) := by
  cases w with
  | none => exact h
  | some v =>
    have hs : starts (m.log ++ [.queued v]) = starts m.log := by simp [starts_append, starts]
    have hq : (m.queue ++ [none]).dropLast ++ [some v] = m.queue ++ [some v] := by simp
    refine ⟨?_, ?_, ?_, ?_⟩
    · intro w hw
      simp only [Fifo.queueWorkItem, hq, List.mem_append, List.mem_singleton] at hw
      rcases hw with hw | rfl
      · exact h.full w hw
      · simp
    · simp only [Fifo.queueWorkItem, hq, hs, queueds_append, queueds, List.filterMap_append]
      rw [← List.append_assoc, h.fifo]; rfl
    · simp only [Fifo.queueWorkItem, hs]; exact h.stopped
    · simp only [Fifo.queueWorkItem, hs]; exact h.last

/-- `lp` keeps the invariant. -/
def Good (lp : Nat → Wk ι σ → Out ι σ Nat) : Prop := ∀ n m, Inv m → Inv (lp n m).wk

theorem exec_inv {lp : Nat → Wk ι σ → Out ι σ Nat} (hl : Good lp) :
    ∀ (p : Prog ι σ) (m : Wk ι σ), Inv m → Inv (exec lp p m).wk
  | .ret, m, h => h
  | .throw x, m, h => h
  | .queue w k, m, h => exec_inv hl k _ (h.queueWorkItem _)
  | .terminate k, m, h => exec_inv hl k _ (h.queueWorkItem _)
  | .terminated k, m, h => exec_inv hl (k _) _ h
  | .get k, m, h => exec_inv hl (k _) _ h
  | .put s k, m, h => exec_inv hl k _ (h.congr rfl rfl rfl rfl)
  | .call n k hd, m, h => by
    have hn := hl n m h
    rw [exec]
    cases hr : lp n m with
    | ok c m' => rw [hr] at hn; exact exec_inv hl (k c) m' hn
    | thrown x m' => rw [hr] at hn; exact exec_inv hl (hd x) m' hn
    | more m' => rw [hr] at hn; exact hn

/-- Taking `w` out of the queue and starting it. -/
theorem Inv.start {m : Wk ι σ} (h : Inv m) {w : Work ι} {q : List (Option (Work ι))}
    (hq : m.queue = some w :: q) (ht : m.terminated = false) :
    Inv { m with
      queue := q
      terminated := m.terminated || (match w with | .stop => true | .user _ => false)
      log := m.log ++ [.start w] } := by
  have hno : Work.stop ∉ starts m.log := fun hc => by
    rw [h.stopped.2 hc] at ht; cases ht
  have hs : starts (m.log ++ [.start w]) = starts m.log ++ [w] := by
    simp [starts_append, starts]
  refine ⟨?_, ?_, ?_, ?_⟩
  · intro v hv
    exact h.full v (by rw [hq]; exact List.mem_cons_of_mem _ hv)
  · have := h.fifo
    rw [hq] at this
    simp only [hs, queueds_append, queueds, List.append_nil]
    rw [← this]; simp
  · simp only [hs, ht, Bool.false_or, List.mem_append, List.mem_singleton]
    cases w with
    | stop => simp
    | user i => simp [hno]
  · intro a b hab
    simp only [hs] at hab
    rcases List.append_eq_append_iff.1 hab with ⟨c, rfl, hc⟩ | ⟨c, hc, hc'⟩
    · cases c with
      | nil => simp at hc; exact hc.2
      | cons d c => simp at hc
    · cases c with
      | nil => simp at hc'; exact hc'.2
      | cons d c =>
        simp at hc'
        rw [← hc'.1] at hc
        exact absurd (by rw [hc]; simp) hno

theorem callItem_inv {body : ι → Prog ι σ} {lp : Nat → Wk ι σ → Out ι σ Nat} (hl : Good lp)
    {m : Wk ι σ} (h : Inv m) {w : Work ι} {q : List (Option (Work ι))}
    (hq : m.queue = some w :: q) (ht : m.terminated = false) :
    Inv (callItem body lp w { m with queue := q }).wk := by
  have hstart := h.start hq ht
  unfold callItem
  cases w with
  | stop =>
    refine hstart.congr rfl ?_ ?_ ?_
    · simp [Out.wk]
    · simp [Out.wk, starts_append, starts]
    · simp [Out.wk, queueds_append, queueds]
  | user i =>
    simp only [Bool.or_false] at hstart
    have hb := exec_inv hl (body i) _ hstart
    simp only
    cases hr : exec lp (body i) { m with queue := q, log := m.log ++ [.start (.user i)] } with
    | ok a m' =>
      rw [hr] at hb
      exact hb.congr rfl rfl (by simp [Out.wk, starts_append, starts])
        (by simp [Out.wk, queueds_append, queueds])
    | thrown x m' =>
      rw [hr] at hb
      exact hb.congr rfl rfl (by simp [Out.wk, starts_append, starts])
        (by simp [Out.wk, queueds_append, queueds])
    | more m' => rw [hr] at hb; exact hb

theorem loop_inv (body : ι → Prog ι σ) :
    ∀ (k max c : Nat) (m : Wk ι σ), Inv m → Inv (loop body k max c m).wk
  | 0, _, _, m, h => h
  | k + 1, max, c, m, h => by
    rw [loop]
    split
    · rename_i hc
      have ht : m.terminated = false := by
        cases hm : m.terminated with
        | false => rfl
        | true => rw [hm] at hc; simp at hc
      unfold dequeueItem
      cases hq : m.queue with
      | nil => exact h
      | cons w q =>
        cases w with
        | none => exact absurd rfl (h.full none (by rw [hq]; exact List.mem_cons_self))
        | some w =>
          have hb := callItem_inv (body := body)
            (lp := fun n m => loop body k n 0 m) (fun n m h => loop_inv body k n 0 m h) h hq ht
          simp only
          cases hr : callItem body (fun n m => loop body k n 0 m) w { m with queue := q } with
          | ok a m' => rw [hr] at hb; exact loop_inv body k max (c + 1) m' hb
          | thrown x m' => rw [hr] at hb; exact hb
          | more m' => rw [hr] at hb; exact hb
    · exact h

theorem Reach.inv {body : ι → Prog ι σ} {m : Wk ι σ} (h : Reach body m) : Inv m := by
  induction h with
  | fresh s => exact .fresh s
  | queue w _ ih => exact ih.queueWorkItem _
  | terminate _ ih => exact ih.queueWorkItem _
  | run k n _ ih => exact loop_inv body k n 0 _ ih
  | client s _ ih => exact ih.congr rfl rfl rfl rfl

/-! ### The shape of the log -/

/-- `lp` logs what a call of `operator()` may log. -/
def Shaped (lp : Nat → Wk ι σ → Out ι σ Nat) : Prop :=
  ∀ n m, (∀ c m', lp n m = .ok c m' → ∃ l, m'.log = m.log ++ l ∧ Word (.returned c) l) ∧
    (∀ x m', lp n m = .thrown x m' → ∃ l, m'.log = m.log ++ l ∧ Word .broken l)

theorem queueWorkItem_shape (w : Option (Work ι)) (m : Wk ι σ) {m0 : Wk ι σ} {b : List (Ev ι)}
    (h : m.log = m0.log ++ b) (hb : Word .inside b) :
    ∃ b', (queueWorkItem w m).log = m0.log ++ b' ∧ Word .inside b' := by
  cases w with
  | none => exact ⟨b, h, hb⟩
  | some v => exact ⟨b ++ [.queued v], by simp [queueWorkItem, h], hb.queued v⟩

/-- The outcome of a work item's code. -/
def Inside (m0 : Wk ι σ) (r : Out ι σ Unit) : Prop :=
  match r with
  | .ok _ m' => ∃ b, m'.log = m0.log ++ b ∧ Word .inside b
  | .thrown _ m' => ∃ b, m'.log = m0.log ++ b ∧ Word .inside b
  | .more _ => True

theorem exec_shape {lp : Nat → Wk ι σ → Out ι σ Nat} (hl : Shaped lp) (m0 : Wk ι σ) :
    ∀ (p : Prog ι σ) (m : Wk ι σ) (b : List (Ev ι)), m.log = m0.log ++ b → Word .inside b →
      Inside m0 (exec lp p m)
  | .ret, m, b, h, hb => ⟨b, h, hb⟩
  | .throw x, m, b, h, hb => ⟨b, h, hb⟩
  | .queue w k, m, b, h, hb => by
    obtain ⟨b', h', hb'⟩ := queueWorkItem_shape (w.map .user) m h hb
    exact exec_shape hl m0 k _ b' h' hb'
  | .terminate k, m, b, h, hb => by
    obtain ⟨b', h', hb'⟩ := queueWorkItem_shape (some .stop) m h hb
    exact exec_shape hl m0 k _ b' h' hb'
  | .terminated k, m, b, h, hb => exec_shape hl m0 (k _) m b h hb
  | .get k, m, b, h, hb => exec_shape hl m0 (k _) m b h hb
  | .put s k, m, b, h, hb => exec_shape hl m0 k _ b h hb
  | .call n k hd, m, b, h, hb => by
    rw [exec]
    cases hr : lp n m with
    | ok c m' =>
      obtain ⟨l, h', hw⟩ := (hl n m).1 c m' hr
      exact exec_shape hl m0 (k c) m' (b ++ l) (by rw [h', h, List.append_assoc])
        (hb.nested hw)
    | thrown x m' =>
      obtain ⟨l, h', hw⟩ := (hl n m).2 x m' hr
      exact exec_shape hl m0 (hd x) m' (b ++ l) (by rw [h', h, List.append_assoc])
        (hb.caught hw)
    | more m' => exact trivial

theorem callItem_shape {body : ι → Prog ι σ} {lp : Nat → Wk ι σ → Out ι σ Nat}
    (hl : Shaped lp) (w : Work ι) (m : Wk ι σ) :
    match callItem body lp w m with
    | .ok _ m' => ∃ b, m'.log = m.log ++ (.start w :: b ++ [.fin w]) ∧ Word .inside b
    | .thrown _ m' => ∃ b, m'.log = m.log ++ (.start w :: b ++ [.fail w]) ∧ Word .inside b
    | .more _ => True := by
  unfold callItem
  cases w with
  | stop => exact ⟨[], by simp, .nil⟩
  | user i =>
    have := exec_shape hl { m with log := m.log ++ [.start (.user i)] } (body i)
      { m with log := m.log ++ [.start (.user i)] } [] (by simp) .nil
    simp only
    cases hr : exec lp (body i) { m with log := m.log ++ [.start (.user i)] } with
    | ok a m' =>
      rw [hr] at this
      obtain ⟨b, h, hb⟩ := this
      exact ⟨b, by simp [h], hb⟩
    | thrown x m' =>
      rw [hr] at this
      obtain ⟨b, h, hb⟩ := this
      exact ⟨b, by simp [h], hb⟩
    | more m' => exact trivial

/-- The log of a loop that was entered with `c` items done. -/
def Worded (m0 : Wk ι σ) (r : Out ι σ Nat) : Prop :=
  match r with
  | .ok c m' => ∃ l, m'.log = m0.log ++ l ∧ Word (.returned c) l
  | .thrown _ m' => ∃ l, m'.log = m0.log ++ l ∧ Word .broken l
  | .more _ => True

theorem loop_word (body : ι → Prog ι σ) :
    ∀ (k max c : Nat) (m m0 : Wk ι σ) (l : List (Ev ι)), m.log = m0.log ++ l →
      Word (.returned c) l → Worded m0 (loop body k max c m)
  | 0, _, _, m, m0, l, h, hw => trivial
  | k + 1, max, c, m, m0, l, h, hw => by
    rw [loop]
    split
    · unfold dequeueItem
      cases hq : m.queue with
      | nil => exact ⟨l, h, hw⟩
      | cons w q =>
        cases w with
        | none => exact ⟨l, h, hw⟩
        | some w =>
          have hsh : Shaped (fun n m => loop body k n 0 m) := by
            intro n m1
            have := loop_word body k n 0 m1 m1 [] (by simp) .none
            exact ⟨fun c m' hr => by simp only at hr; rw [hr] at this; exact this,
              fun x m' hr => by simp only at hr; rw [hr] at this; exact this⟩
          have hs := callItem_shape (body := body) hsh w { m with queue := q }
          simp only
          cases hr : callItem body (fun n m => loop body k n 0 m) w { m with queue := q } with
          | ok a m' =>
            rw [hr] at hs
            obtain ⟨b, h', hb'⟩ := hs
            exact loop_word body k max (c + 1) m' m0 _
              (by rw [h']; simp only [h, List.append_assoc]) (hw.item w hb')
          | thrown x m' =>
            rw [hr] at hs
            obtain ⟨b, h', hb'⟩ := hs
            exact ⟨_, by rw [h']; simp only [h, List.append_assoc], hw.broke w hb'⟩
          | more m' => exact trivial
    · exact ⟨l, h, hw⟩

/-- Why a loop ended. -/
theorem loop_ended (body : ι → Prog ι σ) :
    ∀ (k max c : Nat) (m : Wk ι σ), Inv m → (max ≠ 0 → c ≤ max) → ∀ c' m',
      loop body k max c m = .ok c' m' →
      (m'.terminated = true ∨ (max ≠ 0 ∧ c' = max) ∨ m'.queue = []) ∧ (max ≠ 0 → c' ≤ max)
  | 0, _, _, m, _, hm, _, _, h => by cases h
  | k + 1, max, c, m, hi, hm, c', m', h => by
    rw [loop] at h
    split at h
    · rename_i hc
      have ht : m.terminated = false := by
        cases hm : m.terminated with
        | false => rfl
        | true => rw [hm] at hc; simp at hc
      have hlt : max ≠ 0 → c + 1 ≤ max := by
        intro hz
        rw [ht] at hc
        simp [hz] at hc
        exact hc
      unfold dequeueItem at h
      cases hq : m.queue with
      | nil => rw [hq] at h; cases h; exact ⟨.inr (.inr hq), hm⟩
      | cons w q =>
        cases w with
        | none => exact absurd rfl (hi.full none (by rw [hq]; exact List.mem_cons_self))
        | some w =>
          have hb := callItem_inv (body := body)
            (lp := fun n m => loop body k n 0 m) (fun n m h => loop_inv body k n 0 m h) hi hq ht
          rw [hq] at h
          simp only at h
          cases hr : callItem body (fun n m => loop body k n 0 m) w { m with queue := q } with
          | ok a m1 =>
            rw [hr] at h hb
            exact loop_ended body k max (c + 1) m1 hb hlt c' m' h
          | thrown x m1 => rw [hr] at h; cases h
          | more m1 => rw [hr] at h; cases h
    · rename_i hc
      cases h
      refine ⟨?_, hm⟩
      cases ht : m.terminated with
      | true => exact .inl rfl
      | false =>
        rw [ht] at hc
        simp at hc
        exact .inr (.inl ⟨hc.1, Nat.le_antisymm (hm hc.1) hc.2⟩)

/-! ### The theorems -/

/-- **C30 (order, exactly once).**  At any time in the life of a worker the items that were
started, followed by those in the queue, are exactly the items that were queued, in the order they
were queued.  This includes items queued by items and nested calls of `operator()`. -/
theorem C30_fifo {body : ι → Prog ι σ} {m : Wk ι σ} (h : Reach body m) :
    starts m.log ++ m.queue.filterMap id = queueds m.log := h.inv.fifo

/-- **C30 (empty items).**  The queue never holds an empty item, so `dequeue_item` returns an
empty item only if the queue is empty (the claim of the comment in lines 129-131). -/
theorem C30_empty_item {body : ι → Prog ι σ} {m : Wk ι σ} (h : Reach body m) :
    (dequeueItem m).1 = none ↔ m.queue = [] := by
  unfold dequeueItem
  cases hq : m.queue with
  | nil => simp
  | cons w q =>
    have := h.inv.full w (by rw [hq]; exact List.mem_cons_self)
    simpa using this

/-- **C30 (termination).**  `terminated()` is true exactly from the moment on when a termination
request is executed, and nothing is executed after it. -/
theorem C30_terminated {body : ι → Prog ι σ} {m : Wk ι σ} (h : Reach body m) :
    (m.terminated = true ↔ Work.stop ∈ starts m.log) ∧
    (∀ a b, starts m.log = a ++ Work.stop :: b → b = []) := ⟨h.inv.stopped, h.inv.last⟩

/-- **C30 (what `operator()` does and returns).**  A call that returns has executed exactly as many
items as it returns, one after the other.  It stopped because the worker was terminated, the
maximum was reached or the queue was empty, and it did not exceed the maximum. -/
theorem C30_returns {body : ι → Prog ι σ} {m m' : Wk ι σ} {k n c : Nat} (h : Reach body m)
    (hr : run body k n m = .ok c m') :
    (∃ l, m'.log = m.log ++ l ∧ Word (.returned c) l) ∧
    (m'.terminated = true ∨ (n ≠ 0 ∧ c = n) ∨ m'.queue = []) ∧ (n ≠ 0 → c ≤ n) := by
  have h1 := loop_word body k n 0 m m [] (by simp) .none
  unfold run at hr
  rw [hr] at h1
  exact ⟨h1, loop_ended body k n 0 m h.inv (fun _ => Nat.zero_le _) c m' hr⟩

/-- **C30 (exceptions).**  If an item throws, the exception leaves `operator()`; the items before
it were executed completely and the item that threw is not executed again. -/
theorem C30_throws {body : ι → Prog ι σ} {m m' : Wk ι σ} {k n x : Nat} (h : Reach body m)
    (hr : run body k n m = .thrown x m') :
    (∃ l, m'.log = m.log ++ l ∧ Word .broken l) ∧
    starts m'.log ++ m'.queue.filterMap id = queueds m'.log := by
  have h1 := loop_word body k n 0 m m [] (by simp) .none
  have h2 := (h.run k n).inv
  unfold run at hr h2
  rw [hr] at h1 h2
  exact ⟨h1, h2.fifo⟩

/-- **C30 (a terminated worker).**  `operator()` of a terminated worker executes nothing and
returns 0. -/
theorem C30_after_termination {body : ι → Prog ι σ} {m : Wk ι σ} (ht : m.terminated = true)
    (k n : Nat) : run body (k + 1) n m = .ok 0 m := by
  unfold run
  rw [loop]
  simp [ht]

/-- Code that does not call `operator()`. -/
inductive Flat : Prog ι σ → Prop where
  | ret : Flat .ret
  | throw (x) : Flat (.throw x)
  | queue (w) {k} : Flat k → Flat (.queue w k)
  | terminate {k} : Flat k → Flat (.terminate k)
  | terminated {k} : (∀ b, Flat (k b)) → Flat (.terminated k)
  | get {k} : (∀ s, Flat (k s)) → Flat (.get k)
  | put (s) {k} : Flat k → Flat (.put s k)

theorem exec_flat {lp : Nat → Wk ι σ → Out ι σ Nat} {p : Prog ι σ} (h : Flat p) (m m' : Wk ι σ) :
    exec lp p m ≠ .more m' := by
  induction h generalizing m with
  | ret => simp [exec]
  | throw x => simp [exec]
  | queue w _ ih => rw [exec]; exact ih _
  | terminate _ ih => rw [exec]; exact ih _
  | terminated _ ih => rw [exec]; exact ih _ _
  | get _ ih => rw [exec]; exact ih _ _
  | put s _ ih => rw [exec]; exact ih _

theorem callItem_flat {body : ι → Prog ι σ} {lp : Nat → Wk ι σ → Out ι σ Nat}
    (h : ∀ i, Flat (body i)) (w : Work ι) (m m' : Wk ι σ) : callItem body lp w m ≠ .more m' := by
  unfold callItem
  cases w with
  | stop => simp
  | user i =>
    simp only
    cases hr : exec lp (body i) { m with log := m.log ++ [.start (.user i)] } with
    | ok a m1 => simp
    | thrown x m1 => simp
    | more m1 => exact absurd hr (exec_flat (h i) _ _)

theorem loop_ends {body : ι → Prog ι σ} (hf : ∀ i, Flat (body i)) {n : Nat} (hn : n ≠ 0) :
    ∀ (k c : Nat) (m m' : Wk ι σ), n ≤ c + k → loop body (k + 1) n c m ≠ .more m' := by
  intro k
  induction k with
  | zero =>
    intro c m m' hc
    rw [loop, if_neg (by simp [hn]; intro; omega)]
    simp
  | succ k ih =>
    intro c m m' hc
    rw [loop]
    split
    · cases hd : dequeueItem m with
      | mk item m1 =>
        cases item with
        | none => simp
        | some w =>
          simp only
          cases hr : callItem body (fun n m => loop body (k + 1) n 0 m) w m1 with
          | ok a m2 => exact ih (c + 1) m2 m' (by omega)
          | thrown x m2 => simp
          | more m2 => exact absurd hr (callItem_flat hf _ _ _)
    · simp

/-- **C30 (bounded calls end).**  If no item calls `operator()`, a call with a maximum always ends:
it returns or lets an exception of an item out. -/
theorem C30_ends {body : ι → Prog ι σ} (hf : ∀ i, Flat (body i)) {n : Nat} (hn : n ≠ 0)
    (m m' : Wk ι σ) : run body (n + 1) n m ≠ .more m' :=
  loop_ends hf hn n 0 m m' (by omega)

/-! ### Examples -/

namespace Ex

/-- Item 1 queues items 2 and 3, 2 throws 9, 3 asks for termination and queues 4, 5 calls
`operator()( 2 )` and queues as many further items `4` as that returned, and catches. -/
def body : Nat → Prog Nat Nat
  | 1 => .queue (some 2) (.queue none (.queue (some 3) .ret))
  | 2 => .throw 9
  | 3 => .terminate (.queue (some 4) .ret)
  | 5 => .call 2 (fun c => if c = 2 then .queue (some 4) .ret else .ret) (fun x => .put x .ret)
  | _ => .ret

/-- Items 1 and 5 queued. -/
def m0 : Wk Nat Nat := queueWorkItem (some (.user 5)) (queueWorkItem (some (.user 1)) { st := 0 })

example : Reach body m0 := (Reach.queue (some 5) (.queue (some 1) (.fresh 0)))

/-- Item 5 calls the worker, which runs 2 (throws, caught); then 3 runs, then the request of 3. -/
example : (match run body 20 0 m0 with
    | .ok c m => (c, m.terminated, starts m.log, m.queue, m.st)
    | _ => (0, false, [], [], 0)) =
    (4, true, [.user 1, .user 5, .user 2, .user 3, .stop], [some (.user 4)], 9) := by
  decide +kernel

/-- With a maximum of one only item 1 is executed. -/
example : (match run body 20 1 m0 with
    | .ok c m => (c, m.terminated, starts m.log, m.queue)
    | _ => (0, false, [], [])) =
    (1, false, [.user 1], [some (.user 5), some (.user 2), some (.user 3)]) := by
  decide +kernel

/-- An item that throws ends the call. -/
example : (match run body 20 0 (queueWorkItem (some (.user 4))
      (queueWorkItem (some (.user 2)) { st := 0 })) with
    | .thrown x m => (x, starts m.log, m.queue)
    | _ => (0, [], [])) = (9, [.user 2], [some (.user 4)]) := by
  decide +kernel

example : ∀ i, Flat ((fun _ => .queue (some 1) (.terminate .ret) : Nat → Prog Nat Nat) i) :=
  fun _ => .queue _ (.terminate .ret)

end Ex

end SC.Fifo
