import Verif.Fifo.Scheduler
import Verif.Props.Worker

/-!
# C32: schedulers and processor handles
-/

namespace SC.Fifo

variable {W : Type}

namespace Spec

/-- The handle an operation is for. -/
def opHandle : Op → Option Nat
  | .create h _ => some h
  | .destroy h => h
  | .deliver _ h => h
  | .item _ => none

/-- The handle an observation is about. -/
def evHandle : PEv → Nat
  | .made h _ => h
  | .failed h => h
  | .lost h => h
  | .called _ h => h
  | .gone h => h

/-- What has become of the processor of a handle. -/
inductive Status where
  /-- Its creation has not been executed. -/
  | unborn
  | alive
  /-- Its constructor threw. -/
  | failed
  /-- Its destruction has been executed, or there was no memory for it. -/
  | gone
deriving DecidableEq, Repr

/-- `Serve f h ops st obs`: executing the operations `ops` leaves the processor of handle `h` in
status `st`, and `obs` is all that happened to it.  Only the operations for `h` matter.  Its creation
comes first; then each operation reaches the processor, in order; its destruction destroys it;
everything after that is discarded.  If there is no memory for the creation, everything after it is discarded, too.

If the constructor threw, the destruction of the processor has nothing to destroy.  Any other
operation on it is not allowed (it dereferences a null pointer): there is no rule for it if `f` is
false. -/
inductive Serve (f : Bool) (h : Nat) : List Op → Status → List PEv → Prop where
  | start : Serve f h [] .unborn []
  | other {l st o op} : Serve f h l st o → opHandle op ≠ some h → Serve f h (l ++ [op]) st o
  | create {l o} (a : Nat) : Serve f h l .unborn o →
      Serve f h (l ++ [.create h a]) .alive (o ++ [.made h a])
  | createFails {l o} (a : Nat) : Serve f h l .unborn o →
      Serve f h (l ++ [.create h a]) .failed (o ++ [.failed h])
  | createLost {l o} (a : Nat) : Serve f h l .unborn o →
      Serve f h (l ++ [.create h a]) .gone (o ++ [.lost h])
  | call {l o} (op : HOp) : Serve f h l .alive o →
      Serve f h (l ++ [.deliver op (some h)]) .alive (o ++ [.called op h])
  | destroy {l o} : Serve f h l .alive o →
      Serve f h (l ++ [.destroy (some h)]) .gone (o ++ [.gone h])
  | destroyFailed {l o} : Serve f h l .failed o → Serve f h (l ++ [.destroy (some h)]) .gone o
  | discardCall {l o} (op : HOp) : Serve f h l .gone o →
      Serve f h (l ++ [.deliver op (some h)]) .gone o
  | discardDestroy {l o} : Serve f h l .gone o → Serve f h (l ++ [.destroy (some h)]) .gone o
  | crash {l o} (op : HOp) : f = true → Serve f h l .failed o →
      Serve f h (l ++ [.deliver op (some h)]) .failed o

/-- The operations among work items. -/
def ops : List (Work Op) → List Op
  | [] => []
  | .stop :: l => ops l
  | .user o :: l => o :: ops l

theorem ops_append (a b : List (Work Op)) : ops (a ++ b) = ops a ++ ops b := by
  induction a with
  | nil => rfl
  | cons w a ih => cases w <;> simp [ops, ih]

end Spec

open Spec

/-- Code that does not call `operator()` of the scheduler. -/
inductive Code.Flat : Code W → Prop where
  | ret : Flat .ret
  | throw (x) : Flat (.throw x)
  | create (a) {k} : (∀ h, Flat (k h)) → Flat (.create a k)
  | destroy (h) {k} : Flat k → Flat (.destroy h k)
  | deliver (o h) {k} : Flat k → Flat (.deliver o h k)
  | item (i) {k} : Flat k → Flat (.item i k)
  | terminate {k} : Flat k → Flat (.terminate k)
  | terminated {k} : (∀ b, Flat (k b)) → Flat (.terminated k)
  | get {k} : (∀ w, Flat (k w)) → Flat (.get k)
  | put (w) {k} : Flat k → Flat (.put w k)

/-- A scheduler a client can get hold of: freshly constructed and then used by client code through
its public functions. -/
inductive SReach (beh : Fun → Code W) : Wk Op (Ct W) → Prop where
  | fresh (w : W) : SReach beh { st := { user := w } }
  /-- Client code outside of work items, which calls the scheduler in any way it likes. -/
  | client {m} (k : Nat) (c : Code W) : SReach beh m →
      SReach beh (exec (fun n m => run (body beh) k n m) (c.run .ret .throw) m).wk
  | run {m} (k n : Nat) : SReach beh m → SReach beh (run (body beh) k n m).wk

/-! ### The invariant -/

/-- The queue without the wrapping. -/
def Wk.work {ι σ : Type} (m : Wk ι σ) : List (Work ι) := m.queue.filterMap id

/-- What is stored for a handle at a given moment. -/
inductive Phase where
  | unborn
  | at (refs : Nat) (set full : Bool)

/-- The creation of `h` is not in the list. -/
def NoCreate (h : Nat) (l : List (Work Op)) : Prop := ∀ a, Work.user (.create h a) ∉ l

/-- Nothing in the list is for `h`. -/
def NoOp (h : Nat) (l : List (Work Op)) : Prop := ∀ o, Work.user o ∈ l → opHandle o ≠ some h

/-- The container and the queue agree with the phase of `h`. -/
def HInv (m : Wk Op (Ct W)) (h : Nat) : Phase → Prop
  | .unborn => m.st.full h = false ∧ m.st.set h = false ∧
      ((m.st.next ≤ h ∧ m.st.refs h = 0 ∧ NoOp h m.work) ∨
       (h < m.st.next ∧ m.st.refs h = 1 ∧
        ∃ q1 a q2, m.work = q1 ++ .user (.create h a) :: q2 ∧ NoOp h q1 ∧ NoCreate h q2))
  | .at r b f => h < m.st.next ∧ m.st.refs h = r ∧ m.st.set h = b ∧ m.st.full h = f ∧
      NoCreate h m.work

/-- User code ran from `m` to `m'`: the processors were not touched. -/
structure Same (m m' : Wk Op (Ct W)) : Prop where
  log : m'.st.log = m.st.log
  fault : m'.st.fault = m.st.fault
  starts : starts m'.log = starts m.log
  phase : ∀ h p, HInv m h p → HInv m' h p

theorem Same.refl (m : Wk Op (Ct W)) : Same m m := ⟨rfl, rfl, rfl, fun _ _ h => h⟩

theorem Same.trans {a b c : Wk Op (Ct W)} (h1 : Same a b) (h2 : Same b c) : Same a c :=
  ⟨h2.log.trans h1.log, h2.fault.trans h1.fault, h2.starts.trans h1.starts,
    fun h p hp => h2.phase h p (h1.phase h p hp)⟩

theorem Same.left {a b : Wk Op (Ct W)} (h1 : Same a b) (h : Nat) :
    Same a { b with st := { b.st with busy := upd b.st.busy h (b.st.busy h - 1) } } :=
  ⟨h1.log, h1.fault, h1.starts, h1.phase⟩

theorem work_queueWorkItem {ι σ : Type} (w : Work ι) (m : Wk ι σ) :
    (queueWorkItem (some w) m).work = m.work ++ [w] := by
  simp [queueWorkItem, Wk.work]

/-- Queuing something that is not a creation and not for a handle that does not exist. -/
theorem Same.queue (w : Work Op) (m : Wk Op (Ct W))
    (h1 : ∀ h a, w ≠ .user (.create h a)) (h2 : ∀ h o, w = .user o → opHandle o = some h →
      h < m.st.next) : Same m (queueWorkItem (some w) m) := by
  refine ⟨rfl, rfl, ?_, ?_⟩
  · simp [queueWorkItem, starts_append, Spec.starts]
  · intro h p hp
    have hw := work_queueWorkItem w m
    have hst : (queueWorkItem (some w) m).st = m.st := rfl
    cases p with
    | unborn =>
      obtain ⟨hf, hs, hx⟩ := hp
      refine ⟨hf, hs, ?_⟩
      rcases hx with ⟨ha, hb, hc⟩ | ⟨ha, hb, q1, a, q2, hq, hn, hnc⟩
      · refine .inl ⟨ha, hb, ?_⟩
        intro o ho
        rw [hw] at ho
        rcases List.mem_append.1 ho with ho | ho
        · exact hc o ho
        · intro hoh
          have := h2 h o (List.mem_singleton.1 ho).symm hoh
          have ha' : m.st.next ≤ h := ha
          omega
      · refine .inr ⟨ha, hb, q1, a, q2 ++ [w], by rw [hw, hq]; simp, hn, ?_⟩
        intro a' ha'
        rcases List.mem_append.1 ha' with h3 | h3
        · exact hnc a' h3
        · exact h1 h a' (List.mem_singleton.1 h3).symm
    | «at» r b f =>
      obtain ⟨ha, hb, hc, hd, he⟩ := hp
      refine ⟨ha, hb, hc, hd, ?_⟩
      intro a' ha'
      rw [hw] at ha'
      rcases List.mem_append.1 ha' with h3 | h3
      · exact he a' h3
      · exact h1 h a' (List.mem_singleton.1 h3).symm

/-- Making a holder and queuing the creation. -/
theorem Same.create (a : Nat) (m : Wk Op (Ct W)) : Same m
    (queueWorkItem (some (.user (.create m.st.next a)))
      { m with st := { m.st with
          next := m.st.next + 1
          refs := upd m.st.refs m.st.next 1 } }) := by
  refine ⟨rfl, rfl, ?_, ?_⟩
  · simp [queueWorkItem, starts_append, Spec.starts]
  · intro h p hp
    generalize hm' : queueWorkItem (some (.user (.create m.st.next a)))
      { m with st := { m.st with
          next := m.st.next + 1
          refs := upd m.st.refs m.st.next 1 } } = m'
    have hw : m'.work = m.work ++ [.user (.create m.st.next a)] := by
      rw [← hm', work_queueWorkItem]; rfl
    have hn : m'.st.next = m.st.next + 1 := by rw [← hm']; rfl
    have hr : m'.st.refs = upd m.st.refs m.st.next 1 := by rw [← hm']; rfl
    have hs : m'.st.set = m.st.set := by rw [← hm']; rfl
    have hf : m'.st.full = m.st.full := by rw [← hm']; rfl
    cases p with
    | unborn =>
      obtain ⟨h1, h2, hx⟩ := hp
      refine ⟨by rw [hf]; exact h1, by rw [hs]; exact h2, ?_⟩
      rcases hx with ⟨ha, hb, hc⟩ | ⟨ha, hb, q1, a', q2, hq, hn1, hnc⟩
      · by_cases hh : h = m.st.next
        · subst hh
          refine .inr ⟨by omega, by rw [hr, upd_same], m.work, a, [], by rw [hw], hc, ?_⟩
          intro a' ha'; simp at ha'
        · refine .inl ⟨by omega, by rw [hr, upd_ne _ _ hh]; exact hb, ?_⟩
          intro o ho
          rw [hw] at ho
          rcases List.mem_append.1 ho with ho | ho
          · exact hc o ho
          · simp at ho
            subst ho
            simp only [opHandle]
            exact fun he => hh (Option.some.inj he).symm
      · have hh : h ≠ m.st.next := by omega
        refine .inr ⟨by omega, by rw [hr, upd_ne _ _ hh]; exact hb, q1, a',
          q2 ++ [.user (.create m.st.next a)], by rw [hw, hq]; simp, hn1, ?_⟩
        intro a'' ha''
        rcases List.mem_append.1 ha'' with h3 | h3
        · exact hnc a'' h3
        · simp at h3; exact hh h3.1
    | «at» r b f =>
      obtain ⟨ha, hb, hc, hd, he⟩ := hp
      have hh : h ≠ m.st.next := by omega
      refine ⟨by omega, by rw [hr, upd_ne _ _ hh]; exact hb, by rw [hs]; exact hc,
        by rw [hf]; exact hd, ?_⟩
      intro a' ha'
      rw [hw] at ha'
      rcases List.mem_append.1 ha' with h3 | h3
      · exact he a' h3
      · simp at h3; exact hh h3.1

theorem Same.user (m : Wk Op (Ct W)) (w : W) : Same m { m with st := { m.st with user := w } } :=
  ⟨rfl, rfl, rfl, fun h p hp => by cases p <;> exact hp⟩

/-- Flat user code runs through to its end and leaves the processors alone. -/
theorem Code.Flat.run {lp : Nat → Wk Op (Ct W) → Out Op (Ct W) Nat} {c : Code W} (h : c.Flat)
    (kr : Prog Op (Ct W)) (kt : Nat → Prog Op (Ct W)) (m : Wk Op (Ct W)) :
    ∃ m', Same m m' ∧ (exec lp (c.run kr kt) m = exec lp kr m' ∨
      ∃ x, exec lp (c.run kr kt) m = exec lp (kt x) m') := by
  induction h generalizing m with
  | ret => exact ⟨m, .refl m, .inl rfl⟩
  | throw x => exact ⟨m, .refl m, .inr ⟨x, rfl⟩⟩
  | create a _ ih =>
    obtain ⟨m', h1, h2⟩ := ih m.st.next (queueWorkItem (some (.user (.create m.st.next a)))
      { m with st := { m.st with
          next := m.st.next + 1
          refs := upd m.st.refs m.st.next 1 } })
    exact ⟨m', (Same.create a m).trans h1, h2⟩
  | destroy h _ ih =>
    obtain ⟨m', h1, h2⟩ := ih (queueWorkItem (some (.user (.destroy (handle m.st h)))) m)
    refine ⟨m', (Same.queue _ m (by simp) ?_).trans h1, h2⟩
    intro h' o ho hh
    cases ho
    simp only [opHandle, handle] at hh
    split at hh
    · cases hh; assumption
    · cases hh
  | deliver o h _ ih =>
    obtain ⟨m', h1, h2⟩ := ih (queueWorkItem (some (.user (.deliver o (handle m.st h)))) m)
    refine ⟨m', (Same.queue _ m (by simp) ?_).trans h1, h2⟩
    intro h' o ho hh
    cases ho
    simp only [opHandle, handle] at hh
    split at hh
    · cases hh; assumption
    · cases hh
  | item i _ ih =>
    cases i with
    | none => exact ih m
    | some i =>
      obtain ⟨m', h1, h2⟩ := ih (queueWorkItem (some (.user (.item i))) m)
      refine ⟨m', (Same.queue _ m (by simp) ?_).trans h1, h2⟩
      intro h' o ho hh
      cases ho
      cases hh
  | terminate _ ih =>
    obtain ⟨m', h1, h2⟩ := ih (queueWorkItem (some .stop) m)
    exact ⟨m', (Same.queue _ m (by simp) (by simp)).trans h1, h2⟩
  | terminated _ ih => exact ih m.terminated m
  | get _ ih => exact ih m.st.user m
  | put w _ ih =>
    obtain ⟨m', h1, h2⟩ := ih { m with st := { m.st with user := w } }
    exact ⟨m', (Same.user m w).trans h1, h2⟩

/-- Library code changed what is stored for handle `h` to phase `p` and logged `o`. -/
structure Chg (h : Nat) (p : Phase) (o : List PEv) (m m' : Wk Op (Ct W)) : Prop where
  own : HInv m' h p
  others : ∀ h', h' ≠ h → ∀ p, HInv m h' p → HInv m' h' p
  log : m'.st.log = m.st.log ++ o
  fault : m'.st.fault = m.st.fault
  starts : starts m'.log = starts m.log

theorem Chg.same {h : Nat} {p : Phase} {o : List PEv} {m m1 m2 : Wk Op (Ct W)}
    (h1 : Chg h p o m m1) (h2 : Same m1 m2) : Chg h p o m m2 :=
  ⟨h2.phase h p h1.own, fun h' hh p' hp => h2.phase h' p' (h1.others h' hh p' hp),
    h2.log.trans h1.log, h2.fault.trans h1.fault, h2.starts.trans h1.starts⟩

theorem Chg.trans {h : Nat} {p q : Phase} {o o' : List PEv} {m m1 m2 : Wk Op (Ct W)}
    (h1 : Chg h p o m m1) (h2 : Chg h q o' m1 m2) : Chg h q (o ++ o') m m2 :=
  ⟨h2.own, fun h' hh p' hp => h2.others h' hh p' (h1.others h' hh p' hp),
    by rw [h2.log, h1.log, List.append_assoc], h2.fault.trans h1.fault,
    h2.starts.trans h1.starts⟩

/-- Writing the fields of one handle. -/
theorem Chg.write {h : Nat} {m m' : Wk Op (Ct W)} {r r' : Nat} {b b' f f' : Bool} {o : List PEv}
    (hp : HInv m h (.at r b f)) (hq : m'.queue = m.queue) (hlog : m'.log = m.log)
    (hn : m'.st.next = m.st.next) (hr : m'.st.refs = upd m.st.refs h r')
    (hs : m'.st.set h = b') (hs' : ∀ i, i ≠ h → m'.st.set i = m.st.set i)
    (hf : m'.st.full h = f') (hf' : ∀ i, i ≠ h → m'.st.full i = m.st.full i)
    (ho : m'.st.log = m.st.log ++ o) (hfl : m'.st.fault = m.st.fault) :
    Chg h (.at r' b' f') o m m' := by
  have hw : m'.work = m.work := by unfold Wk.work; rw [hq]
  refine ⟨⟨by rw [hn]; exact hp.1, by rw [hr, upd_same], hs, hf, by rw [hw]; exact hp.2.2.2.2⟩,
    ?_, ho, hfl, by rw [hlog]⟩
  intro i hi p hpi
  cases p with
  | unborn =>
    unfold HInv at hpi ⊢
    rw [hw, hn, hr, hs' i hi, hf' i hi, upd_ne _ _ hi]
    exact hpi
  | «at» r b f =>
    unfold HInv at hpi ⊢
    rw [hw, hn, hr, hs' i hi, hf' i hi, upd_ne _ _ hi]
    exact hpi

/-- Releasing a reference that is not the last one. -/
theorem release_more {lp : Nat → Wk Op (Ct W) → Out Op (Ct W) Nat} {beh : Fun → Code W} {h : Nat}
    {k : Prog Op (Ct W)} {m : Wk Op (Ct W)} {r : Nat} {b f : Bool}
    (hp : HInv m h (.at (r + 2) b f)) :
    ∃ m', exec lp (release beh h k) m = exec lp k m' ∧ Chg h (.at (r + 1) b f) [] m m' := by
  refine ⟨{ m with st := { m.st with refs := upd m.st.refs h (m.st.refs h - 1) } }, ?_, ?_⟩
  · unfold release
    rw [exec, if_neg (by rw [hp.2.1]; omega), exec]
    simp [hp.2.1]
  · refine Chg.write hp rfl rfl rfl ?_ hp.2.2.1 (fun _ _ => rfl) hp.2.2.2.1 (fun _ _ => rfl)
      (by simp) rfl
    show upd m.st.refs h (m.st.refs h - 1) = _
    rw [hp.2.1]; rfl

/-- Releasing the last reference to a holder with a processor. -/
theorem release_last {lp : Nat → Wk Op (Ct W) → Out Op (Ct W) Nat} {beh : Fun → Code W}
    (hb : ∀ g, (beh g).Flat) {h : Nat} {k : Prog Op (Ct W)} {m : Wk Op (Ct W)} {b : Bool}
    (hp : HInv m h (.at 1 b true)) :
    ∃ m', exec lp (release beh h k) m = exec lp k m' ∧ Chg h (.at 0 b false) [.gone h] m m' := by
  let m1 : Wk Op (Ct W) := { m with st := { m.st with
    refs := upd m.st.refs h 0
    full := upd m.st.full h false
    log := m.st.log ++ [.gone h] } }
  have hc : Chg h (.at 0 b false) [.gone h] m m1 :=
    Chg.write hp rfl rfl rfl rfl hp.2.2.1 (fun _ _ => rfl) (upd_same _ _ _)
      (fun i hi => upd_ne _ _ hi) rfl rfl
  have he : exec lp (release beh h k) m = exec lp ((beh (.dtor h)).run k (fun _ => k)) m1 := by
    unfold release
    rw [exec, if_pos hp.2.1, if_pos hp.2.2.2.1, exec]
  obtain ⟨m', h1, h2⟩ := (hb (.dtor h)).run (lp := lp) k (fun _ => k) m1
  refine ⟨m', ?_, hc.same h1⟩
  rw [he]
  rcases h2 with h2 | ⟨_, h2⟩ <;> exact h2

/-- Releasing the last reference to an empty holder. -/
theorem release_empty {lp : Nat → Wk Op (Ct W) → Out Op (Ct W) Nat} {beh : Fun → Code W} {h : Nat}
    {k : Prog Op (Ct W)} {m : Wk Op (Ct W)} {b : Bool} (hp : HInv m h (.at 1 b false)) :
    ∃ m', exec lp (release beh h k) m = exec lp k m' ∧ Chg h (.at 0 b false) [] m m' := by
  refine ⟨{ m with st := { m.st with refs := upd m.st.refs h 0 } }, ?_, ?_⟩
  · unfold release
    rw [exec, if_pos hp.2.1, if_neg (by rw [hp.2.2.2.1]; simp), exec]
  · exact Chg.write hp rfl rfl rfl rfl hp.2.2.1 (fun _ _ => rfl) hp.2.2.2.1 (fun _ _ => rfl)
      (by simp) rfl

/-- The outcome `r` is to have finished, normally or with an exception, in `m'`. -/
def Fin (r : Out Op (Ct W) Unit) (m' : Wk Op (Ct W)) : Prop :=
  r = .ok () m' ∨ ∃ x, r = .thrown x m'

/-- The part of `create_processor_impl*` after the allocation of the node. -/
def createRest (beh : Fun → Code W) (h a : Nat) : Prog Op (Ct W) := .get fun c =>
  .put { c with
    set := upd c.set h true
    refs := upd c.refs h (c.refs h + 1) }
  ((beh (.ctor h a)).run
    (.get fun c => .put { c with
        full := upd c.full h true
        log := c.log ++ [.made h a] }
      (release beh h .ret))
    (fun x => .get fun c => .put { c with log := c.log ++ [.failed h] }
      (release beh h (.throw x))))

theorem exec_createRest {lp : Nat → Wk Op (Ct W) → Out Op (Ct W) Nat} {beh : Fun → Code W}
    (hb : ∀ g, (beh g).Flat) {h a : Nat} {m : Wk Op (Ct W)} (hp : HInv m h (.at 1 false false)) :
    ∃ m', Fin (exec lp (createRest beh h a) m) m' ∧
      (Chg h (.at 1 true true) [.made h a] m m' ∨ Chg h (.at 1 true false) [.failed h] m m') := by
  let m1 : Wk Op (Ct W) := { m with st := { m.st with
    set := upd m.st.set h true
    refs := upd m.st.refs h (m.st.refs h + 1) } }
  have hc : Chg h (.at 2 true false) [] m m1 := by
    refine Chg.write hp rfl rfl rfl ?_ (upd_same _ _ _) (fun i hi => upd_ne _ _ hi) hp.2.2.2.1
      (fun _ _ => rfl) (by simp [m1]) rfl
    show upd m.st.refs h (m.st.refs h + 1) = _
    rw [hp.2.1]
  obtain ⟨m2, h1, h2⟩ := (hb (.ctor h a)).run (lp := lp)
    (.get fun c => .put { c with
        full := upd c.full h true
        log := c.log ++ [.made h a] }
      (release beh h .ret))
    (fun x => .get fun c => .put { c with log := c.log ++ [.failed h] }
      (release beh h (.throw x))) m1
  have hc2 := hc.same h1
  have he : exec lp (createRest beh h a) m = exec lp ((beh (.ctor h a)).run
    (.get fun c => .put { c with
        full := upd c.full h true
        log := c.log ++ [.made h a] }
      (release beh h .ret))
    (fun x => .get fun c => .put { c with log := c.log ++ [.failed h] }
      (release beh h (.throw x)))) m1 := by
    rw [createRest, exec, exec]
  rw [he]
  rcases h2 with h2 | ⟨x, h2⟩
  · rw [h2, exec, exec]
    let m3 : Wk Op (Ct W) := { m2 with st := { m2.st with
      full := upd m2.st.full h true
      log := m2.st.log ++ [.made h a] } }
    have hc3 : Chg h (.at 2 true true) [.made h a] m2 m3 := by
      refine Chg.write hc2.own rfl rfl rfl ?_ hc2.own.2.2.1 (fun _ _ => rfl) (upd_same _ _ _)
        (fun i hi => upd_ne _ _ hi) rfl rfl
      funext i
      by_cases hi : i = h
      · subst hi; rw [upd_same]; exact hc2.own.2.1
      · rw [upd_ne _ _ hi]
    obtain ⟨m4, h4, hc4⟩ := release_more (lp := lp) (beh := beh) (k := .ret) hc3.own
    exact ⟨m4, .inl h4, .inl (by simpa using (hc2.trans hc3).trans hc4)⟩
  · rw [h2, exec, exec]
    let m3 : Wk Op (Ct W) := { m2 with st := { m2.st with log := m2.st.log ++ [.failed h] } }
    have hc3 : Chg h (.at 2 true false) [.failed h] m2 m3 := by
      refine Chg.write hc2.own rfl rfl rfl ?_ hc2.own.2.2.1 (fun _ _ => rfl) hc2.own.2.2.2.1
        (fun _ _ => rfl) rfl rfl
      funext i
      by_cases hi : i = h
      · subst hi; rw [upd_same]; exact hc2.own.2.1
      · rw [upd_ne _ _ hi]
    obtain ⟨m4, h4, hc4⟩ := release_more (lp := lp) (beh := beh) (k := .throw x) hc3.own
    exact ⟨m4, .inr ⟨x, h4⟩, .inr (by simpa using (hc2.trans hc3).trans hc4)⟩

theorem body_create {lp : Nat → Wk Op (Ct W) → Out Op (Ct W) Nat} {beh : Fun → Code W}
    (hb : ∀ g, (beh g).Flat) {h a : Nat} {m : Wk Op (Ct W)} (hp : HInv m h (.at 1 false false)) :
    ∃ m', Fin (exec lp (body beh (.create h a)) m) m' ∧
      (Chg h (.at 1 true true) [.made h a] m m' ∨ Chg h (.at 1 true false) [.failed h] m m' ∨ Chg h (.at 0 false false) [.lost h] m m') := by
  rw [body]
  split
  · rename_i x _
    rw [exec, exec]
    let m3 : Wk Op (Ct W) := { m with st := { m.st with log := m.st.log ++ [.lost h] } }
    have hc3 : Chg h (.at 1 false false) [.lost h] m m3 := by
      refine Chg.write hp rfl rfl rfl ?_ hp.2.2.1 (fun _ _ => rfl) hp.2.2.2.1
        (fun _ _ => rfl) rfl rfl
      funext i
      by_cases hi : i = h
      · subst hi; rw [upd_same]; exact hp.2.1
      · rw [upd_ne _ _ hi]
    obtain ⟨m4, h4, hc4⟩ := release_empty (lp := lp) (beh := beh) (k := .throw x) hc3.own
    exact ⟨m4, .inr ⟨x, h4⟩, .inr (.inr (by simpa using hc3.trans hc4))⟩
  · obtain ⟨m2, h3, h4⟩ := exec_createRest (lp := lp) hb (a := a) hp
    refine ⟨m2, h3, ?_⟩
    rcases h4 with h4 | h4
    · exact .inl h4
    · exact .inr (.inl h4)

theorem body_destroy {lp : Nat → Wk Op (Ct W) → Out Op (Ct W) Nat} {beh : Fun → Code W}
    (hb : ∀ g, (beh g).Flat) {h : Nat} {m : Wk Op (Ct W)} {f : Bool}
    (hp : HInv m h (.at 1 true f)) :
    ∃ m', Fin (exec lp (body beh (.destroy (some h))) m) m' ∧
      Chg h (.at 0 false false) (if f then [.gone h] else []) m m' := by
  let m1 : Wk Op (Ct W) := { m with st := { m.st with
    refs := upd m.st.refs h (if m.st.set h then m.st.refs h else m.st.refs h + 1)
    set := upd m.st.set h false } }
  have hc : Chg h (.at 1 false f) [] m m1 := by
    refine Chg.write hp rfl rfl rfl ?_ (upd_same _ _ _) (fun i hi => upd_ne _ _ hi) hp.2.2.2.1
      (fun _ _ => rfl) (by simp [m1]) rfl
    show upd m.st.refs h (if m.st.set h then m.st.refs h else m.st.refs h + 1) = _
    rw [hp.2.1, hp.2.2.1]; rfl
  have he : exec lp (body beh (.destroy (some h))) m = exec lp (release beh h .ret) m1 := by
    rw [body, exec, if_neg (by rw [hp.2.1]; simp), exec]
  rw [he]
  cases f with
  | true =>
    obtain ⟨m2, h2, hc2⟩ := release_last (lp := lp) hb (k := .ret) hc.own
    exact ⟨m2, .inl h2, by simpa using hc.trans hc2⟩
  | false =>
    obtain ⟨m2, h2, hc2⟩ := release_empty (lp := lp) (beh := beh) (k := .ret) hc.own
    exact ⟨m2, .inl h2, by simpa using hc.trans hc2⟩

theorem body_deliver {lp : Nat → Wk Op (Ct W) → Out Op (Ct W) Nat} {beh : Fun → Code W}
    (hb : ∀ g, (beh g).Flat) {h : Nat} {o : HOp} {m : Wk Op (Ct W)}
    (hp : HInv m h (.at 1 true true)) :
    ∃ m', Fin (exec lp (body beh (.deliver o (some h))) m) m' ∧
      Chg h (.at 1 true true) [.called o h] m m' := by
  let m1 : Wk Op (Ct W) := { m with st := { m.st with
    refs := upd m.st.refs h (m.st.refs h + 1)
    log := m.st.log ++ [.called o h]
    busy := upd m.st.busy h (m.st.busy h + 1) } }
  have hc : Chg h (.at 2 true true) [.called o h] m m1 := by
    refine Chg.write hp rfl rfl rfl ?_ hp.2.2.1 (fun _ _ => rfl) hp.2.2.2.1
      (fun _ _ => rfl) rfl rfl
    show upd m.st.refs h (m.st.refs h + 1) = _
    rw [hp.2.1]
  have he : exec lp (body beh (.deliver o (some h))) m =
      exec lp ((beh (.op o h)).run (leave h (release beh h .ret)) (fun x => leave h (release beh h (.throw x)))) m1 := by
    rw [body, exec, if_neg (by rw [hp.2.1]; simp), if_pos hp.2.2.2.1, exec]
  obtain ⟨m2, h1, h2⟩ := (hb (.op o h)).run (lp := lp) (leave h (release beh h .ret))
    (fun x => leave h (release beh h (.throw x))) m1
  have hc2 := hc.same (h1.left h)
  rw [he]
  rcases h2 with h2 | ⟨x, h2⟩
  · rw [h2]
    obtain ⟨m3, h3, hc3⟩ := release_more (lp := lp) (beh := beh) (k := .ret) hc2.own
    exact ⟨m3, .inl h3, by simpa using hc2.trans hc3⟩
  · rw [h2]
    obtain ⟨m3, h3, hc3⟩ := release_more (lp := lp) (beh := beh) (k := .throw x) hc2.own
    exact ⟨m3, .inr ⟨x, h3⟩, by simpa using hc2.trans hc3⟩

/-! ### Taking an item out of the queue -/

/-- The phase that belongs to a status. -/
def Spec.Status.phase : Status → Phase
  | .unborn => .unborn
  | .alive => .at 1 true true
  | .failed => .at 1 true false
  | .gone => .at 0 false false

theorem NoCreate.tail {h : Nat} {w : Work Op} {l : List (Work Op)} (hn : NoCreate h (w :: l)) :
    NoCreate h l := fun a ha => hn a (List.mem_cons_of_mem _ ha)

theorem NoOp.tail {h : Nat} {w : Work Op} {l : List (Work Op)} (hn : NoOp h (w :: l)) :
    NoOp h l := fun a ha => hn a (List.mem_cons_of_mem _ ha)

/-- Taking out something that is not the creation of `h`. -/
theorem HInv.pop {m m1 : Wk Op (Ct W)} {w : Work Op} (hw : m.work = w :: m1.work)
    (hst : m1.st = m.st) {h : Nat} {p : Phase} (hp : HInv m h p)
    (hne : ∀ a, w ≠ .user (.create h a)) : HInv m1 h p := by
  cases p with
  | unborn =>
    obtain ⟨h1, h2, hx⟩ := hp
    refine ⟨by rw [hst]; exact h1, by rw [hst]; exact h2, ?_⟩
    rw [hst]
    rcases hx with ⟨ha, hb, hc⟩ | ⟨ha, hb, q1, a, q2, hq, hn, hnc⟩
    · rw [hw] at hc; exact .inl ⟨ha, hb, hc.tail⟩
    · rw [hw] at hq
      cases q1 with
      | nil => exact absurd (List.cons.inj hq).1 (hne a)
      | cons v q1 => exact .inr ⟨ha, hb, q1, a, q2, (List.cons.inj hq).2, hn.tail, hnc⟩
  | «at» r b f =>
    obtain ⟨ha, hb, hc, hd, he⟩ := hp
    rw [hw] at he
    unfold HInv
    rw [hst]
    exact ⟨ha, hb, hc, hd, he.tail⟩

/-- Taking out the creation of `h`. -/
theorem HInv.popCreate {m m1 : Wk Op (Ct W)} {h a : Nat}
    (hw : m.work = .user (.create h a) :: m1.work) (hst : m1.st = m.st)
    (hp : HInv m h .unborn) : HInv m1 h (.at 1 false false) := by
  obtain ⟨h1, h2, hx⟩ := hp
  unfold HInv
  rw [hst]
  rcases hx with ⟨ha, hb, hc⟩ | ⟨ha, hb, q1, a', q2, hq, hn, hnc⟩
  · exact absurd rfl (hc (.create h a) (by rw [hw]; exact List.mem_cons_self))
  · rw [hw] at hq
    cases q1 with
    | nil => exact ⟨ha, hb, h2, h1, by rw [(List.cons.inj hq).2]; exact hnc⟩
    | cons v q1 =>
      have := (List.cons.inj hq).1
      exact absurd rfl (hn (.create h a) (by rw [← this]; exact List.mem_cons_self))

theorem HInv.born {m : Wk Op (Ct W)} {h : Nat} {o : Op} {l : List (Work Op)}
    (hw : m.work = .user o :: l) (ho : opHandle o = some h) (hnc : ∀ a, o ≠ .create h a)
    (hp : HInv m h .unborn) : False := by
  obtain ⟨-, -, hx⟩ := hp
  rcases hx with ⟨-, -, hc⟩ | ⟨-, -, q1, a', q2, hq, hn, -⟩
  · exact hc o (by rw [hw]; exact List.mem_cons_self) ho
  · rw [hw] at hq
    cases q1 with
    | nil => exact hnc a' (Work.user.inj (List.cons.inj hq).1)
    | cons v q1 =>
      have := (List.cons.inj hq).1
      exact hn o (by rw [← this]; exact List.mem_cons_self) ho

/-! ### The invariant of the scheduler -/

/-- What holds between any two work items. -/
structure SInv (m : Wk Op (Ct W)) : Prop where
  serve : ∀ h, ∃ st, Serve m.st.fault h (ops (starts m.log)) st
    (m.st.log.filter (fun e => evHandle e == h)) ∧ HInv m h st.phase
  bad : m.st.fault = true → ∃ h, PEv.failed h ∈ m.st.log

theorem Spec.Serve.mono {f f' : Bool} (hf : f = true → f' = true) {h : Nat} {l : List Op}
    {st : Status} {o : List PEv} (hs : Serve f h l st o) : Serve f' h l st o := by
  induction hs with
  | start => exact .start
  | other _ hn ih => exact .other ih hn
  | create a _ ih => exact .create a ih
  | createFails a _ ih => exact .createFails a ih
  | createLost a _ ih => exact .createLost a ih
  | call op _ ih => exact .call op ih
  | destroy _ ih => exact .destroy ih
  | destroyFailed _ ih => exact .destroyFailed ih
  | discardCall op _ ih => exact .discardCall op ih
  | discardDestroy _ ih => exact .discardDestroy ih
  | crash op hc _ ih => exact .crash op (hf hc) ih

/-- A processor whose constructor threw is in the log. -/
theorem Spec.Serve.failed_mem {f : Bool} {h : Nat} {l : List Op} {st : Status} {o : List PEv}
    (hs : Serve f h l st o) (he : st = .failed) : PEv.failed h ∈ o := by
  induction hs with
  | other _ _ ih => exact ih he
  | createFails a _ _ => simp
  | crash op _ _ ih => exact ih rfl
  | _ => cases he

/-- The invariant only depends on the container, the queue and the started items. -/
theorem SInv.congr {m m' : Wk Op (Ct W)} (hS : SInv m) (hst : m'.st = m.st)
    (hq : m'.queue = m.queue) (hl : starts m'.log = starts m.log) : SInv m' := by
  have hw : m'.work = m.work := by unfold Wk.work; rw [hq]
  refine ⟨fun h => ?_, by rw [hst]; exact hS.bad⟩
  obtain ⟨st, h1, h2⟩ := hS.serve h
  refine ⟨st, by rw [hst, hl]; exact h1, ?_⟩
  revert h2
  cases st.phase <;> (unfold HInv; rw [hst, hw]; exact id)

/-- User code keeps the invariant. -/
theorem SInv.same {m m' : Wk Op (Ct W)} (hS : SInv m) (h : Same m m') : SInv m' := by
  refine ⟨fun i => ?_, by rw [h.fault, h.log]; exact hS.bad⟩
  obtain ⟨st, h1, h2⟩ := hS.serve i
  exact ⟨st, by rw [h.fault, h.log, h.starts]; exact h1, h.phase _ _ h2⟩

/-- An operation for `h` was executed. -/
theorem SInv.build {m m' : Wk Op (Ct W)} (hS : SInv m) {op : Op} {h : Nat} {o : List PEv}
    (hop : opHandle op = some h) (hstarts : starts m'.log = starts m.log ++ [.user op])
    (hlog : m'.st.log = m.st.log ++ o) (ho : ∀ e ∈ o, evHandle e = h)
    (hoth : ∀ h', h' ≠ h → ∀ p, HInv m h' p → HInv m' h' p)
    (hf : m.st.fault = true → m'.st.fault = true)
    (hbad : m'.st.fault = true → m.st.fault = true ∨ PEv.failed h ∈ m'.st.log)
    {st' : Status} (hserve : Serve m'.st.fault h (ops (starts m.log) ++ [op]) st'
      (m.st.log.filter (fun e => evHandle e == h) ++ o))
    (hown : HInv m' h st'.phase) : SInv m' := by
  refine ⟨fun i => ?_, fun hx => ?_⟩
  · obtain ⟨st, h1, h2⟩ := hS.serve i
    have h1' := h1.mono hf
    by_cases hi : i = h
    · subst hi
      refine ⟨st', ?_, hown⟩
      have hfo : o.filter (fun e => evHandle e == i) = o := by
        rw [List.filter_eq_self]; intro e he; simp [ho e he]
      rw [hstarts, ops_append, hlog, List.filter_append, hfo]
      exact hserve
    · refine ⟨st, ?_, hoth i hi _ h2⟩
      have hfo : o.filter (fun e => evHandle e == i) = [] := by
        rw [List.filter_eq_nil_iff]; intro e he; simp [ho e he, Ne.symm hi]
      rw [hstarts, ops_append, hlog, List.filter_append, hfo, List.append_nil]
      refine .other h1' ?_
      rw [hop]; exact fun hc => hi (Option.some.inj hc).symm
  · rcases hbad hx with hb | hb
    · obtain ⟨i, hi⟩ := hS.bad hb
      exact ⟨i, by rw [hlog]; exact List.mem_append_left _ hi⟩
    · exact ⟨h, hb⟩

/-- An operation that is for no handle was executed. -/
theorem SInv.noHandle {m m' : Wk Op (Ct W)} (hS : SInv m) {op : Op} (hop : opHandle op = none)
    (hstarts : starts m'.log = starts m.log ++ [.user op])
    (hlog : m'.st.log = m.st.log) (hfl : m'.st.fault = m.st.fault)
    (hoth : ∀ h' p, HInv m h' p → HInv m' h' p) : SInv m' := by
  refine ⟨fun i => ?_, by rw [hlog, hfl]; exact hS.bad⟩
  obtain ⟨st, h1, h2⟩ := hS.serve i
  refine ⟨st, ?_, hoth i _ h2⟩
  rw [hstarts, ops_append, hlog, hfl]
  exact .other h1 (by rw [hop]; simp)

/-- Executing one operation. -/
theorem SInv.exec1 {lp : Nat → Wk Op (Ct W) → Out Op (Ct W) Nat} {beh : Fun → Code W}
    (hb : ∀ g, (beh g).Flat) {m m1 : Wk Op (Ct W)} (hS : SInv m) {op : Op}
    (hw : m.work = .user op :: m1.work) (hst : m1.st = m.st)
    (hl : starts m1.log = starts m.log ++ [.user op]) :
    ∃ m', Fin (exec lp (body beh op) m1) m' ∧ SInv m' := by
  have hpop : ∀ h, (∀ a, op ≠ .create h a) → ∀ p, HInv m h p → HInv m1 h p :=
    fun h hne p hp => hp.pop hw hst (fun a he => hne a (Work.user.inj he))
  -- operations without a handle
  have hno : opHandle op = none → ∀ m', Same m1 m' → SInv m' := by
    intro hop m' hs
    refine hS.noHandle hop (by rw [hs.starts, hl]) (by rw [hs.log, hst]) (by rw [hs.fault, hst]) ?_
    intro h' p hp
    exact hs.phase h' p (hpop h' (fun a he => by rw [he] at hop; cases hop) p hp)
  cases op with
  | item i =>
    obtain ⟨m', h1, h2⟩ := (hb (.item i)).run (lp := lp) .ret .throw m1
    refine ⟨m', ?_, hno rfl m' h1⟩
    rcases h2 with h2 | ⟨x, h2⟩
    · exact .inl h2
    · exact .inr ⟨x, h2⟩
  | create h a =>
    obtain ⟨st, h1, h2⟩ := hS.serve h
    have hst' : st = .unborn := by
      have hbad : ∀ r b f, ¬ HInv m h (.at r b f) := by
        intro r b f hp
        exact hp.2.2.2.2 a (by rw [hw]; exact List.mem_cons_self)
      cases st with
      | unborn => rfl
      | alive => exact absurd h2 (hbad _ _ _)
      | failed => exact absurd h2 (hbad _ _ _)
      | gone => exact absurd h2 (hbad _ _ _)
    subst hst'
    obtain ⟨m', hf, hc⟩ := body_create (lp := lp) (a := a) hb (h2.popCreate hw hst)
    refine ⟨m', hf, ?_⟩
    have hoth : ∀ h', h' ≠ h → ∀ p, HInv m h' p → HInv m1 h' p := by
      intro h' hh p hp
      refine hpop h' (fun a' he => ?_) p hp
      cases he; exact hh rfl
    rcases hc with hc | hc | hc
    rotate_left 2
    · exact hS.build (h := h) rfl (by rw [hc.starts, hl]) (by rw [hc.log, hst])
        (by simp [evHandle]) (fun h' hh p hp => hc.others h' hh p (hoth h' hh p hp))
        (by rw [hc.fault, hst]; exact id) (by rw [hc.fault, hst]; exact .inl)
        (st' := .gone) (.createLost a (by rw [hc.fault, hst]; exact h1)) hc.own
    · exact hS.build (h := h) rfl (by rw [hc.starts, hl]) (by rw [hc.log, hst])
        (by simp [evHandle]) (fun h' hh p hp => hc.others h' hh p (hoth h' hh p hp))
        (by rw [hc.fault, hst]; exact id) (by rw [hc.fault, hst]; exact .inl)
        (st' := .alive) (.create a (by rw [hc.fault, hst]; exact h1)) hc.own
    · exact hS.build (h := h) rfl (by rw [hc.starts, hl]) (by rw [hc.log, hst])
        (by simp [evHandle]) (fun h' hh p hp => hc.others h' hh p (hoth h' hh p hp))
        (by rw [hc.fault, hst]; exact id) (by rw [hc.fault, hst]; exact .inl)
        (st' := .failed) (.createFails a (by rw [hc.fault, hst]; exact h1)) hc.own
  | destroy oh =>
    cases oh with
    | none => exact ⟨m1, .inl rfl, hno rfl m1 (.refl m1)⟩
    | some h =>
      obtain ⟨st, h1, h2⟩ := hS.serve h
      have h2' : HInv m1 h st.phase := hpop h (by simp) _ h2
      have hoth : ∀ h', h' ≠ h → ∀ p, HInv m h' p → HInv m1 h' p :=
        fun h' _ p hp => hpop h' (by simp) p hp
      cases st with
      | unborn => exact absurd h2 (fun hp => hp.born hw rfl (by simp))
      | alive =>
        obtain ⟨m', hf, hc⟩ := body_destroy (lp := lp) hb h2'
        exact ⟨m', hf, hS.build (h := h) (o := [.gone h]) rfl (by rw [hc.starts, hl])
          (by rw [hc.log, hst]; rfl)
          (by simp [evHandle]) (fun h' hh p hp => hc.others h' hh p (hoth h' hh p hp))
          (by rw [hc.fault, hst]; exact id) (by rw [hc.fault, hst]; exact .inl)
          (st' := .gone) (.destroy (by rw [hc.fault, hst]; exact h1)) hc.own⟩
      | failed =>
        obtain ⟨m', hf, hc⟩ := body_destroy (lp := lp) hb h2'
        exact ⟨m', hf, hS.build (h := h) rfl (by rw [hc.starts, hl]) (by rw [hc.log, hst])
          (by simp) (fun h' hh p hp => hc.others h' hh p (hoth h' hh p hp))
          (by rw [hc.fault, hst]; exact id) (by rw [hc.fault, hst]; exact .inl)
          (st' := .gone)
          (by simpa using Serve.destroyFailed (by rw [hc.fault, hst]; exact h1)) hc.own⟩
      | gone =>
        refine ⟨m1, .inl ?_, hS.build (h := h) (o := []) rfl hl (by rw [hst]; simp)
          (by simp) hoth (by rw [hst]; exact id) (by rw [hst]; exact .inl)
          (st' := .gone) (by simpa using Serve.discardDestroy (by rw [hst]; exact h1)) h2'⟩
        rw [body, exec, if_pos h2'.2.1, exec]
  | deliver o oh =>
    cases oh with
    | none => exact ⟨m1, .inl rfl, hno rfl m1 (.refl m1)⟩
    | some h =>
      obtain ⟨st, h1, h2⟩ := hS.serve h
      have h2' : HInv m1 h st.phase := hpop h (by simp) _ h2
      have hoth : ∀ h', h' ≠ h → ∀ p, HInv m h' p → HInv m1 h' p :=
        fun h' _ p hp => hpop h' (by simp) p hp
      cases st with
      | unborn => exact absurd h2 (fun hp => hp.born hw rfl (by simp))
      | alive =>
        obtain ⟨m', hf, hc⟩ := body_deliver (lp := lp) (o := o) hb h2'
        exact ⟨m', hf, hS.build (h := h) rfl (by rw [hc.starts, hl]) (by rw [hc.log, hst])
          (by simp [evHandle]) (fun h' hh p hp => hc.others h' hh p (hoth h' hh p hp))
          (by rw [hc.fault, hst]; exact id) (by rw [hc.fault, hst]; exact .inl)
          (st' := .alive) (.call o (by rw [hc.fault, hst]; exact h1)) hc.own⟩
      | failed =>
        let m' : Wk Op (Ct W) := { m1 with st := { m1.st with fault := true, nulls := m1.st.nulls ++ [(h, m1.st.log)] } }
        have hsame : ∀ h' p, HInv m1 h' p → HInv m' h' p := by
          intro h' p hp; cases p <;> exact hp
        have hmem : PEv.failed h ∈ m.st.log :=
          (List.mem_filter.1 (h1.failed_mem rfl)).1
        refine ⟨m', .inl ?_, hS.build (m' := m') (h := h) (o := []) rfl hl
          (by show m1.st.log = _; rw [hst]; simp)
          (by simp) (fun h' hh p hp => hsame h' p (hoth h' hh p hp)) (fun _ => rfl)
          (fun _ => .inr (by show _ ∈ m1.st.log; rw [hst]; exact hmem))
          (st' := .failed) (by simpa using Serve.crash o rfl (h1.mono (fun _ => rfl)))
          (hsame h _ h2')⟩
        rw [body, exec, if_neg (by rw [h2'.2.1]; simp), if_neg (by rw [h2'.2.2.2.1]; simp), exec,
          exec]
      | gone =>
        refine ⟨m1, .inl ?_, hS.build (h := h) (o := []) rfl hl (by rw [hst]; simp)
          (by simp) hoth (by rw [hst]; exact id) (by rw [hst]; exact .inl)
          (st' := .gone) (by simpa using Serve.discardCall o (by rw [hst]; exact h1)) h2'⟩
        rw [body, exec, if_pos h2'.2.1, exec]

/-- Executing one work item. -/
theorem SInv.callItem {lp : Nat → Wk Op (Ct W) → Out Op (Ct W) Nat} {beh : Fun → Code W}
    (hb : ∀ g, (beh g).Flat) {m : Wk Op (Ct W)} (hS : SInv m) {w : Work Op}
    {q : List (Option (Work Op))} (hq : m.queue = some w :: q) :
    SInv (callItem (body beh) lp w { m with queue := q }).wk := by
  have hw : m.work = w :: Wk.work { m with queue := q, log := m.log ++ [.start w] } := by
    unfold Wk.work; rw [hq]; rfl
  have hl : starts (m.log ++ [.start w]) = starts m.log ++ [w] := by
    simp [starts_append, Spec.starts]
  unfold Fifo.callItem
  cases w with
  | stop =>
    refine ⟨fun h => ?_, hS.bad⟩
    obtain ⟨st, h1, h2⟩ := hS.serve h
    refine ⟨st, ?_, ?_⟩
    · have : ops (starts (m.log ++ [.start .stop] ++ [.fin .stop])) = ops (starts m.log) := by
        simp [starts_append, Spec.starts, ops_append, ops]
      simp only [Out.wk]
      rw [this]
      exact h1
    · have := h2.pop hw rfl (by simp)
      revert this
      cases st.phase <;> exact id
  | user op =>
    obtain ⟨m', hf, hS'⟩ := hS.exec1 (lp := lp) hb hw rfl hl
    simp only
    rcases hf with hf | ⟨x, hf⟩
    · rw [hf]
      exact hS'.congr rfl rfl (by simp [Out.wk, starts_append, Spec.starts])
    · rw [hf]
      exact hS'.congr rfl rfl (by simp [Out.wk, starts_append, Spec.starts])

theorem loop_sinv {beh : Fun → Code W} (hb : ∀ g, (beh g).Flat) :
    ∀ (k max c : Nat) (m : Wk Op (Ct W)), Inv m → SInv m → SInv (loop (body beh) k max c m).wk
  | 0, _, _, m, _, h => h
  | k + 1, max, c, m, hi, h => by
    rw [loop]
    split
    · rename_i hc
      have ht : m.terminated = false := by
        cases hm : m.terminated with
        | false => rfl
        | true => rw [hm] at hc; simp at hc
      unfold dequeueItem
      cases hq : m.queue with
      | nil => exact h
      | cons w q =>
        cases w with
        | none => exact absurd rfl (hi.full none (by rw [hq]; exact List.mem_cons_self))
        | some w =>
          have hi' := callItem_inv (body := body beh)
            (lp := fun n m => loop (body beh) k n 0 m)
            (fun n m h => loop_inv (body beh) k n 0 m h) hi hq ht
          have h' := h.callItem (lp := fun n m => loop (body beh) k n 0 m) hb hq
          simp only
          cases hr : Fifo.callItem (body beh) (fun n m => loop (body beh) k n 0 m) w
            { m with queue := q } with
          | ok a m' => rw [hr] at h' hi'; exact loop_sinv hb k max (c + 1) m' hi' h'
          | thrown x m' => rw [hr] at h'; exact h'
          | more m' => rw [hr] at h'; exact h'
    · exact h

theorem SInv.fresh (w : W) : SInv ({ st := { user := w } } : Wk Op (Ct W)) := by
  refine ⟨fun h => ⟨.unborn, .start, rfl, rfl, .inl ⟨Nat.zero_le _, rfl, ?_⟩⟩, by simp⟩
  intro o ho
  cases ho

/-- Client code, which may call `operator()`, keeps the invariants. -/
theorem client_sinv {lp : Nat → Wk Op (Ct W) → Out Op (Ct W) Nat}
    (hl : ∀ n m, Inv m ∧ SInv m → Inv (lp n m).wk ∧ SInv (lp n m).wk) :
    ∀ (c : Code W) (m : Wk Op (Ct W)), Inv m ∧ SInv m →
      Inv (exec lp (c.run .ret .throw) m).wk ∧ SInv (exec lp (c.run .ret .throw) m).wk
  | .ret, m, h => h
  | .throw x, m, h => h
  | .create a k, m, h =>
    client_sinv hl (k m.st.next) (queueWorkItem (some (.user (.create m.st.next a)))
      { m with st := { m.st with
          next := m.st.next + 1
          refs := upd m.st.refs m.st.next 1 } })
      ⟨by refine Inv.queueWorkItem ?_ _; exact h.1.congr rfl rfl rfl rfl, h.2.same (.create a m)⟩
  | .destroy d k, m, h => by
    refine client_sinv hl k (queueWorkItem (some (.user (.destroy (handle m.st d)))) m)
      ⟨h.1.queueWorkItem _, h.2.same (.queue _ m (by simp) ?_)⟩
    intro h' o ho hh
    cases ho
    simp only [opHandle, handle] at hh
    split at hh
    · cases hh; assumption
    · cases hh
  | .deliver o d k, m, h => by
    refine client_sinv hl k (queueWorkItem (some (.user (.deliver o (handle m.st d)))) m)
      ⟨h.1.queueWorkItem _, h.2.same (.queue _ m (by simp) ?_)⟩
    intro h' o ho hh
    cases ho
    simp only [opHandle, handle] at hh
    split at hh
    · cases hh; assumption
    · cases hh
  | .item none k, m, h => client_sinv hl k m h
  | .item (some i) k, m, h => by
    refine client_sinv hl k (queueWorkItem (some (.user (.item i))) m)
      ⟨h.1.queueWorkItem _, h.2.same (.queue _ m (by simp) ?_)⟩
    intro h' o ho hh
    cases ho
    cases hh
  | .terminate k, m, h =>
    client_sinv hl k (queueWorkItem (some .stop) m)
      ⟨h.1.queueWorkItem _, h.2.same (.queue _ m (by simp) (by simp))⟩
  | .terminated k, m, h => client_sinv hl (k m.terminated) m h
  | .get k, m, h => client_sinv hl (k m.st.user) m h
  | .put w k, m, h =>
    client_sinv hl k { m with st := { m.st with user := w } }
      ⟨h.1.congr rfl rfl rfl rfl, h.2.same (.user m w)⟩
  | .call n k c, m, h => by
    have hn := hl n m h
    rw [Code.run, exec]
    cases hr : lp n m with
    | ok i m' => rw [hr] at hn; exact client_sinv hl (k i) m' hn
    | thrown x m' => rw [hr] at hn; exact client_sinv hl (c x) m' hn
    | more m' => rw [hr] at hn; exact hn

theorem SReach.sinv {beh : Fun → Code W} (hb : ∀ g, (beh g).Flat) {m : Wk Op (Ct W)}
    (h : SReach beh m) : Inv m ∧ SInv m := by
  have hrun : ∀ k n (m : Wk Op (Ct W)), Inv m ∧ SInv m →
      Inv (Fifo.run (body beh) k n m).wk ∧ SInv (Fifo.run (body beh) k n m).wk :=
    fun k n m h => ⟨loop_inv (body beh) k n 0 m h.1, loop_sinv hb k n 0 m h.1 h.2⟩
  induction h with
  | fresh w => exact ⟨.fresh _, .fresh w⟩
  | client k c _ ih => exact client_sinv (hrun k) c _ ih
  | run k n _ ih => exact hrun k n _ ih

/-- The invariant of the worker holds whatever processors and work items do. -/
theorem SReach.inv {beh : Fun → Code W} {m : Wk Op (Ct W)} (h : SReach beh m) : Inv m := by
  have hrun : ∀ k, Good (fun n m => Fifo.run (body beh) k n m) :=
    fun k n m h => loop_inv (body beh) k n 0 m h
  induction h with
  | fresh w => exact .fresh _
  | client k c _ ih => exact exec_inv (hrun k) _ _ ih
  | run k n _ ih => exact hrun k n _ ih

/-! ### Consequences of the specification -/

/-- The operations for other handles do not matter. -/
theorem Spec.Serve.filter {f : Bool} {h : Nat} {l : List Op} {st : Status} {o : List PEv}
    (hs : Serve f h l st o) : Serve f h (l.filter (fun op => opHandle op == some h)) st o := by
  have keep : ∀ (l : List Op) (op : Op), opHandle op = some h →
      (l ++ [op]).filter (fun op => opHandle op == some h) =
        l.filter (fun op => opHandle op == some h) ++ [op] := by
    intro l op hop; simp [List.filter_append, hop]
  induction hs with
  | start => exact .start
  | other _ hn ih => simpa [List.filter_append, hn] using ih
  | create a _ ih => rw [keep _ _ rfl]; exact .create a ih
  | createFails a _ ih => rw [keep _ _ rfl]; exact .createFails a ih
  | createLost a _ ih => rw [keep _ _ rfl]; exact .createLost a ih
  | call op _ ih => rw [keep _ _ rfl]; exact .call op ih
  | destroy _ ih => rw [keep _ _ rfl]; exact .destroy ih
  | destroyFailed _ ih => rw [keep _ _ rfl]; exact .destroyFailed ih
  | discardCall op _ ih => rw [keep _ _ rfl]; exact .discardCall op ih
  | discardDestroy _ ih => rw [keep _ _ rfl]; exact .discardDestroy ih
  | crash op hf _ ih => rw [keep _ _ rfl]; exact .crash op hf ih

/-- Every prefix of the operations was served, too. -/
theorem Spec.Serve.prefix {f : Bool} {h : Nat} {l : List Op} {st : Status} {o : List PEv}
    (hs : Serve f h l st o) : ∀ l1 l2, l = l1 ++ l2 →
      ∃ st1 o1 o2, Serve f h l1 st1 o1 ∧ o = o1 ++ o2 ∧
        (st1 = .gone → o2 = [] ∧ st = .gone) := by
  have snoc : ∀ {l : List Op} {op : Op} {l1 l2 : List Op}, l ++ [op] = l1 ++ l2 →
      (l2 = [] ∧ l1 = l ++ [op]) ∨ ∃ l2', l = l1 ++ l2' := by
    intro l op l1 l2 he
    rcases List.eq_nil_or_concat l2 with rfl | ⟨l2', b, rfl⟩
    · exact .inl ⟨rfl, by simpa using he.symm⟩
    · refine .inr ⟨l2', ?_⟩
      rw [List.concat_eq_append, ← List.append_assoc] at he
      exact (List.append_inj' he rfl).1
  have done : ∀ {l st o}, Serve f h l st o → ∃ st1 o1 o2, Serve f h l st1 o1 ∧ o = o1 ++ o2 ∧
        (st1 = .gone → o2 = [] ∧ st = .gone) :=
    fun {_ st o} hs => ⟨st, o, [], hs, by simp, fun he => ⟨rfl, he⟩⟩
  induction hs with
  | start =>
    intro l1 l2 he
    obtain ⟨rfl, rfl⟩ := List.append_eq_nil_iff.1 he.symm
    exact done .start
  | other hs hn ih =>
    intro l1 l2 he
    rcases snoc he with ⟨-, rfl⟩ | ⟨l2', he'⟩
    · exact done (.other hs hn)
    · exact ih l1 l2' he'
  | create a hs ih =>
    intro l1 l2 he
    rcases snoc he with ⟨-, rfl⟩ | ⟨l2', he'⟩
    · exact done (.create a hs)
    · obtain ⟨st1, o1, o2, h1, rfl, h3⟩ := ih l1 l2' he'
      exact ⟨st1, o1, o2 ++ [.made h a], h1, by simp, fun hg => by cases (h3 hg).2⟩
  | createFails a hs ih =>
    intro l1 l2 he
    rcases snoc he with ⟨-, rfl⟩ | ⟨l2', he'⟩
    · exact done (.createFails a hs)
    · obtain ⟨st1, o1, o2, h1, rfl, h3⟩ := ih l1 l2' he'
      exact ⟨st1, o1, o2 ++ [.failed h], h1, by simp, fun hg => by cases (h3 hg).2⟩
  | createLost a hs ih =>
    intro l1 l2 he
    rcases snoc he with ⟨-, rfl⟩ | ⟨l2', he'⟩
    · exact done (.createLost a hs)
    · obtain ⟨st1, o1, o2, h1, rfl, h3⟩ := ih l1 l2' he'
      exact ⟨st1, o1, o2 ++ [.lost h], h1, by simp, fun hg => by cases (h3 hg).2⟩
  | call op hs ih =>
    intro l1 l2 he
    rcases snoc he with ⟨-, rfl⟩ | ⟨l2', he'⟩
    · exact done (.call op hs)
    · obtain ⟨st1, o1, o2, h1, rfl, h3⟩ := ih l1 l2' he'
      exact ⟨st1, o1, o2 ++ [.called op h], h1, by simp, fun hg => by cases (h3 hg).2⟩
  | destroy hs ih =>
    intro l1 l2 he
    rcases snoc he with ⟨-, rfl⟩ | ⟨l2', he'⟩
    · exact done (.destroy hs)
    · obtain ⟨st1, o1, o2, h1, rfl, h3⟩ := ih l1 l2' he'
      exact ⟨st1, o1, o2 ++ [.gone h], h1, by simp, fun hg => by cases (h3 hg).2⟩
  | destroyFailed hs ih =>
    intro l1 l2 he
    rcases snoc he with ⟨-, rfl⟩ | ⟨l2', he'⟩
    · exact done (.destroyFailed hs)
    · obtain ⟨st1, o1, o2, h1, rfl, h3⟩ := ih l1 l2' he'
      exact ⟨st1, o1, o2, h1, rfl, fun hg => by cases (h3 hg).2⟩
  | discardCall op hs ih =>
    intro l1 l2 he
    rcases snoc he with ⟨-, rfl⟩ | ⟨l2', he'⟩
    · exact done (.discardCall op hs)
    · exact ih l1 l2' he'
  | discardDestroy hs ih =>
    intro l1 l2 he
    rcases snoc he with ⟨-, rfl⟩ | ⟨l2', he'⟩
    · exact done (.discardDestroy hs)
    · exact ih l1 l2' he'
  | crash op hf hs ih =>
    intro l1 l2 he
    rcases snoc he with ⟨-, rfl⟩ | ⟨l2', he'⟩
    · exact done (.crash op hf hs)
    · obtain ⟨st1, o1, o2, h1, rfl, h3⟩ := ih l1 l2' he'
      exact ⟨st1, o1, o2, h1, rfl, fun hg => by cases (h3 hg).2⟩

/-- The status after a destruction. -/
theorem Spec.Serve.destroyed {f : Bool} {h : Nat} {l l' : List Op} {st : Status} {o : List PEv}
    (hs : Serve f h l' st o) (he : l' = l ++ [.destroy (some h)]) : st = .gone := by
  induction hs with
  | start => simp at he
  | other _ hn _ =>
    have := (List.append_inj' he rfl).2
    simp only [List.cons.injEq, and_true] at this
    subst this
    exact absurd rfl hn
  | create a _ _ => have := (List.append_inj' he rfl).2; simp at this
  | createFails a _ _ => have := (List.append_inj' he rfl).2; simp at this
  | createLost a _ _ => have := (List.append_inj' he rfl).2; simp at this
  | call op _ _ => have := (List.append_inj' he rfl).2; simp at this
  | destroy _ _ => rfl
  | destroyFailed _ _ => rfl
  | discardCall op _ _ => have := (List.append_inj' he rfl).2; simp at this
  | discardDestroy _ _ => rfl
  | crash op _ _ _ => have := (List.append_inj' he rfl).2; simp at this

/-! ### The theorems

The hypothesis of all of them but `C32_order` is that no processor and no work item calls
`operator()` of the scheduler it is running in. -/

/-- **C32 (what happens to a processor).**  As long as no null pointer has been dereferenced, the
processor of each handle is created by the creation that was queued for the handle, receives exactly
the operations queued for the handle in the order they were queued, and is destroyed by its
destruction; later operations have no effect. -/
theorem C32_serve_partial {beh : Fun → Code W} (hb : ∀ g, (beh g).Flat) {m : Wk Op (Ct W)}
    (h : SReach beh m) (hf : m.st.fault = false) (hd : Nat) :
    ∃ st, Serve false hd (ops (starts m.log)) st
      (m.st.log.filter (fun e => evHandle e == hd)) := by
  obtain ⟨st, h1, -⟩ := (h.sinv hb).2.serve hd
  exact ⟨st, hf ▸ h1⟩

/-- **C32 (order).**  Work items, and so the operations on all processors, are started in the order
they were queued, also when processors or work items call `operator()` of their scheduler. -/
theorem C32_order {beh : Fun → Code W} {m : Wk Op (Ct W)}
    (h : SReach beh m) : starts m.log ++ m.queue.filterMap id = queueds m.log :=
  h.inv.fifo

/-- **C32 (handles do not affect each other).**  What happens to a processor is explained by the
operations for its handle alone. -/
theorem C32_independent_partial {beh : Fun → Code W} (hb : ∀ g, (beh g).Flat) {m : Wk Op (Ct W)}
    (h : SReach beh m) (hf : m.st.fault = false) (hd : Nat) :
    ∃ st, Serve false hd ((ops (starts m.log)).filter (fun op => opHandle op == some hd)) st
      (m.st.log.filter (fun e => evHandle e == hd)) :=
  let ⟨st, hs⟩ := C32_serve_partial hb h hf hd
  ⟨st, hs.filter⟩

/-- **C32 (after destruction).**  Once the destruction of a processor has been executed, nothing
happens to it any more: what was observed of it was observed by then. -/
theorem C32_discarded_partial {beh : Fun → Code W} (hb : ∀ g, (beh g).Flat) {m : Wk Op (Ct W)}
    (h : SReach beh m) (hf : m.st.fault = false) {hd : Nat} {l1 l2 : List Op}
    (hx : ops (starts m.log) = l1 ++ .destroy (some hd) :: l2) :
    Serve false hd (l1 ++ [.destroy (some hd)]) .gone
      (m.st.log.filter (fun e => evHandle e == hd)) := by
  obtain ⟨st, hs⟩ := C32_serve_partial hb h hf hd
  obtain ⟨st1, o1, o2, h1, h2, h3⟩ := hs.prefix (l1 ++ [.destroy (some hd)]) l2
    (by rw [hx]; simp)
  have hg := h1.destroyed rfl
  subst hg
  rw [h2, (h3 rfl).1, List.append_nil]
  exact h1

/-- **C32 (safety).**  A null pointer is dereferenced only if the constructor of some processor threw
an exception. -/
theorem C32_safe {beh : Fun → Code W} (hb : ∀ g, (beh g).Flat) {m : Wk Op (Ct W)}
    (h : SReach beh m) (hf : m.st.fault = true) : ∃ hd, PEv.failed hd ∈ m.st.log :=
  (h.sinv hb).2.bad hf

/-! ### Examples -/

namespace Ex

/-- Processors with argument 1 send event 5 to themselves when constructed; the constructor of those
with argument 2 throws; there is no memory for the processor of handle 3; event 3 makes a processor destroy itself, event 4 throws, event 6 calls
`operator()`. -/
def beh (nested : Bool) : Fun → Code Unit
  | .node 3 => .throw 7
  | .ctor h 1 => .deliver (.event 5) h .ret
  | .ctor _ 2 => .throw 8
  | .op (.event 3) h => .destroy h .ret
  | .op (.event 4) _ => .throw 9
  | .op (.event 6) _ => if nested then .call 0 (fun _ => .ret) .throw else .ret
  | _ => .ret

theorem beh_flat (g : Fun) : (beh false g).Flat := by
  unfold beh
  split
  · exact .throw _
  · exact .deliver _ _ .ret
  · exact .throw _
  · exact .destroy _ .ret
  · exact .throw _
  · exact .ret
  · exact .ret

/-- The client makes two processors and sends events; the first is destroyed on its own request. -/
def client : Code Unit :=
  .create 1 fun h => .create 0 fun g => .deliver .initiate h (.deliver .initiate g
    (.deliver (.event 3) h (.deliver (.event 4) g (.call 0 (fun _ => .ret)
      (fun _ => .deliver (.event 7) h (.deliver (.event 7) g (.call 0 (fun _ => .ret)
        (fun _ => .ret))))))))

/-- The scheduler after the client's code. -/
def after (nested : Bool) (c : Code Unit) : Wk Op (Ct Unit) :=
  (exec (fun n m => Fifo.run (Fifo.body (beh nested)) 30 n m) (c.run .ret .throw) { st := { user := () } }).wk

theorem after_reach (nested : Bool) (c : Code Unit) : SReach (beh nested) (after nested c) :=
  .client 30 c (.fresh ())

example : (after false client).st.log =
    [.made 0 1, .made 1 0, .called .initiate 0, .called .initiate 1, .called (.event 3) 0,
     .called (.event 4) 1, .called (.event 5) 0, .gone 0, .called (.event 7) 1] ∧
    (after false client).st.fault = false := by
  decide +kernel

example : ∃ st, Serve false 0 (ops (starts (after false client).log)) st
    ((after false client).st.log.filter (fun e => evHandle e == 0)) :=
  C32_serve_partial beh_flat (after_reach false client) (by decide +kernel) 0

/-- The operations of the example: the last `event 7` for handle 0 comes after its destruction. -/
example : ops (starts (after false client).log) =
    [.create 0 1, .create 1 0, .deliver .initiate (some 0), .deliver .initiate (some 1),
     .deliver (.event 3) (some 0), .deliver (.event 4) (some 1), .deliver (.event 5) (some 0),
     .destroy (some 0), .deliver (.event 7) (some 0), .deliver (.event 7) (some 1)] := by
  decide +kernel

/-- **C32, finding: a constructor that throws.**  The client creates a processor whose constructor
throws, catches the exception, and lets the scheduler go on with an event queued for the handle: the
empty holder is dereferenced.  So `C32_serve_partial` needs its hypothesis. -/
theorem C32_constructor_throws : ∃ c : Code Unit, SReach (beh false) (after false c) ∧
    (after false c).st.fault = true :=
  ⟨.create 2 fun h => .deliver .initiate h (.call 0 (fun _ => .ret)
    (fun _ => .call 0 (fun _ => .ret) (fun _ => .ret))), after_reach _ _, by decide +kernel⟩

/-- If there is no memory for the processor of handle 3, the operations for it are discarded. -/
example : ∃ c : Code Unit, (after false c).st.fault = false ∧ (after false c).st.log = [.made 0 0, .made 1 0, .made 2 0, .lost 3, .called .initiate 2] ∧
    ops (starts (after false c).log) = [.create 0 0, .create 1 0, .create 2 0, .create 3 0, .deliver .initiate (some 3), .deliver .initiate (some 2), .destroy (some 3)] :=
  ⟨.create 0 fun _ => .create 0 fun _ => .create 0 fun g => .create 0 fun h => .deliver .initiate h (.deliver .initiate g (.destroy h
    (.call 0 (fun _ => .ret) (fun _ => .call 0 (fun _ => .ret) (fun _ => .ret))))), by decide +kernel⟩

/-- **C32, finding: nested calls.**  If a processor calls `operator()` of its scheduler, a
destruction that is executed by the nested call does not take effect until the processor returns:
`event 7`, queued and executed after the destruction, still reaches it. -/
theorem C32_nested : ∃ c : Code Unit, SReach (beh true) (after true c) ∧
    ops (starts (after true c).log) = [.create 0 0, .deliver (.event 6) (some 0),
      .destroy (some 0), .deliver (.event 7) (some 0)] ∧
    (after true c).st.log = [.made 0 0, .called (.event 6) 0, .called (.event 7) 0, .gone 0] :=
  ⟨.create 0 fun h => .deliver (.event 6) h (.destroy h (.deliver (.event 7) h
    (.call 0 (fun _ => .ret) (fun _ => .ret)))), after_reach _ _, by decide +kernel⟩

end Ex

end SC.Fifo
