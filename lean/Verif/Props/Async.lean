import Verif.Fifo.Async
import Verif.Props.Scheduler
import Verif.Props.Ends
import Verif.Example

/-!
# C41: asynchronous state machines
-/

namespace SC.Fifo

variable {V : Type} {A : Fleet V}

namespace Spec

/-- A call of a member function of a machine that ends by returning or by an exception. -/
def Ends {α : Type} (x : M V α) (done : α) (m m' : Mach V) : Prop :=
  x m = .ok done m' ∨ ∃ e, x m = .thrown e m'

/-- The machine `m` is given an operation; afterwards it is `m'`.  `initiate()` requires that
`terminate()`, if it returns, leaves the machine terminated (C36).  `true`: all queued events were
processed. -/
def Operated (P : SC.Prog V) (ev : Nat → Event) (m m' : Mach V) : HOp → Prop
  | .initiate => (∀ m1, SC.terminate P m = .ok () m1 → m1.terminated = true) ∧ ∃ k, Ends (SC.initiate P k) true m m'
  | .terminate => Ends (SC.terminate P) () m m'
  | .event e => ∃ k, Ends (SC.processEvent P (ev e) k) true m m'

/-- `Fed A a ops m`: `m` is a machine of type `a` that was constructed and then given the operations
`ops` in this order, and nothing else; each returned or threw.  The environment may change in
between. -/
inductive Fed (A : Fleet V) (a : Nat) : List HOp → Mach V → Prop where
  | fresh (v : V) : Fed A a [] (Mach.fresh v)
  | world {l : List HOp} {m : Mach V} (v : V) : Fed A a l m → Fed A a l { m with world := v }
  | given {l : List HOp} {m m' : Mach V} {o : HOp} : Fed A a l m → Operated (A.prog a) A.ev m m' o → Fed A a (l ++ [o]) m'

/-- Given an operation, the machine `m` throws `x` and is left as `m'`; `k` bounds the number of events it processes. -/
def Breaks (P : SC.Prog V) (ev : Nat → Event) (k : Nat) (m m' : Mach V) (x : Nat) : HOp → Prop
  | .initiate => (∀ m1, SC.terminate P m = .ok () m1 → m1.terminated = true) ∧ SC.initiate P k m = .thrown x m'
  | .terminate => SC.terminate P m = .thrown x m'
  | .event e => SC.processEvent P (ev e) k m = .thrown x m'

/-- The part of the log that concerns a living processor: its type and the operations it received. -/
def feedStep (h : Nat) : Option (Nat × List HOp) → PEv → Option (Nat × List HOp)
  | s, .made h' a => if h' = h then some (a, []) else s
  | s, .failed _ => s
  | s, .lost _ => s
  | s, .called o h' => if h' = h then s.map fun p => (p.1, p.2 ++ [o]) else s
  | s, .gone h' => if h' = h then none else s

def feed (h : Nat) (l : List PEv) : Option (Nat × List HOp) := l.foldl (feedStep h) none

/-- The handle of a destruction. -/
def goneOf : PEv → Option Nat
  | .gone h => some h
  | _ => none

end Spec

open Spec

theorem run_terminate (P : SC.Prog V) (m : Mach V) : Call.run P .terminate m = match SC.terminate P m with
    | .ok _ m' => .ok true m'
    | .thrown x m' => .thrown x m'
    | .fault g => .fault g := by
  show M.bnd (SC.terminate P) _ m = _
  unfold M.bnd
  cases SC.terminate P m <;> rfl

/-- What was fed from the outside is a machine a client can have, so everything proved of such machines holds. -/
theorem Spec.Fed.reach {a : Nat} {l : List HOp} {m : Mach V} (h : Fed A a l m) : SC.Reach (A.prog a) m := by
  induction h with
  | fresh v => exact .fresh v
  | world v _ ih => exact .world v ih
  | @given l m m' o _ ht ih =>
    cases o with
    | initiate =>
      obtain ⟨hl, k, hr | ⟨x, hr⟩⟩ := ht
      · exact .returns (c := .initiate k) ih hl hr
      · exact .throws (c := .initiate k) ih hl hr
    | terminate =>
      rcases ht with hr | ⟨x, hr⟩
      · exact .returns (c := .terminate) ih trivial (by rw [run_terminate, hr])
      · exact .throws (c := .terminate) (x := x) ih trivial (by rw [run_terminate, hr])
    | event e =>
      obtain ⟨k, hr | ⟨x, hr⟩⟩ := ht
      · exact .returns (c := .process (A.ev e) k) ih trivial hr
      · exact .throws (c := .process (A.ev e) k) ih trivial hr

/-- What `asynchronous_state_machine` does with an operation is what was asked for. -/
theorem operated_of_call {a : Nat} {m m' : Mach V} {o : HOp} (hl : (A.call o).legal (A.prog a) m)
    (hr : (A.call o).run (A.prog a) m = .ok true m' ∨ ∃ x, (A.call o).run (A.prog a) m = .thrown x m') :
    Operated (A.prog a) A.ev m m' o := by
  cases o with
  | initiate => exact ⟨hl, _, hr⟩
  | event e => exact ⟨_, hr⟩
  | terminate =>
    unfold Operated Ends
    replace hr : Call.run (A.prog a) .terminate m = .ok true m' ∨ ∃ x, Call.run (A.prog a) .terminate m = .thrown x m' := hr
    rw [run_terminate] at hr
    cases ht : SC.terminate (A.prog a) m <;> simp_all

theorem Fleet.legal_iff {P : SC.Prog V} {m : Mach V} {c : Call} (h : Fleet.legal P m c = true) : c.legal P m := by
  cases c with
  | initiate k =>
    intro m1 hr
    simp only [Fleet.legal, hr] at h
    exact h
  | _ => trivial

theorem Code.andThen_run {W : Type} (c : Code W) (r : Code W) (t : Nat → Code W) (kr : Prog Op (Ct W)) (kt : Nat → Prog Op (Ct W)) :
    (c.andThen r t).run kr kt = c.run (r.run kr kt) (fun x => (t x).run kr kt) := by
  induction c with
  | ret => rfl
  | throw x => rfl
  | create a k ih => simp only [Code.andThen, Code.run, ih]
  | destroy h k ih => simp only [Code.andThen, Code.run, ih]
  | deliver o h k ih => simp only [Code.andThen, Code.run, ih]
  | item i k ih => simp only [Code.andThen, Code.run, ih]
  | terminate k ih => simp only [Code.andThen, Code.run, ih]
  | terminated k ih => simp only [Code.andThen, Code.run, ih]
  | call n k c ih ih' => simp only [Code.andThen, Code.run, ih, ih']
  | get k ih => simp only [Code.andThen, Code.run, ih]
  | put w k ih => simp only [Code.andThen, Code.run, ih]

theorem Code.Flat.andThen {W : Type} {c : Code W} (h : c.Flat) {r : Code W} {t : Nat → Code W} (hr : r.Flat) (ht : ∀ x, (t x).Flat) :
    (c.andThen r t).Flat := by
  induction h with
  | ret => exact hr
  | throw x => exact ht x
  | create a _ ih => exact .create a ih
  | destroy h _ ih => exact .destroy h ih
  | deliver o h _ ih => exact .deliver o h ih
  | item i _ ih => exact .item i ih
  | terminate _ ih => exact .terminate ih
  | terminated _ ih => exact .terminated ih
  | get _ ih => exact .get ih
  | put w _ ih => exact .put w ih

theorem Code.Flat.lift {c : Code V} (h : c.Flat) : c.lift.Flat := by
  induction h with
  | ret => exact .ret
  | throw x => exact .throw x
  | create a _ ih => exact .create a ih
  | destroy h _ ih => exact .destroy h ih
  | deliver o h _ ih => exact .deliver o h ih
  | item i _ ih => exact .item i ih
  | terminate _ ih => exact .terminate ih
  | terminated _ ih => exact .terminated ih
  | get _ ih => exact .get fun y => ih y.env
  | put w _ ih => exact .get fun y => .put _ ih

/-- The user's code is flat (see `Code.Flat`). -/
structure Fleet.Flat (A : Fleet V) : Prop where
  ctor : ∀ h a, (A.ctor h a).Flat
  calls : ∀ h v, (A.calls h v).Flat
  dtor : ∀ h, (A.dtor h).Flat
  item : ∀ i, (A.item i).Flat

theorem Fleet.Flat.unmake (hA : A.Flat) (h : Nat) : (A.unmake h).Flat := by
  refine .get fun y => ?_
  split
  · exact .put _ .ret
  · split
    · exact .put _ (hA.calls _ _).lift
    · exact .put _ .ret

theorem Fleet.Flat.beh (hA : A.Flat) : ∀ g, (A.beh g).Flat
  | .node h => by
    simp only [Fleet.beh]
    split
    · exact .throw _
    · exact .ret
  | .ctor h a => (hA.ctor h a).lift.andThen (.get fun _ => .put _ .ret) .throw
  | .op o h => by
    refine .get fun y => ?_
    split
    · exact .put _ .ret
    · split
      · split
        · exact .put _ (hA.calls _ _).lift
        · exact .put _ .ret
        · exact .put _ ((hA.calls _ _).lift.andThen (.throw _) fun _ => .throw _)
        · exact .put _ .ret
      · exact .put _ .ret
  | .dtor h => (hA.dtor h).lift.andThen (hA.unmake h) fun _ => hA.unmake h
  | .item i => (hA.item i).lift

theorem AReach.sreach {m : Wk Op (Ct (Yard V))} (h : AReach A m) : SReach A.beh m := by
  induction h with
  | fresh v => exact .fresh _
  | client k c _ ih => exact .client k _ ih
  | run k n _ ih => exact .run k n ih

/-! ### The invariant -/

/-- Code ran that does not touch the machines. -/
structure Quiet (m m' : Wk Op (Ct (Yard V))) : Prop where
  log : m'.st.log = m.st.log
  full : m'.st.full = m.st.full
  mach : m'.st.user.mach = m.st.user.mach
  gone : m'.st.user.gone = m.st.user.gone
  bad : m'.st.user.bad = m.st.user.bad
  fault : m'.st.user.fault = m.st.user.fault

theorem Quiet.refl (m : Wk Op (Ct (Yard V))) : Quiet m m := ⟨rfl, rfl, rfl, rfl, rfl, rfl⟩

theorem Quiet.trans {a b c : Wk Op (Ct (Yard V))} (h1 : Quiet a b) (h2 : Quiet b c) : Quiet a c :=
  ⟨h2.log.trans h1.log, h2.full.trans h1.full, h2.mach.trans h1.mach, h2.gone.trans h1.gone, h2.bad.trans h1.bad, h2.fault.trans h1.fault⟩

theorem Quiet.queue (w : Option (Work Op)) (m : Wk Op (Ct (Yard V))) : Quiet m (queueWorkItem w m) := by
  cases w <;> exact ⟨rfl, rfl, rfl, rfl, rfl, rfl⟩

/-- It kept the strong references to the holders there were, and only added to the queue. -/
structure Calm (m m' : Wk Op (Ct (Yard V))) : Prop where
  next : m.st.next ≤ m'.st.next
  refs : ∀ h, h < m.st.next → m'.st.refs h = m.st.refs h
  queue : ∃ l, m'.queue = m.queue ++ l

theorem Calm.refl (m : Wk Op (Ct (Yard V))) : Calm m m := ⟨Nat.le_refl _, fun _ _ => rfl, [], (List.append_nil _).symm⟩

theorem Calm.trans {a b c : Wk Op (Ct (Yard V))} (h1 : Calm a b) (h2 : Calm b c) : Calm a c := by
  obtain ⟨l1, q1⟩ := h1.queue
  obtain ⟨l2, q2⟩ := h2.queue
  exact ⟨Nat.le_trans h1.next h2.next, fun h hh => (h2.refs h (Nat.lt_of_lt_of_le hh h1.next)).trans (h1.refs h hh),
    l1 ++ l2, by rw [q2, q1, List.append_assoc]⟩

theorem Calm.enqueue (w : Option (Work Op)) (m : Wk Op (Ct (Yard V))) : Calm m (queueWorkItem w m) := by
  cases w with
  | none => exact .refl m
  | some w => exact ⟨Nat.le_refl _, fun _ _ => rfl, [some w], by simp [queueWorkItem]⟩

theorem lift_run_calm {lp : Nat → Wk Op (Ct (Yard V)) → Out Op (Ct (Yard V)) Nat} {c : Code V} (h : c.Flat)
    (kr : Prog Op (Ct (Yard V))) (kt : Nat → Prog Op (Ct (Yard V))) (m : Wk Op (Ct (Yard V))) :
    ∃ m', Quiet m m' ∧ Calm m m' ∧ (exec lp (c.lift.run kr kt) m = exec lp kr m' ∨ ∃ x, exec lp (c.lift.run kr kt) m = exec lp (kt x) m') := by
  induction h generalizing m with
  | ret => exact ⟨m, .refl m, .refl m, .inl rfl⟩
  | throw x => exact ⟨m, .refl m, .refl m, .inr ⟨x, rfl⟩⟩
  | create a _ ih =>
    obtain ⟨m', h1, h2, h3⟩ := ih m.st.next (queueWorkItem (some (.user (.create m.st.next a)))
      { m with st := { m.st with
          next := m.st.next + 1
          refs := upd m.st.refs m.st.next 1 } })
    refine ⟨m', ⟨h1.log, h1.full, h1.mach, h1.gone, h1.bad, h1.fault⟩, Calm.trans ?_ h2, h3⟩
    refine Calm.trans (b := { m with st := { m.st with
          next := m.st.next + 1
          refs := upd m.st.refs m.st.next 1 } }) ⟨Nat.le_succ _, fun h hh => upd_ne _ _ (Nat.ne_of_lt hh), [], (List.append_nil _).symm⟩ (.enqueue _ _)
  | destroy h _ ih =>
    obtain ⟨m', h1, h2, h3⟩ := ih (queueWorkItem (some (.user (.destroy (handle m.st h)))) m)
    exact ⟨m', (Quiet.queue _ m).trans h1, (Calm.enqueue _ m).trans h2, h3⟩
  | deliver o h _ ih =>
    obtain ⟨m', h1, h2, h3⟩ := ih (queueWorkItem (some (.user (.deliver o (handle m.st h)))) m)
    exact ⟨m', (Quiet.queue _ m).trans h1, (Calm.enqueue _ m).trans h2, h3⟩
  | item i _ ih =>
    obtain ⟨m', h1, h2, h3⟩ := ih (queueWorkItem ((i.map .item).map .user) m)
    exact ⟨m', (Quiet.queue _ m).trans h1, (Calm.enqueue _ m).trans h2, h3⟩
  | terminate _ ih =>
    obtain ⟨m', h1, h2, h3⟩ := ih (queueWorkItem (some .stop) m)
    exact ⟨m', (Quiet.queue _ m).trans h1, (Calm.enqueue _ m).trans h2, h3⟩
  | terminated _ ih => exact ih m.terminated m
  | get _ ih => exact ih m.st.user.env m
  | put w _ ih =>
    obtain ⟨m', h1, h2, h3⟩ := ih { m with st := { m.st with user := { m.st.user with env := w } } }
    exact ⟨m', ⟨h1.log, h1.full, h1.mach, h1.gone, h1.bad, h1.fault⟩, ⟨h2.next, h2.refs, h2.queue⟩, h3⟩

theorem lift_run {lp : Nat → Wk Op (Ct (Yard V)) → Out Op (Ct (Yard V)) Nat} {c : Code V} (h : c.Flat)
    (kr : Prog Op (Ct (Yard V))) (kt : Nat → Prog Op (Ct (Yard V))) (m : Wk Op (Ct (Yard V))) :
    ∃ m', Quiet m m' ∧ (exec lp (c.lift.run kr kt) m = exec lp kr m' ∨ ∃ x, exec lp (c.lift.run kr kt) m = exec lp (kt x) m') := by
  obtain ⟨m', h1, _, h2⟩ := lift_run_calm h kr kt m
  exact ⟨m', h1, h2⟩

/-- What is stored for a handle. -/
def Kept (A : Fleet V) (c : Ct (Yard V)) (h : Nat) : Prop :=
  (c.full h = true → ∃ a l mm, c.user.mach h = some (a, mm) ∧ feed h c.log = some (a, l) ∧ Fed A a l mm) ∧
  (c.full h = false → c.user.mach h = none)

/-- A destroyed machine. -/
def Buried (A : Fleet V) (log : List PEv) (x : Nat × Nat × Mach V) : Prop :=
  ∃ pre post l mm, log = pre ++ .gone x.1 :: post ∧ feed x.1 pre = some (x.2.1, l) ∧ Fed A x.2.1 l mm ∧ SC.destruct (A.prog x.2.1) mm = .ok () x.2.2

theorem Buried.snoc {log : List PEv} {x : Nat × Nat × Mach V} (h : Buried A log x) (e : PEv) : Buried A (log ++ [e]) x := by
  obtain ⟨pre, post, l, mm, h1, h2⟩ := h
  exact ⟨pre, post ++ [e], l, mm, by rw [h1]; simp, h2⟩

structure AInv (A : Fleet V) (c : Ct (Yard V)) : Prop where
  kept : ∀ h, Kept A c h
  buried : ∀ x ∈ c.user.gone, Buried A c.log x
  graves : c.user.gone.map (·.1) = c.log.filterMap goneOf
  fault : c.user.fault = false

def AInv' (A : Fleet V) (m : Wk Op (Ct (Yard V))) : Prop := m.st.user.bad = false → AInv A m.st

theorem Kept.congr {c c' : Ct (Yard V)} {h : Nat} (hk : Kept A c h) (h1 : c'.full h = c.full h) (h2 : c'.user.mach h = c.user.mach h)
    (h3 : feed h c'.log = feed h c.log) : Kept A c' h := by
  unfold Kept
  rw [h1, h2, h3]
  exact hk

theorem Quiet.ainv {m m' : Wk Op (Ct (Yard V))} (hq : Quiet m m') (h : AInv' A m) : AInv' A m' := by
  intro hb
  have h := h (by rw [← hq.bad]; exact hb)
  refine ⟨fun x => (h.kept x).congr (by rw [hq.full]) (by rw [hq.mach]) (by rw [hq.log]), ?_, ?_, ?_⟩
  · rw [hq.gone, hq.log]; exact h.buried
  · rw [hq.gone, hq.log]; exact h.graves
  · rw [hq.fault]; exact h.fault

theorem feed_snoc (h : Nat) (l : List PEv) (e : PEv) : feed h (l ++ [e]) = feedStep h (feed h l) e := by
  unfold feed; rw [List.foldl_append]; rfl

theorem AInv'.congr {m m' : Wk Op (Ct (Yard V))} (h : AInv' A m) (h1 : m'.st.log = m.st.log) (h2 : m'.st.full = m.st.full)
    (h3 : m'.st.user = m.st.user) : AInv' A m' :=
  Quiet.ainv ⟨h1, h2, by rw [h3], by rw [h3], by rw [h3], by rw [h3]⟩ h

section
variable (hwf : ∀ a, (A.prog a).toChart.WF) (hok : ∀ a, Contract (A.prog a)) (hA : A.Flat)
include hwf hok hA

/-- The destructor of a machine. -/
theorem unmake_run {lp : Nat → Wk Op (Ct (Yard V)) → Out Op (Ct (Yard V)) Nat} {h : Nat} {m : Wk Op (Ct (Yard V))}
    (kr : Prog Op (Ct (Yard V)))
    (hi : m.st.user.bad = false → (∀ h', h' ≠ h → Kept A m.st h') ∧ m.st.full h = false ∧
      (∃ a l mm log, m.st.user.mach h = some (a, mm) ∧ m.st.log = log ++ [.gone h] ∧ feed h log = some (a, l) ∧ Fed A a l mm) ∧
      (∀ x ∈ m.st.user.gone, Buried A m.st.log x) ∧ m.st.user.gone.map (·.1) ++ [h] = m.st.log.filterMap goneOf ∧ m.st.user.fault = false) :
    ∃ m', AInv' A m' ∧ exec lp ((A.unmake h).run kr (fun _ => kr)) m = exec lp kr m' := by
  have hstep : exec lp ((A.unmake h).run kr (fun _ => kr)) m = exec lp ((match m.st.user.mach h with
    | none => .put { m.st.user with fault := true } .ret
    | some (a, mm) => match SC.destruct (A.prog a) { mm with world := m.st.user.env } with
      | .ok _ m' => .put { m.st.user with env := m'.world, mach := upd m.st.user.mach h none, gone := m.st.user.gone ++ [(h, a, m')] } (A.calls h m'.world).lift
      | _ => .put { m.st.user with fault := true } .ret : Code (Yard V)).run kr (fun _ => kr)) m := rfl
  rw [hstep]
  cases hb : m.st.user.bad with
  | true =>
    have key : ∀ (y : Yard V) (c : Code V), y.bad = true → c.Flat → ∃ m', AInv' A m' ∧ exec lp ((Code.put y c.lift).run kr (fun _ => kr)) m = exec lp kr m' := by
      intro y c hy hc
      obtain ⟨m', h1, h2⟩ := lift_run (lp := lp) hc kr (fun _ => kr) { m with st := { m.st with user := y } }
      refine ⟨m', fun hb' => ?_, ?_⟩
      · rw [h1.bad] at hb'; rw [show ({ m with st := { m.st with user := y } } : Wk Op (Ct (Yard V))).st.user.bad = y.bad from rfl, hy] at hb'; cases hb'
      · rcases h2 with h2 | ⟨_, h2⟩ <;> exact h2
    split
    · exact key _ .ret hb .ret
    · split
      · exact key _ _ hb (hA.calls _ _)
      · exact key _ .ret hb .ret
  | false =>
    obtain ⟨h1, h2, ⟨a, l, mm, log, h3, hl1, hl2, h4⟩, h5, hg, h6⟩ := hi hb
    have hr := (h4.world m.st.user.env).reach
    obtain ⟨mm', hd⟩ := C01_destructor_is_safe (hwf a) (hok a) hr
    rw [h3]
    simp only [hd]
    obtain ⟨m', q1, q2⟩ := lift_run (lp := lp) (hA.calls h mm'.world) kr (fun _ => kr)
      { m with st := { m.st with user := { m.st.user with env := mm'.world, mach := upd m.st.user.mach h none, gone := m.st.user.gone ++ [(h, a, mm')] } } }
    refine ⟨m', q1.ainv fun _ => ⟨fun h' => ?_, ?_, ?_, h6⟩, ?_⟩
    · by_cases hh : h' = h
      · subst hh
        exact ⟨fun hf => absurd (hf.symm.trans h2) (by decide), fun _ => upd_same _ _ _⟩
      · exact (h1 h' hh).congr rfl (upd_ne _ _ hh) rfl
    · intro x hx
      rcases List.mem_append.1 hx with hx | hx
      · exact h5 x hx
      · rw [List.mem_singleton.1 hx]
        exact ⟨log, [], l, _, hl1, hl2, h4.world _, hd⟩
    · rw [← hg]
      show (m.st.user.gone ++ [(h, a, mm')]).map (·.1) = _
      rw [List.map_append]; rfl
    · rcases q2 with q2 | ⟨_, q2⟩ <;> exact q2

theorem release_run {lp : Nat → Wk Op (Ct (Yard V)) → Out Op (Ct (Yard V)) Nat} (h : Nat) {m : Wk Op (Ct (Yard V))}
    (k : Prog Op (Ct (Yard V))) (hi : AInv' A m) : ∃ m', AInv' A m' ∧ exec lp (release A.beh h k) m = exec lp k m' := by
  unfold release
  show ∃ m', AInv' A m' ∧ exec lp (if m.st.refs h = 1 then _ else _) m = exec lp k m'
  split
  · by_cases hf : m.st.full h = true
    · rw [if_pos hf]
      show ∃ m', AInv' A m' ∧ exec lp (((A.dtor h).lift.andThen (A.unmake h) (fun _ => A.unmake h)).run k (fun _ => k)) _ = exec lp k m'
      rw [Code.andThen_run]
      obtain ⟨m1, q1, q2⟩ := lift_run (lp := lp) (hA.dtor h) ((A.unmake h).run k (fun _ => k)) (fun _ => (A.unmake h).run k (fun _ => k))
        { m with st := { m.st with
          refs := upd m.st.refs h 0
          full := upd m.st.full h false
          log := m.st.log ++ [.gone h] } }
      refine Exists.elim (unmake_run hwf hok hA (lp := lp) (h := h) (m := m1) k ?_) fun m2 r => ?_
      rotate_left
      · refine ⟨m2, r.1, ?_⟩
        rw [← r.2]
        rcases q2 with q2 | ⟨_, q2⟩ <;> exact q2
      · intro hb
        rw [q1.bad] at hb
        have hi := hi hb
        obtain ⟨a, l, mm, k1, k2, k3⟩ := (hi.kept h).1 hf
        refine ⟨fun h' hh => (hi.kept h').congr (by rw [q1.full]; exact upd_ne _ _ hh) (by rw [q1.mach]) ?_, by rw [q1.full]; exact upd_same _ _ _,
          ⟨a, l, mm, m.st.log, by rw [q1.mach]; exact k1, by rw [q1.log], k2, k3⟩,
          by rw [q1.gone, q1.log]; exact fun x hx => (hi.buried x hx).snoc _, ?_, by rw [q1.fault]; exact hi.fault⟩
        · rw [q1.log]
          show feed h' (m.st.log ++ [.gone h]) = _
          rw [feed_snoc]
          simp only [feedStep, if_neg (Ne.symm hh)]
        · rw [q1.log, q1.gone]
          show _ = (m.st.log ++ [PEv.gone h]).filterMap goneOf
          rw [List.filterMap_append, ← hi.graves]; rfl
    · rw [if_neg hf]
      exact ⟨{ m with st := { m.st with refs := upd m.st.refs h 0 } }, hi.congr rfl rfl rfl, rfl⟩
  · exact ⟨{ m with st := { m.st with
      refs := upd m.st.refs h (m.st.refs h - 1)
      fault := m.st.fault || m.st.refs h == 0 } }, hi.congr rfl rfl rfl, rfl⟩

/-- An operation on a machine. -/
theorem deliver_ainv {lp : Nat → Wk Op (Ct (Yard V)) → Out Op (Ct (Yard V)) Nat} (o : HOp) {h : Nat} {m : Wk Op (Ct (Yard V))}
    (hf : m.st.full h = true) (hi : AInv' A m) : AInv' A (exec lp
      ((A.operate o h).run (leave h (release A.beh h .ret)) (fun x => leave h (release A.beh h (.throw x))))
      { m with st := { m.st with
          refs := upd m.st.refs h (m.st.refs h + 1)
          log := m.st.log ++ [.called o h]
          busy := upd m.st.busy h (m.st.busy h + 1) } }).wk := by
  have hr : ∀ {m : Wk Op (Ct (Yard V))}, AInv' A m → AInv' A (exec lp (leave h (release A.beh h .ret)) m).wk := by
    intro m hm
    obtain ⟨m', h1, h2⟩ := release_run hwf hok hA (lp := lp) h .ret
      (m := { m with st := { m.st with busy := upd m.st.busy h (m.st.busy h - 1) } }) (hm.congr rfl rfl rfl)
    rw [leave, exec, exec, h2]; exact h1
  have ht : ∀ {m : Wk Op (Ct (Yard V))} (x : Nat), AInv' A m → AInv' A (exec lp (leave h (release A.beh h (.throw x))) m).wk := by
    intro m x hm
    obtain ⟨m', h1, h2⟩ := release_run hwf hok hA (lp := lp) h (.throw x)
      (m := { m with st := { m.st with busy := upd m.st.busy h (m.st.busy h - 1) } }) (hm.congr rfl rfl rfl)
    rw [leave, exec, exec, h2]; exact h1
  show AInv' A (exec lp ((match m.st.user.mach h with
    | none => .put { m.st.user with fault := true } .ret
    | some (a, mm) =>
      if Fleet.legal (A.prog a) { mm with world := m.st.user.env } (A.call o) then
        match (A.call o).run (A.prog a) { mm with world := m.st.user.env } with
        | .ok true m' => .put { m.st.user with env := m'.world, mach := upd m.st.user.mach h (some (a, m')) } (A.calls h m'.world).lift
        | .ok false _ => .put { m.st.user with bad := true } .ret
        | .thrown x m' => .put { m.st.user with env := m'.world, mach := upd m.st.user.mach h (some (a, m')) }
            ((A.calls h m'.world).lift.andThen (.throw x) (fun _ => .throw x))
        | .fault _ => .put { m.st.user with fault := true } .ret
      else .put { m.st.user with bad := true } .ret : Code (Yard V)).run (leave h (release A.beh h .ret)) (fun x => leave h (release A.beh h (.throw x)))) _).wk
  -- the machine after the operation
  have step : ∀ {a : Nat} {mm m' : Mach V}, m.st.user.mach h = some (a, mm) → (∀ {l}, Fed A a l mm → Fed A a (l ++ [o]) m') →
      AInv' A { m with st := { m.st with
          refs := upd m.st.refs h (m.st.refs h + 1)
          log := m.st.log ++ [.called o h]
          busy := upd m.st.busy h (m.st.busy h + 1)
          user := { m.st.user with env := m'.world, mach := upd m.st.user.mach h (some (a, m')) } } } := by
    intro a mm m' hm hfed hb
    have hi := hi hb
    refine ⟨fun h' => ?_, fun x hx => (hi.buried x hx).snoc _, ?_, hi.fault⟩
    rotate_left
    · show _ = (m.st.log ++ [PEv.called o h]).filterMap goneOf
      rw [List.filterMap_append, ← hi.graves]; exact (List.append_nil _).symm
    have hlog : ∀ h', feed h' (m.st.log ++ [.called o h]) = feedStep h' (feed h' m.st.log) (.called o h) := fun h' => feed_snoc _ _ _
    by_cases hh : h' = h
    · subst hh
      obtain ⟨a', l, mm', k1, k2, k3⟩ := (hi.kept h').1 hf
      rw [hm] at k1; cases k1
      refine ⟨fun _ => ⟨a, l ++ [o], m', upd_same _ _ _, ?_, hfed k3⟩, fun hn => ?_⟩
      · rw [show ∀ x : List PEv, feed h' x = feed h' x from fun _ => rfl]
        refine (hlog h').trans ?_
        rw [k2]; simp [feedStep]
      · have hn : m.st.full h' = false := hn
        rw [hf] at hn; cases hn
    · refine (hi.kept h').congr rfl (upd_ne _ _ hh) ((hlog h').trans ?_)
      simp only [feedStep, if_neg (Ne.symm hh)]
  split
  · next hn =>
    refine hr (m := { m with st := { m.st with
        refs := upd m.st.refs h (m.st.refs h + 1)
        log := m.st.log ++ [.called o h]
        busy := upd m.st.busy h (m.st.busy h + 1)
        user := { m.st.user with fault := true } } }) ?_
    intro hb
    obtain ⟨a, l, mm, k1, _⟩ := ((hi hb).kept h).1 hf
    rw [hn] at k1; cases k1
  · next a mm hm =>
    split
    · next hl =>
      have hleg := Fleet.legal_iff hl
      split
      · next m' hrun =>
        obtain ⟨m1, q1, q2⟩ := lift_run (lp := lp) (hA.calls h m'.world) (leave h (release A.beh h .ret)) (fun x => leave h (release A.beh h (.throw x)))
          { m with st := { m.st with
            refs := upd m.st.refs h (m.st.refs h + 1)
            log := m.st.log ++ [.called o h]
            busy := upd m.st.busy h (m.st.busy h + 1)
            user := { m.st.user with env := m'.world, mach := upd m.st.user.mach h (some (a, m')) } } }
        have hm1 := q1.ainv (step hm fun k => .given (k.world m.st.user.env) (operated_of_call hleg (.inl hrun)))
        rcases q2 with q2 | ⟨x, q2⟩
        · exact Eq.mpr (congrArg (fun r => AInv' A (Out.wk r)) q2) (hr hm1)
        · exact Eq.mpr (congrArg (fun r => AInv' A (Out.wk r)) q2) (ht x hm1)
      · refine hr (m := { m with st := { m.st with
          refs := upd m.st.refs h (m.st.refs h + 1)
          log := m.st.log ++ [.called o h]
          busy := upd m.st.busy h (m.st.busy h + 1)
          user := { m.st.user with bad := true } } }) ?_
        intro hb; cases hb
      · next x m' hrun =>
        show AInv' A (exec lp (((A.calls h m'.world).lift.andThen (.throw x) (fun _ => .throw x)).run _ _) _).wk
        rw [Code.andThen_run]
        obtain ⟨m1, q1, q2⟩ := lift_run (lp := lp) (hA.calls h m'.world) (leave h (release A.beh h (.throw x))) (fun _ => leave h (release A.beh h (.throw x)))
          { m with st := { m.st with
            refs := upd m.st.refs h (m.st.refs h + 1)
            log := m.st.log ++ [.called o h]
            busy := upd m.st.busy h (m.st.busy h + 1)
            user := { m.st.user with env := m'.world, mach := upd m.st.user.mach h (some (a, m')) } } }
        have hm1 := q1.ainv (step hm fun k => .given (k.world m.st.user.env) (operated_of_call hleg (.inr ⟨_, hrun⟩)))
        rcases q2 with q2 | ⟨_, q2⟩
        · exact Eq.mpr (congrArg (fun r => AInv' A (Out.wk r)) q2) (ht x hm1)
        · exact Eq.mpr (congrArg (fun r => AInv' A (Out.wk r)) q2) (ht x hm1)
      · next g hrun =>
        refine hr (m := { m with st := { m.st with
          refs := upd m.st.refs h (m.st.refs h + 1)
          log := m.st.log ++ [.called o h]
          busy := upd m.st.busy h (m.st.busy h + 1)
          user := { m.st.user with fault := true } } }) ?_
        intro hb
        obtain ⟨a', l, mm', k1, _, k3⟩ := ((hi hb).kept h).1 hf
        rw [hm] at k1; cases k1
        have := call_wp (hwf a) (hok a) (A.call o) ((k3.world m.st.user.env).reach.stable (hwf a) (hok a)).1 hleg
        unfold wp at this
        rw [hrun] at this
        exact this.elim
    · refine hr (m := { m with st := { m.st with
          refs := upd m.st.refs h (m.st.refs h + 1)
          log := m.st.log ++ [.called o h]
          busy := upd m.st.busy h (m.st.busy h + 1)
          user := { m.st.user with bad := true } } }) ?_
      intro hb; cases hb

omit hwf hok hA in
theorem Fleet.fails (A : Fleet V) (h : Nat) : (A.beh (.node h)).fails = A.node h := by
  simp only [Fleet.beh]
  cases A.node h <;> rfl

omit hwf hok hA in
theorem body_create_none {h : Nat} (hn : A.node h = none) (a : Nat) : body A.beh (.create h a) = .get fun c =>
    .put { c with
      set := upd c.set h true
      refs := upd c.refs h (c.refs h + 1) }
    ((A.make h a).run
      (.get fun c => .put { c with
          full := upd c.full h true
          log := c.log ++ [.made h a] }
        (release A.beh h .ret))
      (fun x => .get fun c => .put { c with log := c.log ++ [.failed h] }
        (release A.beh h (.throw x)))) := by
  simp only [body, A.fails, hn]; rfl

omit hwf hok hA in
theorem body_create_some {h x : Nat} (hn : A.node h = some x) (a : Nat) : body A.beh (.create h a) =
    .get fun c => .put { c with log := c.log ++ [.lost h] } (release A.beh h (.throw x)) := by
  simp only [body, A.fails, hn]

/-- One work item. -/
theorem body_ainv {lp : Nat → Wk Op (Ct (Yard V)) → Out Op (Ct (Yard V)) Nat} (op : Op) {m : Wk Op (Ct (Yard V))} (hi : AInv' A m) :
    AInv' A (exec lp (body A.beh op) m).wk := by
  have hret : ∀ {k : Prog Op (Ct (Yard V))} {m : Wk Op (Ct (Yard V))} (h : Nat), (∀ m, (exec lp k m).wk = m) → AInv' A m →
      AInv' A (exec lp (release A.beh h k) m).wk := by
    intro k m h hk hm
    obtain ⟨m', h1, h2⟩ := release_run hwf hok hA (lp := lp) h k hm
    rw [h2, hk]
    exact h1
  cases op with
  | create h a =>
    cases hn : A.node h with
    | some x =>
      rw [body_create_some hn]
      refine hret (k := .throw x) (m := { m with st := { m.st with log := m.st.log ++ [.lost h] } }) h (fun _ => rfl) ?_
      intro hb
      have hm1 := hi hb
      refine ⟨fun h' => (hm1.kept h').congr rfl rfl ?_, fun x hx => (hm1.buried x hx).snoc _, ?_, hm1.fault⟩
      · show feed h' (m.st.log ++ [.lost h]) = _
        rw [feed_snoc]; rfl
      · show _ = (m.st.log ++ [PEv.lost h]).filterMap goneOf
        rw [List.filterMap_append, ← hm1.graves]; exact (List.append_nil _).symm
    | none =>
    rw [body_create_none hn]
    show AInv' A (exec lp (((A.ctor h a).lift.andThen (.get fun y => .put { y with mach := upd y.mach h (some (a, Mach.fresh y.env)) } .ret) .throw).run _ _) _).wk
    rw [Code.andThen_run]
    obtain ⟨m1, q1, q2⟩ := lift_run (lp := lp) (hA.ctor h a)
      ((Code.get fun y => .put { y with mach := upd y.mach h (some (a, Mach.fresh y.env)) } .ret).run
        (.get fun c => .put { c with full := upd c.full h true, log := c.log ++ [.made h a] } (release A.beh h .ret))
        (fun x => .get fun c => .put { c with log := c.log ++ [.failed h] } (release A.beh h (.throw x))))
      (fun x => (Code.throw x).run
        (.get fun c => .put { c with full := upd c.full h true, log := c.log ++ [.made h a] } (release A.beh h .ret))
        (fun x => .get fun c => .put { c with log := c.log ++ [.failed h] } (release A.beh h (.throw x))))
      { m with st := { m.st with
        set := upd m.st.set h true
        refs := upd m.st.refs h (m.st.refs h + 1) } }
    have hm1 : AInv' A m1 := q1.ainv (hi.congr rfl rfl rfl)
    rcases q2 with q2 | ⟨x, q2⟩
    · refine Eq.mpr (congrArg (fun r => AInv' A (Out.wk r)) q2) ?_
      refine hret (k := .ret) (m := { m1 with st := { m1.st with
          user := { m1.st.user with mach := upd m1.st.user.mach h (some (a, Mach.fresh m1.st.user.env)) }
          full := upd m1.st.full h true
          log := m1.st.log ++ [.made h a] } }) h (fun _ => rfl) ?_
      intro hb
      have hm1 := hm1 hb
      refine ⟨fun h' => ?_, fun x hx => (hm1.buried x hx).snoc _, ?_, hm1.fault⟩
      rotate_left
      · show _ = (m1.st.log ++ [PEv.made h a]).filterMap goneOf
        rw [List.filterMap_append, ← hm1.graves]; exact (List.append_nil _).symm
      by_cases hh : h' = h
      · subst hh
        refine ⟨fun _ => ⟨a, [], _, upd_same _ _ _, ?_, .fresh _⟩, fun hf => ?_⟩
        · show feed h' (m1.st.log ++ [.made h' a]) = _
          rw [feed_snoc]; simp [feedStep]
        · have hf : upd m1.st.full h' true h' = false := hf
          rw [upd_same] at hf; cases hf
      · refine (hm1.kept h').congr (upd_ne _ _ hh) (upd_ne _ _ hh) ?_
        show feed h' (m1.st.log ++ [.made h a]) = _
        rw [feed_snoc]
        simp only [feedStep, if_neg (Ne.symm hh)]
    · refine Eq.mpr (congrArg (fun r => AInv' A (Out.wk r)) q2) ?_
      refine hret (k := .throw x) (m := { m1 with st := { m1.st with log := m1.st.log ++ [.failed h] } }) h (fun _ => rfl) ?_
      intro hb
      have hm1 := hm1 hb
      refine ⟨fun h' => (hm1.kept h').congr rfl rfl ?_, fun x hx => (hm1.buried x hx).snoc _, ?_, hm1.fault⟩
      · show feed h' (m1.st.log ++ [.failed h]) = _
        rw [feed_snoc]; rfl
      · show _ = (m1.st.log ++ [PEv.failed h]).filterMap goneOf
        rw [List.filterMap_append, ← hm1.graves]; exact (List.append_nil _).symm
  | destroy h =>
    cases h with
    | none => exact hi
    | some h =>
      show AInv' A (exec lp (if m.st.refs h = 0 then .ret else _) m).wk
      split
      · exact hi
      · refine hret (k := .ret) (m := { m with st := { m.st with
          refs := upd m.st.refs h (if m.st.set h then m.st.refs h else m.st.refs h + 1)
          set := upd m.st.set h false } }) h (fun _ => rfl) (hi.congr rfl rfl rfl)
  | deliver o h =>
    cases h with
    | none => exact hi
    | some h =>
      show AInv' A (exec lp (if m.st.refs h = 0 then .ret else if m.st.full h then _ else _) m).wk
      split
      · exact hi
      · split
        · next hf =>
          exact deliver_ainv hwf hok hA o hf hi
        · exact hi.congr rfl rfl rfl
  | item i =>
    obtain ⟨m1, q1, q2⟩ := lift_run (lp := lp) (hA.item i) .ret .throw m
    have : (exec lp (body A.beh (.item i)) m).wk = m1 := by
      rcases q2 with q2 | ⟨x, q2⟩ <;> exact congrArg Out.wk q2
    rw [this]
    exact q1.ainv hi

theorem loop_ainv : ∀ (k max c : Nat) (m : Wk Op (Ct (Yard V))), AInv' A m → AInv' A (loop (body A.beh) k max c m).wk
  | 0, _, _, m, h => h
  | k + 1, max, c, m, h => by
    rw [loop]
    split
    · unfold dequeueItem
      cases hq : m.queue with
      | nil => exact h
      | cons w q =>
        cases w with
        | none => exact h.congr rfl rfl rfl
        | some w =>
          have h' : AInv' A (Fifo.callItem (body A.beh) (fun n m => loop (body A.beh) k n 0 m) w { m with queue := q }).wk := by
            unfold Fifo.callItem
            cases w with
            | stop => exact h.congr rfl rfl rfl
            | user i =>
              have hb := body_ainv hwf hok hA (lp := fun n m => loop (body A.beh) k n 0 m) i
                (m := { m with queue := q, log := m.log ++ [.start (.user i)] }) (h.congr rfl rfl rfl)
              simp only
              cases hr : exec (fun n m => loop (body A.beh) k n 0 m) (body A.beh i) { m with queue := q, log := m.log ++ [.start (.user i)] } with
              | ok a m' => rw [hr] at hb; exact AInv'.congr hb rfl rfl rfl
              | thrown x m' => rw [hr] at hb; exact AInv'.congr hb rfl rfl rfl
              | more m' => rw [hr] at hb; exact hb
          simp only
          cases hr : Fifo.callItem (body A.beh) (fun n m => loop (body A.beh) k n 0 m) w { m with queue := q } with
          | ok a m' => rw [hr] at h'; exact loop_ainv k max (c + 1) m' h'
          | thrown x m' => rw [hr] at h'; exact h'
          | more m' => rw [hr] at h'; exact h'
    · exact h

omit hwf hok hA in
theorem client_ainv {lp : Nat → Wk Op (Ct (Yard V)) → Out Op (Ct (Yard V)) Nat} (hl : ∀ n m, AInv' A m → AInv' A (lp n m).wk) :
    ∀ (c : Code V) (m : Wk Op (Ct (Yard V))), AInv' A m → AInv' A (exec lp (c.lift.run .ret .throw) m).wk
  | .ret, m, h => h
  | .throw x, m, h => h
  | .create a k, m, h =>
    client_ainv hl (k m.st.next) (queueWorkItem (some (.user (.create m.st.next a)))
      { m with st := { m.st with
          next := m.st.next + 1
          refs := upd m.st.refs m.st.next 1 } }) (h.congr rfl rfl rfl)
  | .destroy d k, m, h => client_ainv hl k (queueWorkItem (some (.user (.destroy (handle m.st d)))) m) (h.congr rfl rfl rfl)
  | .deliver o d k, m, h => client_ainv hl k (queueWorkItem (some (.user (.deliver o (handle m.st d)))) m) (h.congr rfl rfl rfl)
  | .item none k, m, h => client_ainv hl k m h
  | .item (some i) k, m, h => client_ainv hl k (queueWorkItem (some (.user (.item i))) m) (h.congr rfl rfl rfl)
  | .terminate k, m, h => client_ainv hl k (queueWorkItem (some .stop) m) (h.congr rfl rfl rfl)
  | .terminated k, m, h => client_ainv hl (k m.terminated) m h
  | .get k, m, h => client_ainv hl (k m.st.user.env) m h
  | .put w k, m, h =>
    client_ainv hl k { m with st := { m.st with user := { m.st.user with env := w } } }
      (Quiet.ainv (m := m) ⟨rfl, rfl, rfl, rfl, rfl, rfl⟩ h)
  | .call n k c, m, h => by
    have hn := hl n m h
    rw [Code.lift, Code.run, exec]
    cases hr : lp n m with
    | ok i m' => rw [hr] at hn; exact client_ainv hl (k i) m' hn
    | thrown x m' => rw [hr] at hn; exact client_ainv hl (c x) m' hn
    | more m' => rw [hr] at hn; exact hn

theorem AReach.ainv {m : Wk Op (Ct (Yard V))} (h : AReach A m) : AInv' A m := by
  induction h with
  | fresh v => exact fun _ => ⟨fun h => ⟨fun hf => (by cases hf), fun _ => rfl⟩, fun x hx => (by cases hx), rfl, rfl⟩
  | client k c _ ih => exact client_ainv (fun n m h => loop_ainv hwf hok hA k n 0 m h) c _ ih
  | run k n _ ih => exact loop_ainv hwf hok hA k n 0 _ ih

omit hwf hok hA in
/-- A living processor has been made, and has received operations. -/
theorem Spec.Serve.feed {f : Bool} {h : Nat} {l : List Op} {st : Status} {obs : List PEv} (hs : Serve f h l st obs) :
    (st = .unborn → obs = []) ∧
    (st = .alive → ∃ a cs, obs = .made h a :: cs.map (PEv.called · h) ∧ Spec.feed h obs = some (a, cs)) := by
  induction hs with
  | start => exact ⟨fun _ => rfl, fun h => by cases h⟩
  | other _ _ ih => exact ih
  | create a _ ih =>
    refine ⟨fun h => (by cases h), fun _ => ⟨a, [], ?_, ?_⟩⟩
    · rw [ih.1 rfl]; rfl
    · rw [feed_snoc]; simp [feedStep]
  | createFails a _ ih => exact ⟨fun h => (by cases h), fun h => (by cases h)⟩
  | createLost a _ ih => exact ⟨fun h => (by cases h), fun h => (by cases h)⟩
  | call op _ ih =>
    refine ⟨fun h => (by cases h), fun _ => ?_⟩
    obtain ⟨a, cs, h1, h2⟩ := ih.2 rfl
    refine ⟨a, cs ++ [op], ?_, ?_⟩
    · rw [h1]; simp
    · rw [feed_snoc, h2]; simp [feedStep]
  | destroy _ ih => exact ⟨fun h => (by cases h), fun h => (by cases h)⟩
  | destroyFailed _ ih => exact ⟨fun h => (by cases h), fun h => (by cases h)⟩
  | discardCall _ _ ih => exact ⟨fun h => (by cases h), fun h => (by cases h)⟩
  | discardDestroy _ ih => exact ⟨fun h => (by cases h), fun h => (by cases h)⟩
  | crash _ _ _ ih => exact ⟨fun h => (by cases h), fun h => (by cases h)⟩

omit hwf hok hA in
theorem feed_filter (h : Nat) (l : List PEv) : feed h (l.filter fun e => evHandle e == h) = feed h l := by
  unfold feed
  generalize (none : Option (Nat × List HOp)) = s
  induction l generalizing s with
  | nil => rfl
  | cons e l ih =>
    rw [List.filter_cons]
    split
    · exact ih _
    · next hn =>
      have : feedStep h s e = s := by
        simp only [beq_iff_eq] at hn
        cases e <;> simp_all [feedStep, evHandle]
      rw [List.foldl_cons, this]
      exact ih s

/-- **C41 (an asynchronous machine is a state machine that is given the queued operations).** For each handle: the machine exists
iff its creation has been executed and its destruction has not (`Serve`). Then its state is that of a
machine which was constructed and given exactly the operations executed for the handle, in this order. -/
theorem C41_machine {m : Wk Op (Ct (Yard V))} (h : AReach A m) (hb : m.st.user.bad = false) (hf : m.st.fault = false) (hd : Nat) :
    ∃ st obs, Serve false hd (ops (starts m.log)) st obs ∧
      (st ≠ .alive → m.st.user.mach hd = none) ∧
      (st = .alive → ∃ a cs mm, obs = .made hd a :: cs.map (PEv.called · hd) ∧ m.st.user.mach hd = some (a, mm) ∧ Fed A a cs mm) := by
  obtain ⟨st, h1, h2⟩ := (h.sreach.sinv hA.beh).2.serve hd
  have hi := h.ainv hwf hok hA hb
  rw [hf] at h1
  refine ⟨st, _, h1, fun hs => (hi.kept hd).2 ?_, fun hs => ?_⟩
  · cases st with
    | alive => exact absurd rfl hs
    | unborn => exact h2.1
    | failed => exact h2.2.2.2.1
    | gone => exact h2.2.2.2.1
  · subst hs
    obtain ⟨a, cs, k1, k2⟩ := h1.feed.2 rfl
    obtain ⟨a', l, mm, r1, r2, r3⟩ := (hi.kept hd).1 h2.2.2.2.1
    rw [feed_filter, r2] at k2
    cases k2
    exact ⟨a, cs, mm, k1, r1, r3⟩

/-- **C41 (safety).** No machine faults, and no operation reaches a machine that does not exist.  The container itself faults only
after the constructor of a processor has thrown (`Ex.C32_constructor_throws`). -/
theorem C41_safe {m : Wk Op (Ct (Yard V))} (h : AReach A m) (hb : m.st.user.bad = false) :
    m.st.user.fault = false ∧ (m.st.fault = true → ∃ hd, PEv.failed hd ∈ m.st.log) :=
  ⟨(h.ainv hwf hok hA hb).fault, C32_safe hA.beh h.sreach⟩

/-- **C41 (destruction).** The destroyed machines are those whose destruction was executed, in this order. Each had been given the
operations executed for its handle until then, and its destructor has destroyed all its states. -/
theorem C41_destroyed {m : Wk Op (Ct (Yard V))} (h : AReach A m) (hb : m.st.user.bad = false) :
    m.st.user.gone.map (·.1) = m.st.log.filterMap goneOf ∧
    ∀ hd a mm', (hd, a, mm') ∈ m.st.user.gone → ∃ pre post cs mm, m.st.log = pre ++ .gone hd :: post ∧
      feed hd pre = some (a, cs) ∧ Fed A a cs mm ∧ SC.destruct (A.prog a) mm = .ok () mm' ∧ ∀ s, mm'.act s = false := by
  have hi := h.ainv hwf hok hA hb
  refine ⟨hi.graves, fun hd a mm' hx => ?_⟩
  obtain ⟨pre, post, l, mm, h0, h1, h2, h3⟩ := hi.buried _ hx
  obtain ⟨m', xs, k1, _, _, k2⟩ := C14_destruct (hwf a) (hok a) h2.reach
  rw [h3] at k1
  cases k1
  exact ⟨pre, post, l, mm, h0, h1, h2, h3, k2⟩

/-- **C41 (exceptions).** If the next queued operation makes a machine throw, the exception leaves `operator()`; the machine stays
as it left it, and the rest of the queue is still there. -/
theorem C41_exception {m : Wk Op (Ct (Yard V))} (h : AReach A m) (hb : m.st.user.bad = false) (ht : m.terminated = false)
    {o : HOp} {hd a x : Nat} {q : List (Option (Work Op))} (hq : m.queue = some (.user (.deliver o (some hd))) :: q)
    {mm mm' : Mach V} (hm : m.st.user.mach hd = some (a, mm)) (hx : Breaks (A.prog a) A.ev A.fuel { mm with world := m.st.user.env } mm' x o)
    (k n : Nat) : ∃ m1, Fifo.run (Fifo.body A.beh) (k + 1) n m = .thrown x m1 ∧ m1.st.user.mach hd = some (a, mm') ∧
      (∃ l, m1.queue = q ++ l) ∧ m1.st.log = m.st.log ++ [.called o hd] := by
  have hi := h.ainv hwf hok hA hb
  obtain ⟨st, _, h2⟩ := (h.sreach.sinv hA.beh).2.serve hd
  have hfull : m.st.full hd = true := by
    cases hf : m.st.full hd with
    | true => rfl
    | false =>
      have := (hi.kept hd).2 hf
      rw [hm] at this; cases this
  have hrefs : hd < m.st.next ∧ m.st.refs hd = 1 := by
    cases st with
    | alive => exact ⟨h2.1, h2.2.1⟩
    | unborn => have := h2.1; rw [hfull] at this; cases this
    | failed => have := h2.2.2.2.1; rw [hfull] at this; cases this
    | gone => have := h2.2.2.2.1; rw [hfull] at this; cases this
  have hrun : (A.call o).run (A.prog a) { mm with world := m.st.user.env } = .thrown x mm' := by
    cases o with
    | initiate => exact hx.2
    | event e => exact hx
    | terminate =>
      show Call.run (A.prog a) .terminate _ = _
      rw [run_terminate]
      unfold Breaks at hx
      rw [hx]
  have hleg : Fleet.legal (A.prog a) { mm with world := m.st.user.env } (A.call o) = true := by
    cases o with
    | initiate =>
      simp only [Fleet.call, Fleet.legal]
      split
      · next h1 => exact hx.1 _ h1
      · rfl
    | event e => rfl
    | terminate => rfl
  let lp : Nat → Wk Op (Ct (Yard V)) → Out Op (Ct (Yard V)) Nat := fun n m => loop (Fifo.body A.beh) k n 0 m
  let mc : Wk Op (Ct (Yard V)) := { m with
      queue := q
      log := m.log ++ [.start (.user (.deliver o (some hd)))]
      st := { m.st with
          refs := upd m.st.refs hd (m.st.refs hd + 1)
          log := m.st.log ++ [.called o hd]
          busy := upd m.st.busy hd (m.st.busy hd + 1)
          user := { m.st.user with env := mm'.world, mach := upd m.st.user.mach hd (some (a, mm')) } } }
  obtain ⟨m1, q1, q2, q3⟩ := lift_run_calm (lp := lp) (hA.calls hd mm'.world) (leave hd (release A.beh hd (.throw x))) (fun _ => leave hd (release A.beh hd (.throw x))) mc
  have q3 : exec lp ((A.calls hd mm'.world).lift.run (leave hd (release A.beh hd (.throw x))) (fun _ => leave hd (release A.beh hd (.throw x)))) mc =
      exec lp (leave hd (release A.beh hd (.throw x))) m1 := by
    rcases q3 with q3 | ⟨_, q3⟩ <;> exact q3
  have hr1 : m1.st.refs hd = 2 := by
    rw [q2.refs hd hrefs.1]
    show upd m.st.refs hd (m.st.refs hd + 1) hd = 2
    rw [upd_same, hrefs.2]
  have hrel : exec lp (leave hd (release A.beh hd (.throw x))) m1 = .thrown x { m1 with st := { m1.st with busy := upd m1.st.busy hd (m1.st.busy hd - 1), refs := upd m1.st.refs hd 1 } } := by
    unfold leave release
    show exec lp (if m1.st.refs hd = 1 then _ else _) _ = _
    rw [hr1, if_neg (by decide)]
    simp only [exec]
    simp
  have hbody : exec lp (Fifo.body A.beh (.deliver o (some hd))) { m with
      queue := q
      log := m.log ++ [.start (.user (.deliver o (some hd)))] } = .thrown x { m1 with st := { m1.st with busy := upd m1.st.busy hd (m1.st.busy hd - 1), refs := upd m1.st.refs hd 1 } } := by
    show exec lp (if m.st.refs hd = 0 then _ else if m.st.full hd = true then _ else _) _ = _
    rw [if_neg (by rw [hrefs.2]; decide), if_pos hfull]
    show exec lp ((match m.st.user.mach hd with
      | none => .put { m.st.user with fault := true } .ret
      | some (a, mm) =>
        if Fleet.legal (A.prog a) { mm with world := m.st.user.env } (A.call o) then
          match (A.call o).run (A.prog a) { mm with world := m.st.user.env } with
          | .ok true m' => .put { m.st.user with env := m'.world, mach := upd m.st.user.mach hd (some (a, m')) } (A.calls hd m'.world).lift
          | .ok false _ => .put { m.st.user with bad := true } .ret
          | .thrown x m' => .put { m.st.user with env := m'.world, mach := upd m.st.user.mach hd (some (a, m')) }
              ((A.calls hd m'.world).lift.andThen (.throw x) (fun _ => .throw x))
          | .fault _ => .put { m.st.user with fault := true } .ret
        else .put { m.st.user with bad := true } .ret : Code (Yard V)).run (leave hd (release A.beh hd .ret)) (fun x => leave hd (release A.beh hd (.throw x)))) _ = _
    rw [hm]
    simp only
    rw [if_pos hleg, hrun]
    show exec lp (((A.calls hd mm'.world).lift.andThen (.throw x) (fun _ => .throw x)).run _ _) mc = _
    rw [Code.andThen_run]
    exact q3.trans hrel
  refine ⟨{ m1 with
    st := { m1.st with busy := upd m1.st.busy hd (m1.st.busy hd - 1), refs := upd m1.st.refs hd 1 }
    log := m1.log ++ [.fail (.user (.deliver o (some hd)))] }, ?_, ?_, q2.queue, q1.log⟩
  · have hn : (!m.terminated && (n == 0 || decide (0 < n))) = true := by
      rw [ht]
      cases n <;> simp
    show loop _ (k + 1) n 0 m = _
    rw [loop, if_pos hn]
    unfold dequeueItem
    rw [hq]
    simp only
    unfold callItem
    simp only
    rw [hbody]
  · show m1.st.user.mach hd = _
    rw [q1.mach]
    exact upd_same _ _ _

end

/-! ### Example -/

namespace Ex

/-- Machines of the example program. A machine sends event `4` to itself when created (its constructor calls the scheduler);
the environment selects which callbacks throw. -/
def fleet : Fleet Nat where
  prog _ := SC.Ex.prog
  ev e := ⟨e, 0⟩
  ctor h _ := .deliver (.event 4) h .ret
  calls _ _ := .ret
  dtor _ := .ret
  item _ := .ret
  fuel := 3

theorem fleet_flat : fleet.Flat :=
  ⟨fun _ _ => .deliver _ _ .ret, fun _ _ => .ret, fun _ => .ret, fun _ => .ret⟩

/-- Two machines are made and initiated; the second gets event 1 while constructors of state `D` throw; the first is destroyed and
gets another event. -/
def fleetClient : Code Nat :=
  .create 0 fun g => .create 5 fun h => .deliver .initiate g (.deliver .initiate h (.call 0 (fun _ =>
    .put 1 (.deliver (.event 1) h (.destroy g (.deliver (.event 1) g (.call 0 (fun _ => .ret) (fun _ => .ret))))))
    (fun _ => .ret)))

def fleetAfter : Wk Op (Ct (Yard Nat)) :=
  (exec (fun n m => Fifo.run (Fifo.body fleet.beh) 30 n m) (fleetClient.lift.run .ret .throw) { st := { user := { env := 0 } } }).wk

theorem fleetAfter_reach : AReach fleet fleetAfter := .client 30 fleetClient (.fresh 0)

/-- The first machine is gone; the second got three operations, and reacted to the exception event by a transition to `I` (8). -/
example : fleetAfter.st.user.bad = false ∧ fleetAfter.st.fault = false ∧
    fleetAfter.st.log = [.made 0 0, .made 1 5, .called .initiate 0, .called .initiate 1, .called (.event 4) 0, .called (.event 4) 1,
      .called (.event 1) 1, .gone 0] ∧
    fleetAfter.st.user.mach 0 = none ∧ ((fleetAfter.st.user.mach 1).any fun x => x.1 == 5 && x.2.act 8 && !x.2.act 0) = true := by
  refine ⟨by decide +kernel, by decide +kernel, by decide +kernel, ?_, by decide +kernel⟩
  have : (fleetAfter.st.user.mach 0).isNone = true := by decide +kernel
  exact Option.isNone_iff_eq_none.1 this

example : ∃ a cs mm, fleetAfter.st.user.mach 1 = some (a, mm) ∧ Fed fleet a cs mm := by
  obtain ⟨st, obs, _, h1, h2⟩ := C41_machine (A := fleet) (fun _ => SC.Ex.wf) (fun _ => SC.Ex.contract) fleet_flat fleetAfter_reach
    (by decide +kernel) (by decide +kernel) 1
  by_cases hs : st = .alive
  · obtain ⟨a, cs, mm, _, k1, k2⟩ := h2 hs
    exact ⟨a, cs, mm, k1, k2⟩
  · have : (fleetAfter.st.user.mach 1).isSome = true := by decide +kernel
    rw [h1 hs] at this
    cases this

/-- A machine is made; then `initiate` is queued while the constructor of `E` (4) throws an exception that is not translated, and
after it an event. -/
def throwClient : Code Nat := .create 0 fun g => .call 0 (fun _ => .put 7 (.deliver .initiate g (.deliver (.event 1) g .ret))) (fun _ => .ret)

def throwBefore : Wk Op (Ct (Yard Nat)) :=
  (exec (fun n m => Fifo.run (Fifo.body fleet.beh) 30 n m) (throwClient.lift.run .ret .throw) { st := { user := { env := 0 } } }).wk

example : ∃ (mm mm' : Mach Nat), AReach fleet throwBefore ∧ throwBefore.st.user.bad = false ∧ throwBefore.terminated = false ∧
    throwBefore.queue = some (.user (.deliver .initiate (some 0))) :: [some (.user (.deliver (.event 1) (some 0)))] ∧
    throwBefore.st.user.mach 0 = some (0, mm) ∧
    Breaks (fleet.prog 0) fleet.ev fleet.fuel { mm with world := throwBefore.st.user.env } mm' 7 .initiate := by
  have h1 : (throwBefore.st.user.mach 0).any (fun p => p.1 == 0 &&
      (match SC.terminate SC.Ex.prog { p.2 with world := throwBefore.st.user.env } with
        | .ok _ m1 => m1.terminated
        | _ => true) &&
      match SC.initiate SC.Ex.prog 3 { p.2 with world := throwBefore.st.user.env } with
        | .thrown x _ => x == 7
        | _ => false) = true := by decide +kernel
  rw [Option.any_eq_true] at h1
  obtain ⟨⟨a, mm⟩, k1, k2⟩ := h1
  simp only [Bool.and_eq_true, beq_iff_eq] at k2
  obtain ⟨⟨rfl, k3⟩, k4⟩ := k2
  split at k4
  · next x mm' hr =>
    have hx : x = 7 := by simpa using k4
    subst hx
    refine ⟨mm, mm', .client 30 throwClient (.fresh 0), by decide +kernel, by decide +kernel, by decide +kernel, k1, fun m1 h1 => ?_, hr⟩
    have h1 : SC.terminate SC.Ex.prog { mm with world := throwBefore.st.user.env } = .ok () m1 := h1
    rw [h1] at k3
    exact k3
  · cases k4

end Ex
end SC.Fifo
