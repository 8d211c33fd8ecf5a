import Verif.Fifo.Hub
import Verif.Props.Async
import Verif.Props.Lives
import Verif.Props.Reference
/-!
# C58: a scheduler of asynchronous machines is a scheduler of reference machines
-/

namespace SC.Fifo

variable {V : Type} {A : Fleet V}

/-- The scheduler without reference counts, holders and functors, and with reference machines. -/
def Hub.of (m : Wk Op (Ct (Yard V))) : Hub V where
  queue := m.queue.filterMap id
  terminated := m.terminated
  next := m.st.next
  env := m.st.user.env
  mach h := (m.st.user.mach h).map fun x => (x.1, abs x.2)
  bad := m.st.user.bad
  log := m.st.log

def Out.hub {α : Type} : Out Op (Ct (Yard V)) α → Hub.Out V α
  | .ok a m => .ok a (.of m)
  | .thrown x m => .thrown x (.of m)
  | .more m => .more (.of m)

theorem Hub.of_queue (w : Work Op) (m : Wk Op (Ct (Yard V))) : Hub.of (queueWorkItem (some w) m) = (Hub.of m).push w := by
  simp [Hub.of, Hub.push, queueWorkItem, List.filterMap_append]

theorem Hub.of_known (h : Nat) (m : Wk Op (Ct (Yard V))) : (Hub.of m).known h = handle m.st h := rfl

/-- Code that does not call `operator()`. -/
theorem lift_hub {lp : Nat → Wk Op (Ct (Yard V)) → Out Op (Ct (Yard V)) Nat} {c : Code V} (h : c.Flat)
    (kr : Prog Op (Ct (Yard V))) (kt : Nat → Prog Op (Ct (Yard V))) (m : Wk Op (Ct (Yard V))) :
    ∃ m', Quiet m m' ∧ Calm m m' ∧ ((Hub.code c (.of m) = .ok () (.of m') ∧ exec lp (c.lift.run kr kt) m = exec lp kr m') ∨
      ∃ x, Hub.code c (.of m) = .thrown x (.of m') ∧ exec lp (c.lift.run kr kt) m = exec lp (kt x) m') := by
  induction h generalizing m with
  | ret => exact ⟨m, .refl m, .refl m, .inl ⟨rfl, rfl⟩⟩
  | throw x => exact ⟨m, .refl m, .refl m, .inr ⟨x, rfl, rfl⟩⟩
  | create a _ ih =>
    obtain ⟨m', h1, h2, h3⟩ := ih m.st.next (queueWorkItem (some (.user (.create m.st.next a)))
      { m with st := { m.st with
          next := m.st.next + 1
          refs := upd m.st.refs m.st.next 1 } })
    rw [Hub.of_queue] at h3
    refine ⟨m', ⟨h1.log, h1.full, h1.mach, h1.gone, h1.bad, h1.fault⟩, Calm.trans ?_ h2, h3⟩
    refine Calm.trans (b := { m with st := { m.st with
          next := m.st.next + 1
          refs := upd m.st.refs m.st.next 1 } }) ⟨Nat.le_succ _, fun h hh => upd_ne _ _ (Nat.ne_of_lt hh), [], (List.append_nil _).symm⟩ (.enqueue _ _)
  | destroy h _ ih =>
    obtain ⟨m', h1, h2, h3⟩ := ih (queueWorkItem (some (.user (.destroy (handle m.st h)))) m)
    rw [Hub.of_queue] at h3
    exact ⟨m', (Quiet.queue _ m).trans h1, (Calm.enqueue _ m).trans h2, h3⟩
  | deliver o h _ ih =>
    obtain ⟨m', h1, h2, h3⟩ := ih (queueWorkItem (some (.user (.deliver o (handle m.st h)))) m)
    rw [Hub.of_queue] at h3
    exact ⟨m', (Quiet.queue _ m).trans h1, (Calm.enqueue _ m).trans h2, h3⟩
  | item i _ ih =>
    cases i with
    | none => exact ih m
    | some i =>
      obtain ⟨m', h1, h2, h3⟩ := ih (queueWorkItem (some (.user (.item i))) m)
      rw [Hub.of_queue] at h3
      exact ⟨m', (Quiet.queue _ m).trans h1, (Calm.enqueue _ m).trans h2, h3⟩
  | terminate _ ih =>
    obtain ⟨m', h1, h2, h3⟩ := ih (queueWorkItem (some .stop) m)
    rw [Hub.of_queue] at h3
    exact ⟨m', (Quiet.queue _ m).trans h1, (Calm.enqueue _ m).trans h2, h3⟩
  | terminated _ ih => exact ih m.terminated m
  | get _ ih => exact ih m.st.user.env m
  | put w _ ih =>
    obtain ⟨m', h1, h2, h3⟩ := ih { m with st := { m.st with user := { m.st.user with env := w } } }
    exact ⟨m', ⟨h1.log, h1.full, h1.mach, h1.gone, h1.bad, h1.fault⟩, ⟨h2.next, h2.refs, h2.queue⟩, h3⟩

/-- The holder of a handle is full iff there is a machine, and machines are ones a client can have. -/
structure MInv (A : Fleet V) (c : Ct (Yard V)) : Prop where
  full : ∀ h, c.full h = true ↔ c.user.mach h ≠ none
  reach : ∀ h a mm, c.user.mach h = some (a, mm) → SC.Reach (A.prog a) mm
  fault : c.user.fault = false

theorem MInv.quiet {m m' : Wk Op (Ct (Yard V))} (h : MInv A m.st) (hq : Quiet m m') : MInv A m'.st :=
  ⟨by rw [hq.full, hq.mach]; exact h.full, by rw [hq.mach]; exact h.reach, by rw [hq.fault]; exact h.fault⟩

theorem MInv.congr {c c' : Ct (Yard V)} (h : MInv A c) (h1 : c'.full = c.full) (h2 : c'.user.mach = c.user.mach) (h3 : c'.user.fault = c.user.fault) : MInv A c' :=
  ⟨by rw [h1, h2]; exact h.full, by rw [h2]; exact h.reach, by rw [h3]; exact h.fault⟩

/-- Releasing a reference that is not the last one. -/
theorem release_hub {lp : Nat → Wk Op (Ct (Yard V)) → Out Op (Ct (Yard V)) Nat} {h : Nat} {m : Wk Op (Ct (Yard V))} (hr : m.st.refs h = 2)
    (k : Prog Op (Ct (Yard V))) : ∃ m', exec lp (release A.beh h k) m = exec lp k m' ∧ Hub.of m' = Hub.of m ∧ Quiet m m' := by
  refine ⟨{ m with st := { m.st with refs := upd m.st.refs h (m.st.refs h - 1) } }, ?_, rfl, ⟨rfl, rfl, rfl, rfl, rfl, rfl⟩⟩
  unfold release
  rw [exec, if_neg (by rw [hr]; decide), exec]
  simp [hr]

section
variable (hwf : ∀ a, (A.prog a).toChart.WF) (hok : ∀ a, Contract (A.prog a)) (hpl : ∀ a, Plain (A.prog a)) (hA : A.Flat)
include hwf hok hpl hA

/-- The two outcomes are the same. -/
def Agrees (A : Fleet V) (r : Out Op (Ct (Yard V)) Unit) (u : Hub.Out V Unit) : Prop := u = r.hub ∧ MInv A r.wk.st

omit hwf hok hpl hA in
theorem Agrees.ok {m : Wk Op (Ct (Yard V))} {u : Hub V} {r : Out Op (Ct (Yard V)) Unit} (hr : r = .ok () m) (hu : u = .of m) (hm : MInv A m.st) :
    Agrees A r (.ok () u) := by subst hr hu; exact ⟨rfl, hm⟩

omit hwf hok hpl hA in
theorem Agrees.thrown {m : Wk Op (Ct (Yard V))} {u : Hub V} {r : Out Op (Ct (Yard V)) Unit} {x : Nat} (hr : r = .thrown x m) (hu : u = .of m) (hm : MInv A m.st) :
    Agrees A r (.thrown x u) := by subst hr hu; exact ⟨rfl, hm⟩

omit hwf hok hpl in
theorem create_hub {lp : Nat → Wk Op (Ct (Yard V)) → Out Op (Ct (Yard V)) Nat} {h a : Nat} {m : Wk Op (Ct (Yard V))} (hm : MInv A m.st)
    (hp : HInv m h (.at 1 false false)) : Agrees A (exec lp (body A.beh (.create h a)) m) (Hub.create A h a (.of m)) := by
  cases hno : A.node h with
  | some x =>
    rw [body_create_some hno]
    let m2 : Wk Op (Ct (Yard V)) := { m with st := { m.st with log := m.st.log ++ [.lost h] } }
    have e1 : Hub.create A h a (.of m) = .thrown x { Hub.of m with log := m.st.log ++ [.lost h] } := by
      unfold Hub.create
      rw [hno]
      rfl
    rw [e1]
    refine .thrown (m := { m2 with st := { m2.st with refs := upd m2.st.refs h 0 } }) ?_ rfl (hm.congr rfl rfl rfl)
    rw [exec, exec]
    unfold release
    rw [exec, if_pos (show m.st.refs h = 1 from hp.2.1), if_neg (by rw [show m.st.full h = false from hp.2.2.2.1]; simp), exec, exec]
  | none =>
  rw [body_create_none hno]
  show Agrees A (exec lp (((A.ctor h a).lift.andThen (.get fun y => .put { y with mach := upd y.mach h (some (a, Mach.fresh y.env)) } .ret) .throw).run _ _) _) _
  rw [Code.andThen_run]
  let m0 : Wk Op (Ct (Yard V)) := { m with st := { m.st with
        set := upd m.st.set h true
        refs := upd m.st.refs h (m.st.refs h + 1) } }
  obtain ⟨m1, q1, q2, q3⟩ := lift_hub (lp := lp) (hA.ctor h a)
      ((Code.get fun y => .put { y with mach := upd y.mach h (some (a, Mach.fresh y.env)) } .ret).run
        (.get fun c => .put { c with full := upd c.full h true, log := c.log ++ [.made h a] } (release A.beh h .ret))
        (fun x => .get fun c => .put { c with log := c.log ++ [.failed h] } (release A.beh h (.throw x))))
      (fun x => (Code.throw x).run
        (.get fun c => .put { c with full := upd c.full h true, log := c.log ++ [.made h a] } (release A.beh h .ret))
        (fun x => .get fun c => .put { c with log := c.log ++ [.failed h] } (release A.beh h (.throw x)))) m0
  have hm1 : MInv A m1.st := (hm.congr (c' := m0.st) rfl rfl rfl).quiet q1
  have hr1 : m1.st.refs h = 2 := by
    rw [q2.refs h hp.1]
    show upd m.st.refs h (m.st.refs h + 1) h = 2
    rw [upd_same, hp.2.1]
  rcases q3 with ⟨c1, c2⟩ | ⟨x, c1, c2⟩
  · let m2 : Wk Op (Ct (Yard V)) := { m1 with st := { m1.st with
          user := { m1.st.user with mach := upd m1.st.user.mach h (some (a, Mach.fresh m1.st.user.env)) }
          full := upd m1.st.full h true
          log := m1.st.log ++ [.made h a] } }
    have hm2 : MInv A m2.st := by
      refine ⟨fun h' => ?_, fun h' a' mm hh => ?_, hm1.fault⟩
      · show upd m1.st.full h true h' = true ↔ upd m1.st.user.mach h (some (a, Mach.fresh m1.st.user.env)) h' ≠ none
        by_cases hx : h' = h
        · subst hx; rw [upd_same, upd_same]; simp
        · rw [upd_ne _ _ hx, upd_ne _ _ hx]; exact hm1.full h'
      · replace hh : upd m1.st.user.mach h (some (a, Mach.fresh m1.st.user.env)) h' = some (a', mm) := hh
        by_cases hx : h' = h
        · subst hx; rw [upd_same] at hh; cases hh; exact .fresh _
        · rw [upd_ne _ _ hx] at hh; exact hm1.reach h' a' mm hh
    obtain ⟨m3, r1, r2, r3⟩ := release_hub (A := A) (lp := lp) (h := h) (m := m2) hr1 .ret
    have e1 : Hub.create A h a (.of m) = .ok () { Hub.of m1 with
        mach := upd (Hub.of m1).mach h (some (a, Ref.start m1.st.user.env))
        log := m1.st.log ++ [.made h a] } := by
      unfold Hub.create
      rw [hno, show Hub.of m = Hub.of m0 from rfl, c1]
      rfl
    rw [e1]
    refine .ok (m := m3) (c2.trans r1) ?_ (hm2.quiet r3)
    rw [r2]
    unfold Hub.of
    simp only [m2, Hub.mk.injEq, true_and, and_true]
    funext h'
    by_cases hx : h' = h
    · subst hx; rw [upd_same, upd_same]; rfl
    · rw [upd_ne _ _ hx, upd_ne _ _ hx]
  · let m2 : Wk Op (Ct (Yard V)) := { m1 with st := { m1.st with log := m1.st.log ++ [.failed h] } }
    obtain ⟨m3, r1, r2, r3⟩ := release_hub (A := A) (lp := lp) (h := h) (m := m2) hr1 (.throw x)
    have e1 : Hub.create A h a (.of m) = .thrown x { Hub.of m1 with log := m1.st.log ++ [.failed h] } := by
      unfold Hub.create
      rw [hno, show Hub.of m = Hub.of m0 from rfl, c1]
      rfl
    rw [e1]
    exact .thrown (m := m3) (c2.trans r1) r2.symm ((hm1.congr (c' := m2.st) rfl rfl rfl).quiet r3)

omit hA in
/-- The destructor of a machine. -/
theorem destruct_hub {a : Nat} {mm : Mach V} (h : SC.Reach (A.prog a) mm) :
    ∃ mm', SC.destruct (A.prog a) mm = .ok () mm' ∧ Ref.leaveAll (A.prog a) false (abs mm) = .ok () (abs mm') := by
  have hm := (h.stable (hwf a) (hok a)).1
  have hs := terminateMachine_sim (hwf a) (hpl a) false hm.inv
  obtain ⟨mm', hd⟩ := C01_destructor_is_safe (hwf a) (hok a) h
  exact ⟨mm', hd, hs.ok hd⟩

omit hA in
/-- An operation on a machine. -/
theorem call_hub {a : Nat} {mm : Mach V} (h : SC.Reach (A.prog a) mm) (o : HOp) :
    Fleet.legal (A.prog a) mm (A.call o) = Hub.legal (A.prog a) (abs mm) o ∧
    (Fleet.legal (A.prog a) mm (A.call o) = true →
      (∃ b mm', (A.call o).run (A.prog a) mm = .ok b mm' ∧ Ref.run (A.prog a) (Hub.op A o) (abs mm) = .ok b (abs mm') ∧ (b = true → SC.Reach (A.prog a) mm')) ∨
      ∃ x mm', (A.call o).run (A.prog a) mm = .thrown x mm' ∧ Ref.run (A.prog a) (Hub.op A o) (abs mm) = .thrown x (abs mm') ∧ SC.Reach (A.prog a) mm') := by
  constructor
  · cases o with
    | initiate =>
      have hs := terminate_sim (hwf a) (hok a) (hpl a) (h.stable (hwf a) (hok a)).1
      have hw := terminate_wp' (hwf a) (hok a) (h.stable (hwf a) (hok a)).1
      show (match SC.terminate (A.prog a) mm with
        | .ok _ m1 => m1.terminated
        | _ => true) = (match Ref.stop (A.prog a) (abs mm) with
        | .ok _ st => st.root.isNone
        | .thrown _ _ => true)
      cases hr : SC.terminate (A.prog a) mm with
      | ok u m1 => rw [hs.ok hr]; rfl
      | thrown x m1 => rw [hs.thrown hr]
      | fault g => unfold wp at hw; rw [hr] at hw; exact hw.elim
    | terminate => rfl
    | event e => rfl
  · intro hl
    have hc := C53_call (hwf a) (hok a) (hpl a) h (A.call o) (Fleet.legal_iff hl)
    have ho : (A.call o).op = Hub.op A o := by cases o <;> rfl
    rw [ho] at hc
    cases hr : (A.call o).run (A.prog a) mm with
    | ok b m' =>
      rw [hr] at hc
      exact .inl ⟨b, m', rfl, hc, fun hb => .returns h (Fleet.legal_iff hl) (by rw [hr, hb])⟩
    | thrown x m' =>
      rw [hr] at hc
      exact .inr ⟨x, m', rfl, hc, .throws h (Fleet.legal_iff hl) hr⟩
    | fault g => rw [hr] at hc; exact hc.elim

omit hwf hok hpl hA in
theorem Hub.of_mach {m : Wk Op (Ct (Yard V))} {h a : Nat} {mm : Mach V} (hm : m.st.user.mach h = some (a, mm)) :
    (Hub.of m).mach h = some (a, abs mm) := by unfold Hub.of; simp [hm]

omit hwf hok hpl hA in
theorem Hub.of_upd {m : Wk Op (Ct (Yard V))} {h : Nat} (x : Option (Nat × Mach V)) :
    (fun h' => (upd m.st.user.mach h x h').map fun x => (x.1, abs x.2)) = upd (Hub.of m).mach h (x.map fun x => (x.1, abs x.2)) := by
  funext h'
  by_cases hx : h' = h
  · subst hx; rw [upd_same, upd_same]
  · rw [upd_ne _ _ hx, upd_ne _ _ hx]; rfl

theorem destroy_hub {lp : Nat → Wk Op (Ct (Yard V)) → Out Op (Ct (Yard V)) Nat} {h : Nat} {m : Wk Op (Ct (Yard V))} (hm : MInv A m.st)
    {f : Bool} (hp : HInv m h (.at 1 true f) ∨ HInv m h (.at 0 false false)) :
    Agrees A (exec lp (body A.beh (.destroy (some h))) m) (Hub.destroy A h (.of m)) := by
  unfold Hub.destroy
  rcases hp with hp | hp
  · let m1 : Wk Op (Ct (Yard V)) := { m with st := { m.st with
      refs := upd m.st.refs h (if m.st.set h then m.st.refs h else m.st.refs h + 1)
      set := upd m.st.set h false } }
    have hr1 : m1.st.refs h = 1 := by
      show upd m.st.refs h (if m.st.set h then m.st.refs h else m.st.refs h + 1) h = 1
      rw [upd_same, hp.2.1, hp.2.2.1]; rfl
    have he : exec lp (body A.beh (.destroy (some h))) m = exec lp (release A.beh h .ret) m1 := by
      rw [body, exec, if_neg (by rw [hp.2.1]; simp), exec]
    rw [he]
    cases hmm : m.st.user.mach h with
    | none =>
      have hf : m.st.full h ≠ true := fun hc => (hm.full h).1 hc hmm
      rw [show (Hub.of m).mach h = none by unfold Hub.of; simp [hmm]]
      refine .ok (m := { m1 with st := { m1.st with refs := upd m1.st.refs h 0 } }) ?_ rfl (hm.congr rfl rfl rfl)
      unfold release
      rw [exec, if_pos hr1, if_neg hf, exec, exec]
    | some x =>
      obtain ⟨a, mm⟩ := x
      have hf : m.st.full h = true := (hm.full h).2 (by rw [hmm]; simp)
      let m2 : Wk Op (Ct (Yard V)) := { m1 with st := { m1.st with
        refs := upd m1.st.refs h 0
        full := upd m1.st.full h false
        log := m1.st.log ++ [.gone h] } }
      have he2 : exec lp (release A.beh h .ret) m1 = exec lp ((A.dtor h).lift.run ((A.unmake h).run .ret (fun _ => .ret)) (fun _ => (A.unmake h).run .ret (fun _ => .ret))) m2 := by
        unfold release
        rw [exec, if_pos hr1, if_pos hf, exec]
        show exec lp (((A.dtor h).lift.andThen (A.unmake h) (fun _ => A.unmake h)).run _ _) _ = _
        rw [Code.andThen_run]
      obtain ⟨m3, q1, -, q3⟩ := lift_hub (lp := lp) (hA.dtor h) ((A.unmake h).run .ret (fun _ => .ret)) (fun _ => (A.unmake h).run .ret (fun _ => .ret)) m2
      have e3 : (Hub.code (A.dtor h) (.of m2)).hub = .of m3 ∧
          exec lp (release A.beh h .ret) m1 = exec lp ((A.unmake h).run .ret (fun _ => .ret)) m3 := by
        rw [he2]
        rcases q3 with ⟨c1, c2⟩ | ⟨x, c1, c2⟩
        · rw [c1]; exact ⟨rfl, c2⟩
        · rw [c1]; exact ⟨rfl, c2⟩
      have h3 : m3.st.user.mach h = some (a, mm) := by rw [q1.mach]; exact hmm
      obtain ⟨mm', d1, d2⟩ := destruct_hub hwf hok hpl (h := (hm.reach h a mm hmm).world m3.st.user.env)
      let m4 : Wk Op (Ct (Yard V)) := { m3 with st := { m3.st with user := { m3.st.user with
        env := mm'.world
        mach := upd m3.st.user.mach h none
        gone := m3.st.user.gone ++ [(h, a, mm')] } } }
      obtain ⟨m5, s1, -, s3⟩ := lift_hub (lp := lp) (hA.calls h mm'.world) .ret (fun _ => .ret) m4
      have e5 : (Hub.code (A.calls h mm'.world) (.of m4)).hub = .of m5 ∧ exec lp (release A.beh h .ret) m1 = .ok () m5 := by
        have : exec lp ((A.unmake h).run .ret (fun _ => .ret)) m3 = exec lp ((A.calls h mm'.world).lift.run .ret (fun _ => .ret)) m4 := by
          show exec lp ((match m3.st.user.mach h with
            | none => .put { m3.st.user with fault := true } .ret
            | some (a, mm) => match SC.destruct (A.prog a) { mm with world := m3.st.user.env } with
              | .ok _ m' => .put { m3.st.user with env := m'.world, mach := upd m3.st.user.mach h none, gone := m3.st.user.gone ++ [(h, a, m')] } (A.calls h m'.world).lift
              | _ => .put { m3.st.user with fault := true } .ret : Code (Yard V)).run .ret (fun _ => .ret)) m3 = _
          rw [h3]
          simp only [d1]
          rfl
        rw [e3.2, this]
        rcases s3 with ⟨c1, c2⟩ | ⟨x, c1, c2⟩
        · rw [c1]; exact ⟨rfl, c2⟩
        · rw [c1]; exact ⟨rfl, c2⟩
      rw [Hub.of_mach hmm]
      simp only
      rw [show ({ Hub.of m with log := (Hub.of m).log ++ [PEv.gone h] } : Hub V) = Hub.of m2 from rfl, e3.1]
      rw [show ({ abs mm with world := (Hub.of m3).env } : Ref.St V) = abs { mm with world := m3.st.user.env } from rfl, d2]
      simp only
      have e6 : ({ Hub.of m3 with env := (abs mm').world, mach := upd (Hub.of m3).mach h none } : Hub V) = Hub.of m4 := by
        have := Hub.of_upd (m := m3) (h := h) none
        unfold Hub.of
        simp only [m4]
        rw [this]
        rfl
      rw [e6]
      refine .ok e5.2 e5.1 (MInv.quiet ?_ s1)
      refine ⟨fun h' => ?_, fun h' a' mm hh => ?_, by show m3.st.user.fault = false; rw [q1.fault]; exact hm.fault⟩
      · show m3.st.full h' = true ↔ upd m3.st.user.mach h none h' ≠ none
        rw [q1.full, q1.mach]
        show upd m.st.full h false h' = true ↔ upd m.st.user.mach h none h' ≠ none
        by_cases hx : h' = h
        · subst hx; rw [upd_same, upd_same]; simp
        · rw [upd_ne _ _ hx, upd_ne _ _ hx]; exact hm.full h'
      · replace hh : upd m3.st.user.mach h none h' = some (a', mm) := hh
        rw [q1.mach] at hh
        by_cases hx : h' = h
        · subst hx; rw [upd_same] at hh; cases hh
        · rw [upd_ne _ _ hx] at hh; exact hm.reach h' a' mm hh
  · have hf : m.st.full h ≠ true := by rw [hp.2.2.2.1]; decide
    have hn : m.st.user.mach h = none := by
      cases hmm : m.st.user.mach h with
      | none => rfl
      | some x => exact absurd ((hm.full h).2 (by rw [hmm]; simp)) hf
    rw [show (Hub.of m).mach h = none by unfold Hub.of; simp [hn]]
    refine .ok (m := m) ?_ rfl hm
    rw [body, exec, if_pos hp.2.1, exec]

theorem deliver_hub {lp : Nat → Wk Op (Ct (Yard V)) → Out Op (Ct (Yard V)) Nat} {h : Nat} (o : HOp) {m : Wk Op (Ct (Yard V))} (hm : MInv A m.st)
    {f : Bool} (hp : HInv m h (.at 1 true f) ∨ HInv m h (.at 0 false false)) :
    Agrees A (exec lp (body A.beh (.deliver o (some h))) m) (Hub.deliver A o h (.of m)) := by
  unfold Hub.deliver
  cases hmm : m.st.user.mach h with
  | none =>
    have hf : m.st.full h ≠ true := fun hc => (hm.full h).1 hc hmm
    rw [show (Hub.of m).mach h = none by unfold Hub.of; simp [hmm]]
    rcases hp with hp | hp
    · refine .ok (m := { m with st := { m.st with fault := true, nulls := m.st.nulls ++ [(h, m.st.log)] } }) ?_ rfl (hm.congr rfl rfl rfl)
      rw [body, exec, if_neg (by rw [hp.2.1]; simp), if_neg hf, exec, exec]
    · refine .ok (m := m) ?_ rfl hm
      rw [body, exec, if_pos hp.2.1, exec]
  | some x =>
    obtain ⟨a, mm⟩ := x
    have hf : m.st.full h = true := (hm.full h).2 (by rw [hmm]; simp)
    have hr : m.st.refs h = 1 ∧ h < m.st.next := by
      rcases hp with hp | hp
      · exact ⟨hp.2.1, hp.1⟩
      · have := hp.2.2.2.1; rw [hf] at this; cases this
    let m1 : Wk Op (Ct (Yard V)) := { m with st := { m.st with
      refs := upd m.st.refs h (m.st.refs h + 1)
      log := m.st.log ++ [.called o h]
      busy := upd m.st.busy h (m.st.busy h + 1) } }
    let kr : Prog Op (Ct (Yard V)) := leave h (release A.beh h .ret)
    let kt : Nat → Prog Op (Ct (Yard V)) := fun x => leave h (release A.beh h (.throw x))
    have he : exec lp (body A.beh (.deliver o (some h))) m = exec lp ((match m.st.user.mach h with
        | none => .put { m.st.user with fault := true } .ret
        | some (a, mm) =>
          if Fleet.legal (A.prog a) { mm with world := m.st.user.env } (A.call o) then
            match (A.call o).run (A.prog a) { mm with world := m.st.user.env } with
            | .ok true m' => .put { m.st.user with env := m'.world, mach := upd m.st.user.mach h (some (a, m')) } (A.calls h m'.world).lift
            | .ok false _ => .put { m.st.user with bad := true } .ret
            | .thrown x m' => .put { m.st.user with env := m'.world, mach := upd m.st.user.mach h (some (a, m')) }
                ((A.calls h m'.world).lift.andThen (.throw x) (fun _ => .throw x))
            | .fault _ => .put { m.st.user with fault := true } .ret
          else .put { m.st.user with bad := true } .ret : Code (Yard V)).run kr kt) m1 := by
      rw [body, exec, if_neg (by rw [hr.1]; simp), if_pos hf, exec]
      rfl
    -- the call has ended
    have fin : ∀ (k : Prog Op (Ct (Yard V))) (m2 : Wk Op (Ct (Yard V))), m2.st.refs h = 2 → MInv A m2.st →
        ∃ m3, exec lp (leave h (release A.beh h k)) m2 = exec lp k m3 ∧ Hub.of m3 = Hub.of m2 ∧ MInv A m3.st := by
      intro k m2 h2 hm2
      obtain ⟨m3, r1, r2, r3⟩ := release_hub (A := A) (lp := lp) (h := h)
        (m := { m2 with st := { m2.st with busy := upd m2.st.busy h (m2.st.busy h - 1) } }) h2 k
      exact ⟨m3, r1, r2, (hm2.congr (c' := { m2.st with busy := upd m2.st.busy h (m2.st.busy h - 1) }) rfl rfl rfl).quiet r3⟩
    have hr1 : m1.st.refs h = 2 := by
      show upd m.st.refs h (m.st.refs h + 1) h = 2
      rw [upd_same, hr.1]
    -- the machine did not do anything
    have bad : Agrees A (exec lp ((Code.put { m.st.user with bad := true } .ret).run kr kt) m1) (.ok () { Hub.of m1 with bad := true }) := by
      obtain ⟨m3, r1, r2, r3⟩ := fin .ret { m1 with st := { m1.st with user := { m.st.user with bad := true } } } hr1 (hm.congr rfl rfl rfl)
      exact .ok (m := m3) r1 r2.symm r3
    -- the machine is another one
    have step : ∀ mm' : Mach V, SC.Reach (A.prog a) mm' → MInv A { m1.st with user := { m.st.user with env := mm'.world, mach := upd m.st.user.mach h (some (a, mm')) } } := by
      intro mm' hre
      refine ⟨fun h' => ?_, fun h' a' mm hh => ?_, hm.fault⟩
      · show m.st.full h' = true ↔ upd m.st.user.mach h (some (a, mm')) h' ≠ none
        by_cases hx : h' = h
        · subst hx; rw [upd_same, hf]; simp
        · rw [upd_ne _ _ hx]; exact hm.full h'
      · replace hh : upd m.st.user.mach h (some (a, mm')) h' = some (a', mm) := hh
        by_cases hx : h' = h
        · subst hx; rw [upd_same] at hh; cases hh; exact hre
        · rw [upd_ne _ _ hx] at hh; exact hm.reach h' a' mm hh
    have eqn : ∀ mm' : Mach V, ({ Hub.of m1 with env := (abs mm').world, mach := upd (Hub.of m1).mach h (some (a, abs mm')) } : Hub V) =
        Hub.of { m1 with st := { m1.st with user := { m.st.user with env := mm'.world, mach := upd m.st.user.mach h (some (a, mm')) } } } := by
      intro mm'
      have := Hub.of_upd (m := m) (h := h) (some (a, mm'))
      unfold Hub.of
      simp only [m1]
      rw [this]
      rfl
    rw [he, hmm, Hub.of_mach hmm]
    simp only
    show Agrees A _ (if Hub.legal (A.prog a) (abs { mm with world := m.st.user.env }) o then
        match Ref.run (A.prog a) (Hub.op A o) (abs { mm with world := m.st.user.env }) with
        | .ok true st => Hub.code (A.calls h st.world) { Hub.of m1 with
            env := st.world
            mach := upd (Hub.of m1).mach h (some (a, st)) }
        | .ok false _ => .ok () { Hub.of m1 with bad := true }
        | .thrown x st => .thrown x (Hub.code (A.calls h st.world) { Hub.of m1 with
            env := st.world
            mach := upd (Hub.of m1).mach h (some (a, st)) }).hub
      else .ok () { Hub.of m1 with bad := true })
    have hre := (hm.reach h a mm hmm).world m.st.user.env
    obtain ⟨l1, l2⟩ := call_hub hwf hok hpl hre o
    rw [← l1]
    by_cases hl : Fleet.legal (A.prog a) { mm with world := m.st.user.env } (A.call o) = true
    · rw [if_pos hl, if_pos hl]
      rcases l2 hl with ⟨b, mm', r1, r2, r3⟩ | ⟨x, mm', r1, r2, r3⟩
      · rw [r1, r2]
        cases b with
        | false => exact bad
        | true =>
          simp only
          rw [eqn mm']
          obtain ⟨m2, q1, q2, q3⟩ := lift_hub (lp := lp) (hA.calls h mm'.world) kr kt
            { m1 with st := { m1.st with user := { m.st.user with env := mm'.world, mach := upd m.st.user.mach h (some (a, mm')) } } }
          have hm2 : MInv A m2.st := MInv.quiet (step mm' (r3 rfl)) q1
          have hr2 : m2.st.refs h = 2 := by rw [q2.refs h hr.2]; exact hr1
          rcases q3 with ⟨c1, c2⟩ | ⟨x, c1, c2⟩
          · obtain ⟨m3, s1, s2, s3⟩ := fin .ret m2 hr2 hm2
            rw [show (abs mm').world = mm'.world from rfl, c1]
            exact .ok (m := m3) (c2.trans s1) s2.symm s3
          · obtain ⟨m3, s1, s2, s3⟩ := fin (.throw x) m2 hr2 hm2
            rw [show (abs mm').world = mm'.world from rfl, c1]
            exact .thrown (m := m3) (c2.trans s1) s2.symm s3
      · rw [r1, r2]
        simp only
        rw [eqn mm']
        let m0 : Wk Op (Ct (Yard V)) := { m1 with st := { m1.st with user := { m.st.user with env := mm'.world, mach := upd m.st.user.mach h (some (a, mm')) } } }
        obtain ⟨m2, q1, q2, q3⟩ := lift_hub (lp := lp) (hA.calls h mm'.world) (kt x) (fun _ => kt x) m0
        have hm2 : MInv A m2.st := MInv.quiet (step mm' r3) q1
        have hr2 : m2.st.refs h = 2 := by rw [q2.refs h hr.2]; exact hr1
        have e2 : (Hub.code (A.calls h mm'.world) (.of m0)).hub = .of m2 ∧
            exec lp ((A.calls h mm'.world).lift.run (kt x) (fun _ => kt x)) m0 = exec lp (kt x) m2 := by
          rcases q3 with ⟨c1, c2⟩ | ⟨x, c1, c2⟩
          · rw [c1]; exact ⟨rfl, c2⟩
          · rw [c1]; exact ⟨rfl, c2⟩
        obtain ⟨m3, s1, s2, s3⟩ := fin (.throw x) m2 hr2 hm2
        have e3 : exec lp ((Code.put { m.st.user with env := mm'.world, mach := upd m.st.user.mach h (some (a, mm')) }
            ((A.calls h mm'.world).lift.andThen (.throw x) (fun _ => .throw x))).run kr kt) m1 = exec lp (.throw x) m3 := by
          show exec lp (((A.calls h mm'.world).lift.andThen (.throw x) (fun _ => .throw x)).run kr kt) m0 = _
          rw [Code.andThen_run]
          exact e2.2.trans s1
        exact .thrown (m := m3) e3 (by rw [s2, ← e2.1]; rfl) s3
    · rw [if_neg hl, if_neg hl]
      exact bad

/-- One work item. -/
theorem work_hub {lp : Nat → Wk Op (Ct (Yard V)) → Out Op (Ct (Yard V)) Nat} {m : Wk Op (Ct (Yard V))} (hS : SInv m) (hm : MInv A m.st) {w : Work Op}
    {q : List (Option (Work Op))} (hq : m.queue = some w :: q) :
    Agrees A (callItem (body A.beh) lp w { m with queue := q }) (Hub.work A w (.of { m with queue := q })) := by
  let m1 : Wk Op (Ct (Yard V)) := { m with queue := q, log := m.log ++ [.start w] }
  have hw : m.work = w :: m1.work := by unfold Wk.work; rw [hq]; rfl
  have key : ∀ op, w = .user op → Agrees A (exec lp (body A.beh op) m1) (Hub.work A w (.of m1)) →
      Agrees A (callItem (body A.beh) lp w { m with queue := q }) (Hub.work A w (.of { m with queue := q })) := by
    intro op ho ha
    subst ho
    unfold callItem
    simp only
    obtain ⟨a1, a2⟩ := ha
    rw [show Hub.of { m with queue := q } = Hub.of m1 from rfl, a1]
    cases hr : exec lp (body A.beh op) m1 with
    | ok u m' => rw [hr] at a2; exact ⟨rfl, a2⟩
    | thrown x m' => rw [hr] at a2; exact ⟨rfl, a2⟩
    | more m' => rw [hr] at a2; exact ⟨rfl, a2⟩
  -- the holder of a handle that is in the queue
  have held : ∀ op h, w = .user op → Spec.opHandle op = some h → (∀ a, op ≠ .create h a) →
      ∃ f, HInv m1 h (.at 1 true f) ∨ HInv m1 h (.at 0 false false) := by
    intro op h ho hh hc
    obtain ⟨st, -, h2⟩ := hS.serve h
    have h2' : HInv m1 h st.phase := h2.pop hw rfl (by rw [ho]; intro a he; exact hc a (Work.user.inj he))
    cases st with
    | unborn => exact absurd h2 (fun hp => hp.born (by rw [hw, ho]) hh hc)
    | alive => exact ⟨true, .inl h2'⟩
    | failed => exact ⟨false, .inl h2'⟩
    | gone => exact ⟨true, .inr h2'⟩
  cases w with
  | stop => exact ⟨rfl, hm⟩
  | user op =>
    refine key op rfl ?_
    cases op with
    | item i =>
      obtain ⟨m', q1, -, q3⟩ := lift_hub (lp := lp) (hA.item i) .ret .throw m1
      rcases q3 with ⟨c1, c2⟩ | ⟨x, c1, c2⟩
      · show Agrees A _ (Hub.code (A.item i) (.of m1))
        rw [c1]; exact .ok (m := m') c2 rfl (MInv.quiet (m := m1) hm q1)
      · show Agrees A _ (Hub.code (A.item i) (.of m1))
        rw [c1]; exact .thrown (m := m') c2 rfl (MInv.quiet (m := m1) hm q1)
    | create h a =>
      obtain ⟨st, -, h2⟩ := hS.serve h
      have hst' : st = .unborn := by
        have hbad : ∀ r b f, ¬ HInv m h (.at r b f) := by
          intro r b f hp
          exact hp.2.2.2.2 a (by rw [hw]; exact List.mem_cons_self)
        cases st with
        | unborn => rfl
        | alive => exact absurd h2 (hbad _ _ _)
        | failed => exact absurd h2 (hbad _ _ _)
        | gone => exact absurd h2 (hbad _ _ _)
      subst hst'
      exact create_hub hA hm (h2.popCreate hw rfl)
    | destroy oh =>
      cases oh with
      | none => exact ⟨rfl, hm⟩
      | some h =>
        obtain ⟨f, hp⟩ := held _ h rfl rfl (by simp)
        exact destroy_hub hwf hok hpl hA hm hp
    | deliver o oh =>
      cases oh with
      | none => exact ⟨rfl, hm⟩
      | some h =>
        obtain ⟨f, hp⟩ := held _ h rfl rfl (by simp)
        exact deliver_hub hwf hok hpl hA o hm hp

/-- What holds of a scheduler between work items. -/
structure HubInv (A : Fleet V) (m : Wk Op (Ct (Yard V))) : Prop where
  queue : Inv m
  holders : SInv m
  machines : MInv A m.st

theorem loop_hub : ∀ (k max c : Nat) (m : Wk Op (Ct (Yard V))), HubInv A m →
    Hub.loop A k max c (.of m) = (loop (body A.beh) k max c m).hub ∧ HubInv A (loop (body A.beh) k max c m).wk
  | 0, _, _, m, h => ⟨rfl, h⟩
  | k + 1, max, c, m, h => by
    have hcond : (!m.terminated && (max == 0 || decide (c < max))) = true ↔ ¬ ((Hub.of m).terminated = true ∨ (max ≠ 0 ∧ max ≤ c)) := by
      show _ ↔ ¬ (m.terminated = true ∨ _)
      cases m.terminated
      · by_cases hx : max = 0
        · simp [hx]
        · simp [hx]
      · simp
    rw [loop, Hub.loop]
    by_cases hc : (!m.terminated && (max == 0 || decide (c < max))) = true
    · rw [if_pos hc, if_neg (hcond.1 hc)]
      have ht : m.terminated = false := by
        cases hm : m.terminated with
        | false => rfl
        | true => rw [hm] at hc; simp at hc
      unfold dequeueItem
      cases hq : m.queue with
      | nil =>
        rw [show (Hub.of m).queue = [] by unfold Hub.of; simp [hq]]
        exact ⟨rfl, h⟩
      | cons w q =>
        cases w with
        | none => exact absurd rfl (h.queue.full none (by rw [hq]; exact List.mem_cons_self))
        | some w =>
          rw [show (Hub.of m).queue = w :: q.filterMap id by unfold Hub.of; simp [hq]]
          have i1 := callItem_inv (body := body A.beh) (lp := fun n m => loop (body A.beh) k n 0 m)
            (fun n m h => loop_inv (body A.beh) k n 0 m h) h.queue hq ht
          have i2 := h.holders.callItem (lp := fun n m => loop (body A.beh) k n 0 m) hA.beh hq
          obtain ⟨a1, a2⟩ := work_hub hwf hok hpl hA (lp := fun n m => loop (body A.beh) k n 0 m) h.holders h.machines hq
          simp only
          rw [show ({ Hub.of m with queue := q.filterMap id } : Hub V) = Hub.of { m with queue := q } from rfl, a1]
          cases hr : callItem (body A.beh) (fun n m => loop (body A.beh) k n 0 m) w { m with queue := q } with
          | ok u m' =>
            rw [hr] at i1 i2 a2
            exact loop_hub k max (c + 1) m' ⟨i1, i2, a2⟩
          | thrown x m' =>
            rw [hr] at i1 i2 a2
            exact ⟨rfl, i1, i2, a2⟩
          | more m' =>
            rw [hr] at i1 i2 a2
            exact ⟨rfl, i1, i2, a2⟩
    · rw [if_neg hc, if_pos (Classical.byContradiction fun hn => hc (hcond.2 hn))]
      exact ⟨rfl, h⟩

omit hwf hok hpl hA in
theorem Same.handled {w : Option Nat → Op} {m : Wk Op (Ct (Yard V))} {d : Nat} (h1 : ∀ h a, w (handle m.st d) ≠ .create h a)
    (h2 : Spec.opHandle (w (handle m.st d)) = handle m.st d) : Same m (queueWorkItem (some (.user (w (handle m.st d)))) m) := by
  refine .queue _ m (fun h a he => h1 h a (Work.user.inj he)) ?_
  intro h' o ho hh
  cases ho
  rw [h2] at hh
  simp only [handle] at hh
  split at hh
  · cases hh; assumption
  · cases hh

theorem run_hub (k n : Nat) {m : Wk Op (Ct (Yard V))} (h : HubInv A m) :
    Hub.run A k n (.of m) = (run (body A.beh) k n m).hub ∧ HubInv A (run (body A.beh) k n m).wk := loop_hub hwf hok hpl hA k n 0 m h

theorem client_hub (k : Nat) : ∀ (c : Code V) (m : Wk Op (Ct (Yard V))), HubInv A m →
    Hub.client A k c (.of m) = (exec (fun n m => run (body A.beh) k n m) (c.lift.run .ret .throw) m).hub ∧
      HubInv A (exec (fun n m => run (body A.beh) k n m) (c.lift.run .ret .throw) m).wk
  | .ret, m, h => ⟨rfl, h⟩
  | .throw x, m, h => ⟨rfl, h⟩
  | .create a c, m, h => by
    have := client_hub k (c m.st.next) (queueWorkItem (some (.user (.create m.st.next a)))
      { m with st := { m.st with
          next := m.st.next + 1
          refs := upd m.st.refs m.st.next 1 } })
      ⟨by refine Inv.queueWorkItem ?_ _; exact h.queue.congr rfl rfl rfl rfl, h.holders.same (.create a m), h.machines.congr rfl rfl rfl⟩
    rw [Hub.of_queue] at this
    exact this
  | .destroy d c, m, h => by
    have := client_hub k c (queueWorkItem (some (.user (.destroy (handle m.st d)))) m)
      ⟨h.queue.queueWorkItem _, h.holders.same (.handled (w := .destroy) (by simp) rfl), h.machines.congr rfl rfl rfl⟩
    rw [Hub.of_queue] at this
    exact this
  | .deliver o d c, m, h => by
    have := client_hub k c (queueWorkItem (some (.user (.deliver o (handle m.st d)))) m)
      ⟨h.queue.queueWorkItem _, h.holders.same (.handled (w := .deliver o) (by simp) rfl), h.machines.congr rfl rfl rfl⟩
    rw [Hub.of_queue] at this
    exact this
  | .item none c, m, h => client_hub k c m h
  | .item (some i) c, m, h => by
    have := client_hub k c (queueWorkItem (some (.user (.item i))) m)
      ⟨h.queue.queueWorkItem _, h.holders.same (.queue _ m (by simp) (by rintro _ _ ⟨⟩ ⟨⟩)), h.machines.congr rfl rfl rfl⟩
    rw [Hub.of_queue] at this
    exact this
  | .terminate c, m, h => by
    have := client_hub k c (queueWorkItem (some .stop) m)
      ⟨h.queue.queueWorkItem _, h.holders.same (.queue _ m (by simp) (by simp)), h.machines.congr rfl rfl rfl⟩
    rw [Hub.of_queue] at this
    exact this
  | .terminated c, m, h => client_hub k (c m.terminated) m h
  | .get c, m, h => client_hub k (c m.st.user.env) m h
  | .put v c, m, h => client_hub k c { m with st := { m.st with user := { m.st.user with env := v } } }
      ⟨h.queue.congr rfl rfl rfl rfl, h.holders.same (.user m _), h.machines.congr rfl rfl rfl⟩
  | .call n c x, m, h => by
    obtain ⟨h1, h2⟩ := run_hub hwf hok hpl hA k n h
    unfold Hub.client
    rw [Code.lift, Code.run, exec, Hub.exec, h1]
    cases hr : run (body A.beh) k n m with
    | ok i m' => rw [hr] at h2; exact client_hub k (c i) m' h2
    | thrown y m' => rw [hr] at h2; exact client_hub k (x y) m' h2
    | more m' => rw [hr] at h2; exact ⟨rfl, h2⟩

end

namespace Spec

/-- What a client does: it runs code of its own, or calls `operator()( n )`; `k` bounds the steps of each call of `operator()`. -/
inductive Turn (V : Type) where
  | client (k : Nat) (c : Code V)
  | run (k n : Nat)

/-- How it ends. -/
inductive TurnEnd where
  | returned (n : Nat)
  | threw (x : Nat)
  /-- The steps did not suffice. -/
  | unfinished
deriving DecidableEq

/-- What the client does with the scheduler. -/
def Turn.lib (A : Fleet V) (m : Wk Op (Ct (Yard V))) : Turn V → TurnEnd × Wk Op (Ct (Yard V))
  | .client k c => match exec (fun n m => Fifo.run (body A.beh) k n m) (c.lift.run .ret .throw) m with
    | .ok _ m => (.returned 0, m)
    | .thrown x m => (.threw x, m)
    | .more m => (.unfinished, m)
  | .run k n => match Fifo.run (body A.beh) k n m with
    | .ok i m => (.returned i, m)
    | .thrown x m => (.threw x, m)
    | .more m => (.unfinished, m)

/-- What it does with the scheduler of reference machines. -/
def Turn.hub (A : Fleet V) (u : Hub V) : Turn V → TurnEnd × Hub V
  | .client k c => match Hub.client A k c u with
    | .ok _ u => (.returned 0, u)
    | .thrown x u => (.threw x, u)
    | .more u => (.unfinished, u)
  | .run k n => match Hub.run A k n u with
    | .ok i u => (.returned i, u)
    | .thrown x u => (.threw x, u)
    | .more u => (.unfinished, u)

/-- The turns of a client one after the other, and how they end. -/
def turns {S : Type} (f : S → Turn V → TurnEnd × S) : S → List (Turn V) → List TurnEnd × S
  | s, [] => ([], s)
  | s, t :: ts => ((f s t).1 :: (turns f (f s t).2 ts).1, (turns f (f s t).2 ts).2)

/-- The two schedulers cannot be told apart. -/
structure Fits (m : Wk Op (Ct (Yard V))) (u : Hub V) : Prop where
  queue : m.queue = u.queue.map some
  terminated : m.terminated = u.terminated
  handles : m.st.next = u.next
  env : m.st.user.env = u.env
  log : m.st.log = u.log
  bad : m.st.user.bad = u.bad
  /-- The same machines exist, of the same class, in the same state. -/
  machines : ∀ h, (m.st.user.mach h = none ∧ u.mach h = none) ∨
    ∃ a mm st, m.st.user.mach h = some (a, mm) ∧ u.mach h = some (a, st) ∧ Matches mm st

end Spec

open Spec

theorem Hub.of_fits {m : Wk Op (Ct (Yard V))} (hwf : ∀ a, (A.prog a).toChart.WF) (hok : ∀ a, Contract (A.prog a)) (h : HubInv A m) : Fits m (.of m) := by
  refine ⟨?_, rfl, rfl, rfl, rfl, rfl, fun i => ?_⟩
  · show m.queue = (m.queue.filterMap id).map some
    have : ∀ l : List (Option (Work Op)), (∀ w ∈ l, w ≠ none) → l = (l.filterMap id).map some := by
      intro l
      induction l with
      | nil => intro _; rfl
      | cons w l ih =>
        intro hl
        cases w with
        | none => exact absurd rfl (hl none List.mem_cons_self)
        | some w =>
          show some w :: l = some w :: (l.filterMap id).map some
          rw [← ih fun w hw => hl w (List.mem_cons_of_mem _ hw)]
    exact this m.queue h.queue.full
  · cases hm : m.st.user.mach i with
    | none => exact .inl ⟨rfl, by unfold Hub.of; simp [hm]⟩
    | some x =>
      obtain ⟨a, mm⟩ := x
      exact .inr ⟨a, mm, abs mm, rfl, Hub.of_mach hm, matches_abs (((h.machines.reach i a mm hm).stable (hwf a) (hok a)).1.inv.filled)⟩

theorem HubInv.fresh (v : V) : HubInv A { st := { user := { env := v } } } :=
  ⟨.fresh _, .fresh _, ⟨fun h => ⟨fun hf => (by cases hf), fun hf => absurd rfl hf⟩, fun h a mm hm => (by cases hm), rfl⟩⟩

section
variable (hwf : ∀ a, (A.prog a).toChart.WF) (hok : ∀ a, Contract (A.prog a)) (hpl : ∀ a, Plain (A.prog a)) (hA : A.Flat)
include hwf hok hpl hA

theorem Turn.lib_hub {m : Wk Op (Ct (Yard V))} (h : HubInv A m) (t : Turn V) :
    Turn.hub A (.of m) t = ((Turn.lib A m t).1, .of (Turn.lib A m t).2) ∧ HubInv A (Turn.lib A m t).2 := by
  cases t with
  | client k c =>
    obtain ⟨h1, h2⟩ := client_hub hwf hok hpl hA k c m h
    unfold Turn.hub Turn.lib
    simp only
    rw [h1]
    cases hr : exec (fun n m => Fifo.run (body A.beh) k n m) (c.lift.run .ret .throw) m <;> rw [hr] at h2 <;> exact ⟨rfl, h2⟩
  | run k n =>
    obtain ⟨h1, h2⟩ := run_hub hwf hok hpl hA k n h
    unfold Turn.hub Turn.lib
    simp only
    rw [h1]
    cases hr : Fifo.run (body A.beh) k n m <;> rw [hr] at h2 <;> exact ⟨rfl, h2⟩

theorem turns_hub (ts : List (Turn V)) : ∀ {m : Wk Op (Ct (Yard V))}, HubInv A m →
    turns (Turn.hub A) (.of m) ts = ((turns (Turn.lib A) m ts).1, .of (turns (Turn.lib A) m ts).2) ∧ HubInv A (turns (Turn.lib A) m ts).2 := by
  induction ts with
  | nil => intro m h; exact ⟨rfl, h⟩
  | cons t ts ih =>
    intro m h
    obtain ⟨h1, h2⟩ := Turn.lib_hub hwf hok hpl hA h t
    obtain ⟨h3, h4⟩ := ih h2
    refine ⟨?_, h4⟩
    rw [turns, turns, h1, h3]

/-- **C58 (a scheduler of asynchronous machines is one of reference machines).** Whatever a client does with a `fifo_scheduler` of asynchronous machines,
everything ends in the same way, and leaves the same behind, as with a queue of operations on reference machines. No machine faults; the container does so
only after the constructor of a processor has thrown. -/
theorem C58_equivalent (v : V) (ts : List (Turn V)) :
    (turns (Turn.lib A) { st := { user := { env := v } } } ts).1 = (turns (Turn.hub A) { env := v } ts).1 ∧
    Fits (turns (Turn.lib A) { st := { user := { env := v } } } ts).2 (turns (Turn.hub A) { env := v } ts).2 ∧
    (turns (Turn.lib A) { st := { user := { env := v } } } ts).2.st.user.fault = false ∧
    ((turns (Turn.lib A) { st := { user := { env := v } } } ts).2.st.fault = true → ∃ h, PEv.failed h ∈ (turns (Turn.hub A) { env := v } ts).2.log) := by
  obtain ⟨h1, h2⟩ := turns_hub hwf hok hpl hA ts (HubInv.fresh v)
  rw [show ({ env := v } : Hub V) = .of { st := { user := { env := v } } } from rfl, h1]
  exact ⟨rfl, Hub.of_fits hwf hok h2, h2.machines.fault, h2.holders.bad⟩

end

/-- The turns of clients lead to all the schedulers of C41. -/
theorem C58_reach {m : Wk Op (Ct (Yard V))} : AReach A m ↔ ∃ v ts, (turns (Turn.lib A) { st := { user := { env := v } } } ts).2 = m := by
  have snoc : ∀ (ts : List (Turn V)) (t : Turn V) (m : Wk Op (Ct (Yard V))),
      (turns (Turn.lib A) m (ts ++ [t])).2 = (Turn.lib A (turns (Turn.lib A) m ts).2 t).2 := by
    intro ts t
    induction ts with
    | nil => intro m; rfl
    | cons t' ts ih => intro m; exact ih _
  have client : ∀ (m : Wk Op (Ct (Yard V))) (k : Nat) (c : Code V),
      (Turn.lib A m (.client k c)).2 = (exec (fun n m => Fifo.run (body A.beh) k n m) (c.lift.run .ret .throw) m).wk := by
    intro m k c
    unfold Turn.lib
    cases hr : exec (fun n m => Fifo.run (body A.beh) k n m) (c.lift.run .ret .throw) m <;> simp only [hr] <;> rfl
  have run : ∀ (m : Wk Op (Ct (Yard V))) (k n : Nat), (Turn.lib A m (.run k n)).2 = (Fifo.run (body A.beh) k n m).wk := by
    intro m k n
    unfold Turn.lib
    cases hr : Fifo.run (body A.beh) k n m <;> simp only [hr] <;> rfl
  constructor
  · intro h
    induction h with
    | fresh v => exact ⟨v, [], rfl⟩
    | client k c _ ih =>
      obtain ⟨v, ts, rfl⟩ := ih
      exact ⟨v, ts ++ [.client k c], by rw [snoc, client]⟩
    | run k n _ ih =>
      obtain ⟨v, ts, rfl⟩ := ih
      exact ⟨v, ts ++ [.run k n], by rw [snoc, run]⟩
  · rintro ⟨v, ts, rfl⟩
    have : ∀ (ts : List (Turn V)) (m : Wk Op (Ct (Yard V))), AReach A m → AReach A (turns (Turn.lib A) m ts).2 := by
      intro ts
      induction ts with
      | nil => exact fun _ h => h
      | cons t ts ih =>
        intro m h
        refine ih _ ?_
        cases t with
        | client k c => rw [client]; exact .client k c h
        | run k n => rw [run]; exact .run k n h
    exact this ts _ (.fresh v)

/-! ### The destructor of the scheduler -/

/-- Code of the user, followed by other code. -/
theorem finish_lift (c : Code V) (r : Code (Yard V)) : ∀ ct : Ct (Yard V), match Hub.alone c ct.user.env with
    | some v => (c.lift.andThen r (fun _ => r)).finish ct = r.finish { ct with user := { ct.user with env := v } }
    | none => ((c.lift.andThen r (fun _ => r)).finish ct).fault = true := by
  induction c with
  | ret => intro ct; rfl
  | throw x => intro ct; rfl
  | get k ih => intro ct; exact ih ct.user.env ct
  | put v k ih => intro ct; exact ih { ct with user := { ct.user with env := v } }
  | _ => intro ct; rfl

theorem finish_lift_ret (c : Code V) : ∀ ct : Ct (Yard V), match Hub.alone c ct.user.env with
    | some v => c.lift.finish ct = { ct with user := { ct.user with env := v } }
    | none => (c.lift.finish ct).fault = true := by
  induction c with
  | ret => intro ct; rfl
  | throw x => intro ct; rfl
  | get k ih => intro ct; exact ih ct.user.env ct
  | put v k ih => intro ct; exact ih { ct with user := { ct.user with env := v } }
  | _ => intro ct; rfl

theorem finish_fault {W : Type} (c : Code W) : ∀ ct : Ct W, ct.fault = true → (c.finish ct).fault = true := by
  induction c with
  | ret => intro ct h; exact h
  | throw x => intro ct h; exact h
  | get k ih => intro ct h; exact ih ct.user ct h
  | put v k ih => intro ct h; exact ih { ct with user := v } h
  | _ => intro ct _; rfl

theorem drop_faulty {W : Type} {beh : Fun → Code W} {h : Nat} {c : Ct W} (hf : c.fault = true) : (drop beh h c).fault = true := by
  unfold drop
  split
  · split
    · exact finish_fault _ _ hf
    · exact hf
  · simp [hf]

theorem drops_fault {W : Type} {beh : Fun → Code W} : ∀ (l : List Nat) {c : Ct W}, c.fault = true → (l.foldl (fun c h => drop beh h c) c).fault = true
  | [], _, h => h
  | _ :: l, _, h => drops_fault l (drop_faulty h)

/-- The queue owns holders that are empty. -/
theorem dropItems_hub {W : Type} (beh : Fun → Code W) : ∀ (q : List (Option (Work Op))) (c : Ct W),
    (∀ h, creates h (q.filterMap id) ≤ c.refs h ∧ (0 < creates h (q.filterMap id) → c.full h = false)) →
    ∃ r, q.foldl (dropItem beh) c = { c with refs := r } ∧ ∀ h, r h = c.refs h - creates h (q.filterMap id)
  | [], c, _ => ⟨c.refs, rfl, fun _ => rfl⟩
  | w :: q, c, hc => by
    rw [List.foldl_cons]
    by_cases hw : ∃ h a, w = some (.user (.create h a))
    · obtain ⟨h, a, rfl⟩ := hw
      have hcr : ∀ i, creates i ((some (.user (.create h a)) :: q).filterMap id) = creates i (q.filterMap id) + if h = i then 1 else 0 := by
        intro i
        by_cases hi : h = i <;> simp [creates, isCreate, hi]
      obtain ⟨h1, h2⟩ := hc h
      rw [hcr, if_pos rfl] at h1 h2
      have hf := h2 (by omega)
      have hu : dropItem beh c (some (.user (.create h a))) = { c with refs := upd c.refs h (c.refs h - 1) } := by
        show drop beh h c = _
        unfold drop
        split
        · rename_i h3
          rw [if_neg (by rw [hf]; simp), h3]
        · have : (c.refs h == 0) = false := by simp; omega
          rw [this, Bool.or_false]
      rw [hu]
      obtain ⟨r, h3, h4⟩ := dropItems_hub beh q { c with refs := upd c.refs h (c.refs h - 1) } (by
        intro i
        obtain ⟨g1, g2⟩ := hc i
        rw [hcr] at g1 g2
        refine ⟨?_, fun hi => g2 (by omega)⟩
        show _ ≤ upd c.refs h (c.refs h - 1) i
        by_cases hi : i = h
        · subst hi; rw [upd_same]; omega
        · rw [upd_ne _ _ hi]; omega)
      refine ⟨r, h3, fun i => ?_⟩
      rw [h4 i, hcr]
      show upd c.refs h (c.refs h - 1) i - _ = _
      by_cases hi : i = h
      · subst hi; rw [upd_same, if_pos rfl]; omega
      · rw [upd_ne _ _ hi, if_neg (Ne.symm hi)]; rfl
    · have h1 : dropItem beh c w = c := by
        unfold dropItem
        split
        · rename_i h a; exact absurd ⟨h, a, rfl⟩ hw
        · rfl
      have h2 : ∀ i, creates i ((w :: q).filterMap id) = creates i (q.filterMap id) := by
        intro i
        cases w with
        | none => rfl
        | some w =>
          have : isCreate i w = false := by
            unfold isCreate
            split
            · rename_i g a; exact absurd ⟨g, a, rfl⟩ hw
            · rfl
          simp [creates, this]
      rw [h1]
      obtain ⟨r, h3, h4⟩ := dropItems_hub beh q c fun i => by rw [← h2]; exact hc i
      exact ⟨r, h3, fun i => by rw [h4, h2]⟩

theorem creates_none {h : Nat} {l : List (Work Op)} (hl : NoCreate h l) : creates h l = 0 := by
  refine List.countP_eq_zero.2 fun w hw => ?_
  unfold isCreate
  split
  · rename_i g a
    simp only [beq_iff_eq]
    rintro rfl
    exact hl a hw
  · simp

section
variable (hwf : ∀ a, (A.prog a).toChart.WF) (hok : ∀ a, Contract (A.prog a)) (hpl : ∀ a, Plain (A.prog a))
include hwf hok hpl

theorem drops_hub : ∀ (l : List Nat) (c : Ct (Yard V)) (u : Hub V), l.Nodup → (∀ i ∈ l, c.refs i = 1) → MInv A c →
    c.user.env = u.env → c.log = u.log → (∀ h, u.mach h = (c.user.mach h).map fun x => (x.1, abs x.2)) →
    match Hub.dispose A l u with
    | some u' =>
      let c' := l.foldl (fun c h => drop A.beh h c) c
      c'.fault = c.fault ∧ c'.user.fault = false ∧ c'.user.env = u'.env ∧ c'.log = u'.log ∧
      ∀ h, (h ∈ l → c'.user.mach h = none ∧ u'.mach h = none) ∧ (h ∉ l → c'.user.mach h = c.user.mach h ∧ u'.mach h = u.mach h)
    | none => (l.foldl (fun c h => drop A.beh h c) c).fault = true
  | [], c, u, _, _, hm, he, hl, _ => ⟨rfl, hm.fault, he, hl, fun h => ⟨fun hh => (by cases hh), fun _ => ⟨rfl, rfl⟩⟩⟩
  | h :: l, c, u, hn, hr, hm, he, hl, hmach => by
    obtain ⟨hn1, hn2⟩ := List.nodup_cons.1 hn
    have hrefs : ∀ i ∈ l, upd c.refs h 0 i = 1 := by
      intro i hi
      rw [upd_ne _ _ (by rintro rfl; exact hn1 hi)]
      exact hr i (List.mem_cons_of_mem _ hi)
    rw [Hub.dispose, List.foldl_cons]
    cases hx : c.user.mach h with
    | none =>
      have hu : u.mach h = none := by rw [hmach h, hx]; rfl
      have hf : c.full h ≠ true := fun hc => (hm.full h).1 hc hx
      have hd : drop A.beh h c = { c with refs := upd c.refs h 0 } := by
        unfold drop
        rw [if_pos (hr h List.mem_cons_self), if_neg hf]
      rw [hu, hd]
      simp only
      have := drops_hub l { c with refs := upd c.refs h 0 } u hn2 hrefs (hm.congr rfl rfl rfl) he hl hmach
      split
      · next u' hu' =>
        rw [hu'] at this
        obtain ⟨a1, a2, a3, a4, a5⟩ := this
        refine ⟨a1, a2, a3, a4, fun i => ⟨fun hi => ?_, fun hi => ?_⟩⟩
        · by_cases hil : i ∈ l
          · exact (a5 i).1 hil
          · rcases List.mem_cons.1 hi with rfl | hi
            · obtain ⟨b1, b2⟩ := (a5 i).2 hil
              exact ⟨b1.trans hx, b2.trans hu⟩
            · exact absurd hi hil
        · exact (a5 i).2 fun hil => hi (List.mem_cons_of_mem _ hil)
      · next hu' => rw [hu'] at this; exact this
    | some x =>
      obtain ⟨a, mm⟩ := x
      have hu : u.mach h = some (a, abs mm) := by rw [hmach h, hx]; rfl
      have hf : c.full h = true := (hm.full h).2 (by rw [hx]; simp)
      let c1 : Ct (Yard V) := { c with refs := upd c.refs h 0, full := upd c.full h false, log := c.log ++ [.gone h] }
      have hd : drop A.beh h c = ((A.dtor h).lift.andThen (A.unmake h) (fun _ => A.unmake h)).finish c1 := by
        unfold drop
        rw [if_pos (hr h List.mem_cons_self), if_pos hf]
        rfl
      rw [hu, hd]
      simp only
      have hfin := finish_lift (A.dtor h) (A.unmake h) c1
      rw [show c1.user.env = u.env from he] at hfin
      cases hv : Hub.alone (A.dtor h) u.env with
      | none =>
        rw [hv] at hfin
        exact drops_fault l hfin
      | some v =>
        rw [hv] at hfin
        simp only at hfin ⊢
        rw [hfin]
        obtain ⟨mm', d1, d2⟩ := destruct_hub hwf hok hpl (h := (hm.reach h a mm hx).world v)
        rw [show ({ abs mm with world := v } : Ref.St V) = abs { mm with world := v } from rfl, d2]
        simp only
        let c2 : Ct (Yard V) := { c1 with user := { c1.user with
          env := mm'.world
          mach := upd c.user.mach h none
          gone := c.user.gone ++ [(h, a, mm')] } }
        have hun : (A.unmake h).finish { c1 with user := { c1.user with env := v } } = (A.calls h mm'.world).lift.finish c2 := by
          show (match c.user.mach h with
            | none => .put { c.user with env := v, fault := true } .ret
            | some (a, mm) => match SC.destruct (A.prog a) { mm with world := v } with
              | .ok _ m' => .put { c.user with env := m'.world, mach := upd c.user.mach h none, gone := c.user.gone ++ [(h, a, m')] } (A.calls h m'.world).lift
              | _ => .put { c.user with env := v, fault := true } .ret : Code (Yard V)).finish { c1 with user := { c1.user with env := v } } = _
          rw [hx]
          simp only [d1]
          rfl
        rw [hun]
        have hfin2 := finish_lift_ret (A.calls h mm'.world) c2
        rw [show c2.user.env = mm'.world from rfl] at hfin2
        rw [show (abs mm').world = mm'.world from rfl]
        cases hw : Hub.alone (A.calls h mm'.world) mm'.world with
        | none =>
          rw [hw] at hfin2
          exact drops_fault l hfin2
        | some w =>
          rw [hw] at hfin2
          simp only at hfin2 ⊢
          rw [hfin2]
          have hmach' : ∀ i, upd u.mach h none i = (upd c.user.mach h none i).map fun x => (x.1, abs x.2) := by
            intro i
            by_cases hi : i = h
            · subst hi; rw [upd_same, upd_same]; rfl
            · rw [upd_ne _ _ hi, upd_ne _ _ hi]; exact hmach i
          have hm' : MInv A { c2 with user := { c2.user with env := w } } := by
            refine ⟨fun i => ?_, fun i a' mm1 hi => ?_, hm.fault⟩
            · show upd c.full h false i = true ↔ upd c.user.mach h none i ≠ none
              by_cases hi : i = h
              · subst hi; rw [upd_same, upd_same]; simp
              · rw [upd_ne _ _ hi, upd_ne _ _ hi]; exact hm.full i
            · replace hi : upd c.user.mach h none i = some (a', mm1) := hi
              by_cases hih : i = h
              · subst hih; rw [upd_same] at hi; cases hi
              · rw [upd_ne _ _ hih] at hi; exact hm.reach i a' mm1 hi
          have := drops_hub l { c2 with user := { c2.user with env := w } } { u with env := w, mach := upd u.mach h none, log := u.log ++ [.gone h] }
            hn2 hrefs hm' rfl (by show c.log ++ _ = _; rw [hl]) hmach'
          split
          · next u' hu' =>
            rw [hu'] at this
            obtain ⟨a1, a2, a3, a4, a5⟩ := this
            refine ⟨a1, a2, a3, a4, fun i => ⟨fun hi => ?_, fun hi => ?_⟩⟩
            · by_cases hil : i ∈ l
              · exact (a5 i).1 hil
              · rcases List.mem_cons.1 hi with rfl | hi
                · obtain ⟨b1, b2⟩ := (a5 i).2 hil
                  exact ⟨b1.trans (upd_same _ _ _), b2.trans (upd_same _ _ _)⟩
                · exact absurd hi hil
            · have hih : i ≠ h := by rintro rfl; exact hi List.mem_cons_self
              obtain ⟨b1, b2⟩ := (a5 i).2 fun hil => hi (List.mem_cons_of_mem _ hil)
              exact ⟨b1.trans (upd_ne _ _ hih), b2.trans (upd_ne _ _ hih)⟩
          · next hu' => rw [hu'] at this; exact this

/-- **C58 (destruction of the scheduler).** `l` is the order of the elements of `processorSet_`. If no code that runs while the machines are destroyed calls the
scheduler, the machines end as the reference machines do, and none is left; otherwise the code has called a scheduler that does not exist any more. -/
theorem C58_dispose (hA : A.Flat) (v : V) (ts : List (Turn V)) {l : List Nat} (hn : l.Nodup)
    (hl : ∀ i, i ∈ l ↔ (turns (Turn.lib A) { st := { user := { env := v } } } ts).2.st.set i = true) :
    (∀ u, Hub.dispose A l (turns (Turn.hub A) { env := v } ts).2 = some u →
      let m := (turns (Turn.lib A) { st := { user := { env := v } } } ts).2
      (dispose A.beh l m).fault = m.st.fault ∧ (dispose A.beh l m).user.fault = false ∧ (dispose A.beh l m).user.env = u.env ∧
        (dispose A.beh l m).log = u.log ∧ ∀ h, (dispose A.beh l m).user.mach h = none ∧ u.mach h = none) ∧
    (Hub.dispose A l (turns (Turn.hub A) { env := v } ts).2 = none →
      (dispose A.beh l (turns (Turn.lib A) { st := { user := { env := v } } } ts).2).fault = true) := by
  obtain ⟨h1, h2⟩ := turns_hub hwf hok hpl hA ts (HubInv.fresh v)
  rw [show ({ env := v } : Hub V) = .of { st := { user := { env := v } } } from rfl, h1]
  revert hl h2
  generalize (turns (Turn.lib A) { st := { user := { env := v } } } ts).2 = m
  intro hl h2
  have hat : ∀ {i r b f}, HInv m i (.at r b f) → creates i m.work = 0 := fun hp => creates_none hp.2.2.2.2
  obtain ⟨r, q1, q2⟩ := dropItems_hub A.beh m.queue m.st (by
    intro i
    show creates i m.work ≤ _ ∧ (0 < creates i m.work → _)
    obtain ⟨st, -, hp⟩ := h2.holders.serve i
    cases st with
    | unborn =>
      refine ⟨?_, fun _ => hp.1⟩
      rcases hp.2.2 with ⟨-, -, g3⟩ | ⟨-, g2, w1, a, w2, g3, g4, g5⟩
      · rw [creates_none fun a ha => g3 _ ha rfl]; exact Nat.zero_le _
      · rw [g3, creates_append, creates_none fun a ha => g4 _ ha rfl, g2]
        have := creates_none g5
        unfold creates at this ⊢
        rw [List.countP_cons, this]
        simp [isCreate]
    | alive => rw [hat hp]; exact ⟨Nat.zero_le _, fun hx => absurd hx (Nat.lt_irrefl _)⟩
    | failed => rw [hat hp]; exact ⟨Nat.zero_le _, fun hx => absurd hx (Nat.lt_irrefl _)⟩
    | gone => rw [hat hp]; exact ⟨Nat.zero_le _, fun hx => absurd hx (Nat.lt_irrefl _)⟩)
  replace q2 : ∀ i, r i = m.st.refs i - creates i m.work := q2
  have hd : dispose A.beh l m = l.foldl (fun c h => drop A.beh h c) { m.st with refs := r, set := fun _ => false } := by
    unfold dispose
    rw [q1]
  have hrefs : ∀ i ∈ l, r i = 1 := by
    intro i hi
    have hs := (hl i).1 hi
    obtain ⟨st, -, hp⟩ := h2.holders.serve i
    cases st with
    | unborn => rw [hp.2.1] at hs; cases hs
    | alive => rw [q2 i, hat hp]; exact hp.2.1
    | failed => rw [q2 i, hat hp]; exact hp.2.1
    | gone => rw [hp.2.2.1] at hs; cases hs
  have := drops_hub hwf hok hpl l { m.st with refs := r, set := fun _ => false } (.of m) hn hrefs (h2.machines.congr rfl rfl rfl) rfl rfl (fun _ => rfl)
  rw [← hd] at this
  constructor
  · intro u hu
    replace hu : Hub.dispose A l (Hub.of m) = some u := hu
    rw [hu] at this
    obtain ⟨a1, a2, a3, a4, a5⟩ := this
    refine ⟨a1, a2, a3, a4, fun h => ?_⟩
    by_cases hh : h ∈ l
    · exact (a5 h).1 hh
    · obtain ⟨b1, b2⟩ := (a5 h).2 hh
      have hnone : m.st.user.mach h = none := by
        cases hf : m.st.full h with
        | false => exact Classical.byContradiction fun hc => by rw [(h2.machines.full h).2 hc] at hf; cases hf
        | true =>
          obtain ⟨st, -, hp⟩ := h2.holders.serve h
          cases st with
          | unborn => rw [hp.1] at hf; cases hf
          | alive => exact absurd ((hl h).2 hp.2.2.1) hh
          | failed => rw [hp.2.2.2.1] at hf; cases hf
          | gone => rw [hp.2.2.2.1] at hf; cases hf
      exact ⟨b1.trans hnone, b2.trans (by unfold Hub.of; simp [hnone])⟩
  · intro hu
    replace hu : Hub.dispose A l (Hub.of m) = none := hu
    rw [hu] at this
    exact this

end

namespace Ex

/-- The program of the examples; the environment counts the states that were destroyed in tens. -/
def counting : SC.Prog Nat := { SC.Ex.prog with dtor := fun s _ w => (w + 10, if s = 7 then [.post ⟨20, 0⟩] else []) }

theorem counting_plain : Plain counting := by
  constructor
  all_goals intros
  all_goals rfl

theorem counting_contract : Contract counting := ⟨fun s v w h => SC.Ex.contract.1 s v w h, fun s r e v w d a h => SC.Ex.contract.2 s r e v w d a h⟩

/-- A machine sends event `4` to itself when it is created, and the second one creates another one while the environment is
between 40 and 70. -/
def band : Fleet Nat := { fleet with
  prog := fun _ => counting
  calls := fun h w => if h = 1 ∧ 40 ≤ w ∧ w < 70 then .create w fun _ => .ret else .ret }

theorem band_flat : band.Flat := by
  refine ⟨fun _ _ => .deliver _ _ .ret, fun h w => ?_, fun _ => .ret, fun _ => .ret⟩
  show Code.Flat (if h = 1 ∧ 40 ≤ w ∧ w < 70 then _ else _)
  split
  · exact .create _ fun _ => .ret
  · exact .ret

/-- Two machines are made and initiated, one of them is destroyed, and gets another event. Then the other one is terminated, and gets `initiate` while a constructor throws
an exception that is not translated, and `operator()` is called again several times. -/
def hubTurns : List (Turn Nat) :=
  [.client 30 fleetClient, .client 30 (.deliver .terminate 1 (.call 0 (fun _ => .put 7 (.deliver .initiate 1 (.deliver (.event 1) 1 .ret))) .throw)), .run 30 0, .client 30 (.put 0 (.deliver .initiate 1 .ret)),
    .run 30 1, .run 30 1, .run 3 0, .run 30 0, .client 5 (.put 0 (.deliver (.event 1) 2 (.deliver (.event 5) 1 .ret))), .run 30 0]

def hubEnds : List TurnEnd :=
  [.returned 0, .returned 0, .threw 7, .returned 0, .returned 1, .returned 1, .returned 0, .returned 0, .returned 0, .returned 4]

def hubAfter (ts : List (Turn Nat)) : Hub Nat := (turns (Turn.hub band) { env := 0 } ts).2

def libAfter (ts : List (Turn Nat)) : Wk Op (Ct (Yard Nat)) := (turns (Turn.lib band) { st := { user := { env := 0 } } } ts).2

theorem band_equivalent (ts : List (Turn Nat)) :
    (turns (Turn.lib band) { st := { user := { env := 0 } } } ts).1 = (turns (Turn.hub band) { env := 0 } ts).1 ∧ Fits (libAfter ts) (hubAfter ts) :=
  have h := C58_equivalent (A := band) (fun _ => SC.Ex.wf) (fun _ => counting_contract) (fun _ => counting_plain) band_flat 0 ts
  ⟨h.1, h.2.1⟩

theorem band_dispose (ts : List (Turn Nat)) {l : List Nat} (hn : l.Nodup) (hl : ∀ i, i ∈ l ↔ (libAfter ts).st.set i = true) :
    (∀ u, Hub.dispose band l (hubAfter ts) = some u → (dispose band.beh l (libAfter ts)).fault = (libAfter ts).st.fault ∧
        (dispose band.beh l (libAfter ts)).user.fault = false ∧
        (dispose band.beh l (libAfter ts)).user.env = u.env ∧ (dispose band.beh l (libAfter ts)).log = u.log ∧
        ∀ h, (dispose band.beh l (libAfter ts)).user.mach h = none ∧ u.mach h = none) ∧
    (Hub.dispose band l (hubAfter ts) = none → (dispose band.beh l (libAfter ts)).fault = true) :=
  C58_dispose (A := band) (fun _ => SC.Ex.wf) (fun _ => counting_contract) (fun _ => counting_plain) band_flat 0 ts hn hl

theorem libAfter_set (ts : List (Turn Nat)) (i : Nat) (h : (libAfter ts).st.set i = true) : i < (libAfter ts).st.next := by
  have h2 := (turns_hub (A := band) (fun _ => SC.Ex.wf) (fun _ => counting_contract) (fun _ => counting_plain) band_flat ts (HubInv.fresh 0)).2
  obtain ⟨st, -, hp⟩ := h2.holders.serve i
  cases st with
  | unborn => have := hp.2.1; rw [show (turns (Turn.lib band) { st := { user := { env := 0 } } } ts).2.st.set i = true from h] at this; cases this
  | alive => exact hp.1
  | failed => exact hp.1
  | gone => exact hp.1

theorem libAfter_mem {ts : List (Turn Nat)} {l : List Nat}
    (h : (∀ i ∈ l, (libAfter ts).st.set i = true) ∧ ∀ i ∈ List.range (libAfter ts).st.next, (libAfter ts).st.set i = true → i ∈ l) (i : Nat) :
    i ∈ l ↔ (libAfter ts).st.set i = true :=
  ⟨h.1 i, fun hi => h.2 i (List.mem_range.2 (libAfter_set ts i hi)) hi⟩

theorem hubTurns_end : (turns (Turn.hub band) { env := 0 } hubTurns).1 = hubEnds := by decide +kernel

/-- The turns end as they should with both, and both have the same machines: machine 0 is gone, there are two others. -/
example : (turns (Turn.lib band) { st := { user := { env := 0 } } } hubTurns).1 = hubEnds ∧ Fits (libAfter hubTurns) (hubAfter hubTurns) ∧
    ((hubAfter hubTurns).bad = false ∧ (hubAfter hubTurns).env = 60 ∧ (hubAfter hubTurns).log.length = 15 ∧
    (List.range 4).map (fun h => ((hubAfter hubTurns).mach h).map fun x => (x.1, (List.range 9).filter x.2.act)) =
      [none, some (5, [8]), some (60, []), none]) :=
  ⟨(band_equivalent hubTurns).1.trans hubTurns_end, (band_equivalent hubTurns).2, by decide +kernel⟩

/-- There is no memory for the first machine: the other one lives as before, and what is sent to the first one is discarded. -/
def poor : Fleet Nat := { band with node := fun h => if h = 0 then some 9 else none }

def poorTurns : List (Turn Nat) :=
  [.client 30 (.create 3 fun g => .create 5 fun h => .deliver .initiate g (.deliver .initiate h (.destroy g .ret))), .run 30 0, .run 30 0]

example : (turns (Turn.lib poor) { st := { user := { env := 0 } } } poorTurns).1 = [.returned 0, .threw 9, .returned 5] ∧
    Fits (turns (Turn.lib poor) { st := { user := { env := 0 } } } poorTurns).2 (turns (Turn.hub poor) { env := 0 } poorTurns).2 ∧
    ((turns (Turn.hub poor) { env := 0 } poorTurns).2.log = [.lost 0, .made 1 5, .called .initiate 1, .called (.event 4) 1] ∧
    (turns (Turn.hub poor) { env := 0 } poorTurns).2.bad = false) :=
  have h := C58_equivalent (A := poor) (fun _ => SC.Ex.wf) (fun _ => counting_contract) (fun _ => counting_plain)
    ⟨band_flat.ctor, band_flat.calls, band_flat.dtor, band_flat.item⟩ 0 poorTurns
  ⟨h.1.trans (by decide +kernel), h.2.1, by decide +kernel⟩

/-- The scheduler is destroyed, and the two machines with it. -/
example : (dispose band.beh [2, 1] (libAfter hubTurns)).fault = false ∧ (dispose band.beh [2, 1] (libAfter hubTurns)).user.env = 70 ∧
    (dispose band.beh [2, 1] (libAfter hubTurns)).log = (libAfter hubTurns).st.log ++ [.gone 2, .gone 1] ∧
    (∀ h, (dispose band.beh [2, 1] (libAfter hubTurns)).user.mach h = none) := by
  have h := band_dispose hubTurns (l := [2, 1]) (by decide) (libAfter_mem (by decide +kernel))
  have hf : (libAfter hubTurns).st.fault = false := by decide +kernel
  have hl := (band_equivalent hubTurns).2.log
  have hd : ((Hub.dispose band [2, 1] (hubAfter hubTurns)).any fun u =>
      decide (u.env = 70 ∧ u.log = (hubAfter hubTurns).log ++ [.gone 2, .gone 1])) = true := by decide +kernel
  revert h hf hl hd
  generalize libAfter hubTurns = m
  generalize hubAfter hubTurns = u
  intro h hf hl hd
  rw [Option.any_eq_true] at hd
  obtain ⟨u, h1, h2⟩ := hd
  obtain ⟨h2, h3⟩ := of_decide_eq_true h2
  obtain ⟨a1, a2, a3, a4, a5⟩ := h.1 u h1
  exact ⟨a1.trans hf, a3.trans h2, by rw [hl, ← h3]; exact a4, fun h => (a5 h).1⟩

/-- In another environment the second machine calls the scheduler while it is destroyed. -/
example : (dispose band.beh [2, 1] (libAfter (hubTurns ++ [.client 5 (.put 40 .ret)]))).fault = true := by
  have h := band_dispose (hubTurns ++ [.client 5 (.put 40 .ret)]) (l := [2, 1]) (by decide) (libAfter_mem (by decide +kernel))
  have hd : (Hub.dispose band [2, 1] (hubAfter (hubTurns ++ [.client 5 (.put 40 .ret)]))).isNone = true := by decide +kernel
  exact h.2 (Option.isNone_iff_eq_none.1 hd)

end Ex
end SC.Fifo
