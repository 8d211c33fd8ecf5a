import Verif.QueueSpec
import Verif.Api2
/-!
# The event queues follow the abstract queue machine
-/

namespace SC
open Spec Chart
variable {W α : Type} {P : Prog W} {m : Mach W} {K : KRel W}

/-! ## Lifting of kept relations to dispatch -/

/-- What a relation may depend on. -/
structure SameQ (m m' : Mach W) : Prop where
  heap : m'.heap = m.heap
  trace : m'.trace = m.trace
  qlog : m'.qlog = m.qlog
  hlog : m'.hlog = m.hlog
  evq : m'.evq = m.evq
  dq : m'.dq = m.dq
  sh : m'.sh = m.sh
  dh : m'.dh = m.dh
  shKeys : m'.shKeys = m.shKeys
  dhKeys : m'.dhKeys = m.dhKeys

/-- Relations kept by everything that happens during dispatch, up to termination by an exception. -/
structure SendPrims (K : KRel W) (P : Prog W) : Prop extends RPrims K P where
  er : ∀ {x a b}, K.E x a b → K.R a b
  re' : ∀ {x a b}, K.R a b → K.E x a b
  loose : ∀ {m m' : Mach W}, SameQ m m' → K.R m m'
  fullExit : ∀ s, Keeps K (fullExitPart P s)
  unconsumed : ∀ e, Keeps K (runUser (P.unconsumed e) [.unconsumed] [.unconsumed])

/-- Relations kept by everything that happens during dispatch. -/
structure AllPrims (K : KRel W) (P : Prog W) : Prop extends SendPrims K P where
  clear : Keeps K (clearAll : M W Unit)

section
variable (hK : SendPrims K P)
include hK

theorem SendPrims.throw (e : Exc) : Keeps K (M.throw e : M W α) := fun m => hK.re' (K.refl m)

theorem SendPrims.loose' {f : Mach W → Mach W} (h : ∀ m, SameQ m (f m)) : Keeps K (M.modify f) := Keeps.modify fun m => hK.loose (h m)

theorem SendPrims.reactImpl (s : Sid) (e : Event) : Keeps K (reactImpl P s e) := fun _ =>
  hK.reactFAt (fun _ _ _ => hK.fullExit) e _ s (fun _ => hK.fullExit)

theorem SendPrims.withTrig {x : M W α} (ev : Option Event) (hx : Keeps K x) : Keeps K (withTrig ev x) := by
  intro m
  have h1 : K.R m { m with trig := ev } := hK.loose (by constructor <;> rfl)
  have := hx { m with trig := ev }
  unfold KeepsAt SC.withTrig at *
  cases h : x { m with trig := ev } with
  | ok a m' =>
    rw [h] at this
    exact K.trans (K.trans h1 this) (hK.loose (by constructor <;> rfl))
  | thrown e m' =>
    rw [h] at this
    exact K.er (K.re h1 this) (hK.loose (by constructor <;> rfl))
  | fault g => trivial

theorem SendPrims.handleException (cur : Option Sid) (ev : Event) (x : Exc) : Keeps K (handleException P cur ev x) := by
  unfold SC.handleException
  refine Keeps.bind Keeps.get fun m => Keeps.ite (fun _ => hK.throw _) fun _ => ?_
  split
  · exact Keeps.fault _
  · refine hK.withTrig _ ?_
    refine Keeps.bind (hK.loose' fun m => (by constructor <;> rfl)) fun _ => ?_
    refine Keeps.bind (hK.reactImpl _ _) fun r => ?_
    refine Keeps.bind (hK.loose' fun m => (by constructor <;> rfl)) fun _ => ?_
    exact Keeps.bind Keeps.get fun m => Keeps.ite (fun _ => hK.throw _) fun _ => Keeps.pure _

theorem SendPrims.translated (cur : Option Sid) {x : M W RR} (hx : Keeps K x) : Keeps K (translated P cur x) := by
  intro m
  unfold SC.translated
  refine KeepsAt.tryCatch (hx m) hK.er ?_
  intro e m' _
  split
  · exact hK.throw _ _
  · exact hK.handleException _ _ _ _

theorem SendPrims.sendLoop (e : Event) (f : Nat) : ∀ i, Keeps K (sendLoop P e f i) := by
  induction f with
  | zero => intro i; exact Keeps.fault _
  | succ f ih =>
    intro i
    unfold SC.sendLoop
    refine Keeps.bind Keeps.get fun m => Keeps.ite (fun _ => Keeps.pure _) fun _ => ?_
    split
    · exact Keeps.fault _
    · refine Keeps.bind (hK.translated _ (hK.reactImpl _ _)) fun r => ?_
      exact Keeps.ite (fun _ => ih _) fun _ => Keeps.pure _

end

section
variable (hK : AllPrims K P)
include hK

theorem AllPrims.terminateMachine (full : Bool) : Keeps K (terminateMachine P full) := by
  have hP := hK.toPrims
  have hc := hK.clear
  unfold SC.terminateMachine
  have h1 := hK.terminateState (full := full) (fun _ => hK.fullExit)
  keep
  all_goals first | exact h1 _ | exact hK.loose' fun m => (by constructor <;> rfl)

theorem AllPrims.guardTerm {x : M W α} (hx : Keeps K x) : Keeps K (guardTerm P x) := by
  intro m
  have h1 := hx m
  unfold KeepsAt SC.guardTerm at *
  cases h : x m with
  | ok a m' => rw [h] at h1; exact h1
  | fault g => trivial
  | thrown e m' =>
    rw [h] at h1
    have h2 := hK.terminateMachine false m'
    unfold KeepsAt at h2
    simp only at h1 ⊢
    cases h' : SC.terminateMachine P false m' with
    | ok a m'' => rw [h'] at h2; exact K.er h1 h2
    | thrown e m'' => trivial
    | fault g => trivial

theorem AllPrims.sendEvent (e : Event) : Keeps K (sendEvent P e) := by
  unfold SC.sendEvent
  refine hK.withTrig _ ?_
  refine Keeps.bind (hK.guardTerm (Keeps.bind Keeps.get fun m => Keeps.ite (fun _ => Keeps.fault _) fun _ => hK.sendLoop _ _ _)) fun r => ?_
  exact Keeps.bind (Keeps.ite (fun _ => hK.unconsumed _) fun _ => Keeps.pure _) fun _ => Keeps.pure _

theorem AllPrims.initBody : Keeps K (initBody P) := Keeps.bind (hK.toPrims.build _ _) fun _ => Keeps.pure _
theorem AllPrims.termBody : Keeps K (termBody P) := Keeps.bind (hK.terminateMachine _) fun _ => Keeps.pure _

theorem AllPrims.terminate : Keeps K (terminate P) := by
  unfold SC.terminate
  exact Keeps.bind (hK.withTrig _ (hK.guardTerm (hK.translated _ hK.termBody))) fun _ => Keeps.pure _

end

/-! ## Queue operations -/

/-- The states that have deferred an event. -/
def Mach.holders (m : Mach W) : Sid → Bool := fun s => match m.heap s with
  | none => false
  | some o => o.deferred

/-- The abstract queues of a machine that dispatches event `c`. -/
def Mach.queues (m : Mach W) (c : Option Event) : Queues := ⟨m.evq, m.dq, c, m.holders⟩

/-- Operations that happen while an event is dispatched (or none is). -/
def QOp.isInner : QOp → Bool
  | .post _ => true
  | .hold _ => true
  | .release _ => true
  | .clear => true
  | _ => false

theorem run_append (q : Queues) (a b : List QOp) : q.run (a ++ b) = (q.run a).bind fun q' => q'.run b := by
  unfold Queues.run
  rw [List.foldlM_append]; rfl

theorem run_cons (q : Queues) (a : QOp) (b : List QOp) : q.run (a :: b) = (q.step a).bind fun q' => q'.run b := rfl

theorem run_nil (q : Queues) : q.run [] = some q := rfl

/-- The queues changed by operations `ops`, whatever event is being dispatched. -/
structure QStep (m m' : Mach W) (ops : List QOp) : Prop where
  qlog : m'.qlog = m.qlog ++ ops
  inner : ∀ o ∈ ops, o.isInner = true
  run : ∀ c, (m.queues c).run ops = some (m'.queues c)

def QRel (m m' : Mach W) : Prop := Early m → Early m' ∧ ∃ ops, QStep m m' ops

theorem QStep.trans {a b c : Mach W} {o1 o2 : List QOp} (h1 : QStep a b o1) (h2 : QStep b c o2) : QStep a c (o1 ++ o2) := by
  refine ⟨by rw [h2.qlog, h1.qlog]; simp, ?_, ?_⟩
  · intro o ho
    rcases List.mem_append.1 ho with h | h
    · exact h1.inner o h
    · exact h2.inner o h
  · intro ev
    rw [run_append, h1.run ev]
    exact h2.run ev

theorem QRel.refl (m : Mach W) : QRel m m := fun h => ⟨h, [], by simp, by simp, fun _ => rfl⟩
theorem QRel.trans {a b c : Mach W} (h1 : QRel a b) (h2 : QRel b c) : QRel a c := by
  intro h
  obtain ⟨g1, o1, k1⟩ := h1 h
  obtain ⟨g2, o2, k2⟩ := h2 g1
  exact ⟨g2, _, k1.trans k2⟩

def queueK : KRel W where
  R := QRel
  E _ := QRel
  refl := QRel.refl
  trans := QRel.trans
  re := QRel.trans
  er := QRel.trans

theorem QStep.same {m m' : Mach W} (h1 : m'.holders = m.holders) (h2 : m'.qlog = m.qlog) (h3 : m'.evq = m.evq) (h4 : m'.dq = m.dq) : QStep m m' [] :=
  ⟨by simp [h2], by simp, fun c => by rw [run_nil]; unfold Mach.queues; rw [h1, h3, h4]⟩

theorem qrel_same {m m' : Mach W} (h1 : m'.heap = m.heap) (h2 : m'.qlog = m.qlog) (h3 : m'.evq = m.evq) (h4 : m'.dq = m.dq) : QRel m m' := by
  intro h
  refine ⟨by unfold Early; rw [h1]; exact h, [], .same ?_ h2 h3 h4⟩
  unfold Mach.holders; rw [h1]

theorem qstep_cmd (m : Mach W) (c : Cmd) : ∃ ops, QStep m (m.cmd c) ops := by
  cases c with
  | post e => exact ⟨[.post e], rfl, by simp [QOp.isInner], fun _ => rfl⟩
  | clearShallow k => exact ⟨[], .same rfl rfl rfl rfl⟩
  | clearDeep k => exact ⟨[], .same rfl rfl rfl rfl⟩

theorem qstep_cmds (l : List Cmd) : ∀ m : Mach W, ∃ ops, QStep m (l.foldl Mach.cmd m) ops := by
  induction l with
  | nil => exact fun m => ⟨[], .same rfl rfl rfl rfl⟩
  | cons c l ih =>
    intro m
    obtain ⟨o1, h1⟩ := qstep_cmd m c
    obtain ⟨o2, h2⟩ := ih (m.cmd c)
    exact ⟨_, h1.trans h2⟩

theorem qrel_cmds (w : W) (l : List Cmd) (m : Mach W) : QRel m (l.foldl Mach.cmd { m with world := w }) := by
  intro h
  have hh := (world_step m w l).core.heap
  refine ⟨by unfold Early; rw [hh]; exact h, ?_⟩
  obtain ⟨o, ho⟩ := qstep_cmds l { m with world := w }
  exact ⟨o, ho.qlog, ho.inner, ho.run⟩

theorem qrel_logs (l : List Obs) : ∀ m : Mach W, QRel m (l.foldl Mach.log m) := by
  induction l with
  | nil => exact QRel.refl
  | cons o l ih => exact fun m => QRel.trans (qrel_same (m' := m.log o) rfl rfl rfl rfl) (ih _)

theorem keeps_runUser_queue {f : View → W → UOut W} {a b : List Obs} : Keeps queueK (runUser f a b) := by
  intro m
  unfold KeepsAt runUser
  cases h : (f m.view m.world).throws with
  | none => simp only [h]; exact (qrel_cmds _ _ m).trans (qrel_logs _ _)
  | some x => simp only [h]; exact ((qrel_cmds _ _ m).trans (qrel_logs _ _)).trans (qrel_same rfl rfl rfl rfl)

theorem holders_upd {m : Mach W} {s : Sid} {o o' : Obj} (h : m.heap s = some o) (hd : o'.deferred = o.deferred) :
    Mach.holders { m with heap := upd m.heap s (some o') } = m.holders := by
  funext x
  unfold Mach.holders
  simp only [upd]
  by_cases hx : x = s
  · subst hx; simp [h, hd]
  · simp [hx]

theorem early_upd {m : Mach W} {s : Sid} {o o' : Obj} (h : m.heap s = some o) (ho : ObjStep o o') (he : Early m) :
    Early { m with heap := upd m.heap s (some o') } := by
  intro x ox hx hc
  simp only [upd] at hx
  split at hx
  · cases hx
    rw [ho.deferred]
    refine he s o h ?_
    cases hcc : o.ctxSet with
    | false => rfl
    | true => rw [ho.ctxSet hcc] at hc; cases hc
  · exact he x ox hx hc

theorem early_erase {m : Mach W} {s : Sid} (he : Early m) : Early { m with heap := upd m.heap s none } := by
  intro x ox hx hc
  simp only [upd] at hx
  split at hx
  · cases hx
  · exact he x ox hx hc

theorem qrel_setObj {m : Mach W} {s : Sid} {o o' : Obj} (h : m.heap s = some o) (ho : ObjStep o o') :
    QRel m { m with heap := upd m.heap s (some o') } := fun he =>
  ⟨early_upd h ho he, [], .same (holders_upd h ho.deferred) rfl rfl rfl⟩

/-- What `removeInner` leaves alone. -/
theorem removeInner_queue {c : Option Sid} {i : Nat} {m m' : Mach W} (h : removeInner P c i m = .ok () m') :
    m'.holders = m.holders ∧ m'.qlog = m.qlog ∧ m'.evq = m.evq ∧ m'.dq = m.dq ∧ (Early m → Early m') ∧ m'.trace = m.trace := by
  unfold removeInner at h
  cases c with
  | none =>
    simp only at h
    split at h
    · cases h; exact ⟨rfl, rfl, rfl, rfl, id, rfl⟩
    · cases h
  | some p =>
    simp only at h
    change M.bnd (getObj p) _ m = _ at h
    unfold M.bnd getObj at h
    cases hp : m.heap p with
    | none => rw [hp] at h; cases h
    | some o =>
      rw [hp] at h
      simp only at h
      split at h
      · cases h
        exact ⟨holders_upd hp rfl, rfl, rfl, rfl, early_upd hp ⟨rfl, id⟩, rfl⟩
      · cases h

theorem removeInner_nothrow {c : Option Sid} {i : Nat} {m m' : Mach W} {x : Exc} : removeInner P c i m ≠ .thrown x m' := by
  intro h
  unfold removeInner at h
  cases c with
  | none =>
    simp only at h
    split at h <;> cases h
  | some p =>
    simp only at h
    change M.bnd (getObj p) _ m = _ at h
    unfold M.bnd getObj at h
    cases hp : m.heap p with
    | none => rw [hp] at h; cases h
    | some o =>
      rw [hp] at h
      simp only at h
      split at h <;> cases h

/-- The queue operations of a base class destructor. -/
def relOps (s : Sid) (o : Obj) : List QOp := if o.deferred then [.release s] else []

/-- A base class destructor: the queue step, then possibly the release of the context. -/
theorem baseDtor_split {rel : Sid → M W Unit} {s : Sid} {o : Obj} (ho : m.heap s = some o) (he : Early m) :
    (∃ m2, Early m2 ∧ QStep m m2 (relOps s o) ∧ m2.trace = m.trace ∧ m2.heap s = none ∧
      (baseDtor P rel s m = (match P.parent s with | none => pure () | some p => rel p : M W Unit) m2 ∨ baseDtor P rel s m = .ok () m2)) ∨
    ∃ g, baseDtor P rel s m = .fault g := by
  by_cases hc : o.ctxSet = true
  · -- state after the possible release
    let m1 : Mach W := if o.deferred then { m with evq := m.dq ++ m.evq, dq := [], qlog := m.qlog ++ [.release s] } else m
    have hm1 : (if o.deferred then releaseEvents s else pure () : M W Unit) m = .ok () m1 := by
      by_cases hd : o.deferred = true
      · rw [if_pos hd]; simp only [m1, if_pos hd]; rfl
      · rw [if_neg hd]; simp only [m1, if_neg hd]; rfl
    have hheap : m1.heap = m.heap := by simp only [m1]; split <;> rfl
    have htr : m1.trace = m.trace := by simp only [m1]; split <;> rfl
    have hcomp : baseDtor P rel s m = M.bnd (removeInner P (P.parent s) (P.pos s))
          (fun _ => M.bnd (M.modify fun m => { m with heap := upd m.heap s none })
            fun _ => match P.parent s with | none => pure () | some p => rel p) m1 := by
      unfold baseDtor
      show M.bnd (getObj s) _ m = _
      unfold M.bnd getObj
      rw [ho]
      simp only [hc, if_true]
      by_cases hd : o.deferred = true
      · rw [if_pos hd] at hm1 ⊢
        show M.bnd _ _ m = _
        unfold M.bnd
        rw [hm1]; rfl
      · rw [if_neg hd]
        have : m1 = m := by simp only [m1, if_neg hd]
        rw [this]; rfl
    unfold M.bnd M.modify at hcomp
    cases h2 : removeInner P (P.parent s) (P.pos s) m1 with
    | fault g => exact .inr ⟨g, by rw [hcomp, h2]⟩
    | thrown x m2 => exact absurd h2 removeInner_nothrow
    | ok _ m2 =>
      rw [h2] at hcomp
      obtain ⟨g1, g2, g3, g4, g5, g6⟩ := removeInner_queue h2
      have he1 : Early m1 := by unfold Early; rw [hheap]; exact he
      refine .inl ⟨{ m2 with heap := upd m2.heap s none }, early_erase (g5 he1), ?_, ?_, by simp [upd], .inl hcomp⟩
      · have hh : m1.holders = m.holders := by unfold Mach.holders; rw [hheap]
        have hers : Mach.holders { m2 with heap := upd m2.heap s none } = fun x => if x = s then false else m.holders x := by
          funext x
          have : m2.holders x = m.holders x := by rw [g1, hh]
          unfold Mach.holders at this ⊢
          simp only [upd]
          by_cases hx : x = s
          · simp [hx]
          · simp only [if_neg hx]; exact this
        by_cases hd : o.deferred = true
        · have em : m1 = { m with evq := m.dq ++ m.evq, dq := [], qlog := m.qlog ++ [.release s] } := by simp only [m1, if_pos hd]
          have er : relOps s o = [.release s] := if_pos hd
          rw [er]
          refine ⟨?_, by simp [QOp.isInner], ?_⟩
          · show m2.qlog = _; rw [g2, em]
          · intro c
            rw [run_cons]
            have hs : m.holders s = true := by unfold Mach.holders; rw [ho]; exact hd
            have e1 : m2.evq = m.dq ++ m.evq := by rw [g3, em]
            have e2 : m2.dq = [] := by rw [g4, em]
            unfold Mach.queues
            simp only [Queues.step, hs, if_true, Option.bind_some, run_nil]
            rw [hers, e1, e2]
        · have em : m1 = m := by simp only [m1, if_neg hd]
          have er : relOps s o = [] := if_neg hd
          rw [er]
          refine .same ?_ ?_ ?_ ?_
          · rw [hers]
            funext x
            by_cases hx : x = s
            · subst hx; rw [if_pos rfl]; unfold Mach.holders; rw [ho]; simpa using hd
            · rw [if_neg hx]
          · show m2.qlog = _; rw [g2, em]
          · show m2.evq = _; rw [g3, em]
          · show m2.dq = _; rw [g4, em]
      · show m2.trace = _
        rw [g6, htr]
  · have hd : o.deferred = false := he s o ho (by simpa using hc)
    refine .inl ⟨{ m with heap := upd m.heap s none }, early_erase he, ?_, rfl, by simp [upd], .inr ?_⟩
    · have er : relOps s o = [] := if_neg (by simp [hd])
      rw [er]
      refine .same ?_ rfl rfl rfl
      funext x
      unfold Mach.holders
      simp only [upd]
      by_cases hx : x = s
      · subst hx
        rw [if_pos rfl, ho]
        exact hd.symm
      · rw [if_neg hx]
    · unfold baseDtor
      show M.bnd (getObj s) _ m = _
      unfold M.bnd getObj
      rw [ho]
      simp only [if_neg hc]
      rfl

theorem baseDtor_none {rel : Sid → M W Unit} {s : Sid} (ho : m.heap s = none) : ∃ g, baseDtor P rel s m = .fault g := by
  refine ⟨.useAfterFree, ?_⟩
  unfold baseDtor
  show M.bnd (getObj s) _ m = _
  unfold M.bnd getObj
  rw [ho]

theorem keeps_baseDtor_queue {rel : Sid → M W Unit} (hr : ∀ s, Keeps queueK (rel s)) (s : Sid) : Keeps queueK (baseDtor P rel s) := by
  intro m
  have hend : Keeps queueK (match P.parent s with | none => pure () | some p => rel p : M W Unit) := by
    split
    · exact Keeps.pure _
    · exact hr _
  have key : ∀ r, baseDtor P rel s m = r → match r with
      | .ok _ m' => QRel m m'
      | .thrown _ m' => QRel m m'
      | .fault _ => True := by
    intro r hr
    cases ho : m.heap s with
    | none =>
      obtain ⟨g, hg⟩ := baseDtor_none (P := P) (rel := rel) ho
      rw [hg] at hr; subst hr; trivial
    | some o =>
      have main : ∀ m', (∀ m2, (match P.parent s with | none => pure () | some p => rel p : M W Unit) m2 = r → QRel m2 m') →
          (r = .ok () m' ∨ ∃ x, r = .thrown x m') → QRel m m' := by
        intro m' hm he hearly
        rcases baseDtor_split (P := P) (rel := rel) ho hearly with ⟨m2, k1, k2, _, _, k4⟩ | ⟨g, hg⟩
        · rcases k4 with k4 | k4
          · rw [k4] at hr
            obtain ⟨j1, ops, j2⟩ := hm m2 hr k1
            exact ⟨j1, _, k2.trans j2⟩
          · rw [k4] at hr; subst hr
            rcases he with he | ⟨x, he⟩
            · cases he; exact ⟨k1, _, k2⟩
            · cases he
        · rw [hg] at hr; subst hr
          rcases he with he | ⟨x, he⟩ <;> cases he
      cases r with
      | fault g => trivial
      | ok u m' => exact main m' (fun m2 h2 => hend.ok h2) (.inl rfl)
      | thrown x m' => exact main m' (fun m2 h2 => hend.thrown h2) (.inr ⟨x, rfl⟩)
  have := key _ rfl
  unfold KeepsAt
  cases h : baseDtor P rel s m <;> rw [h] at this <;> exact this

theorem queueParts (P : Prog W) : PartPrims queueK P where
  core h1 h2 := qrel_same h2 h1.qlog h1.evq h1.dq
  raise _ _ := qrel_same rfl rfl rfl rfl
  setObj := qrel_setObj
  newObj := by
    intro m s h he
    refine ⟨?_, [], .same ?_ rfl rfl rfl⟩
    · intro x ox hx hc
      simp only [upd] at hx
      split at hx
      · cases hx; rfl
      · exact he x ox hx hc
    · funext x
      unfold Mach.holders
      simp only [upd]
      by_cases hx : x = s
      · subst hx; rw [if_pos rfl, h]; rfl
      · rw [if_neg hx]
  baseDtor := keeps_baseDtor_queue
  ctor s := by
    intro m
    have := keeps_runUser_queue (f := P.ctor s) (a := [.enter s]) (b := [.enterFail s]) m
    unfold KeepsAt runCtor
    by_cases hc : P.isSimple s = true ∧ (P.ctor s m.view m.world).cmds ≠ []
    · simp [hc]
    · rw [if_neg hc]; exact this
  dtor s := by
    intro m
    exact (qrel_cmds _ _ m).trans (qrel_logs [_] _)
  action a := by
    cases a with
    | none => exact Keeps.pure _
    | some a => exact keeps_runUser_queue
  react s id e := keeps_runUser_queue

theorem queuePrims_r (P : Prog W) : RPrims queueK P where
  toPrims := (queueParts P).prims
  deferEvent s := by
    unfold deferEvent
    refine keeps_getObj_bind fun o m ho => ?_
    split
    · next hc =>
      intro he
      refine ⟨?_, [.hold s], rfl, by simp [QOp.isInner], ?_⟩
      · intro x ox hx hcx
        simp only [Mach.log, upd] at hx
        split at hx
        · cases hx; rw [hc] at hcx; cases hcx
        · exact he x ox hx hcx
      · intro c
        rw [run_cons]
        unfold Mach.queues
        simp only [Queues.step, Option.bind_some, run_nil]
        congr 2
        funext x
        unfold Mach.holders
        simp only [Mach.log, upd]
        by_cases hx : x = s
        · simp [hx]
        · simp [hx]
    · trivial

theorem queuePrims (P : Prog W) : AllPrims queueK P where
  toRPrims := queuePrims_r P
  er h := h
  re' h := h
  loose h := qrel_same h.heap h.qlog h.evq h.dq
  fullExit := (queuePrims_r P).toPrims.fullExit (fun m l => qrel_same rfl rfl rfl rfl) (fun m f _ => qrel_same rfl rfl rfl rfl) (fun m f _ => qrel_same rfl rfl rfl rfl)
    fun s => keeps_runUser_queue
  unconsumed e := keeps_runUser_queue
  clear := by
    intro m he
    exact ⟨he, [.clear], rfl, by simp [QOp.isInner], fun _ => rfl⟩

end SC

namespace SC
open Spec Chart
variable {W α β : Type} {P : Prog W} {m : Mach W}

/-- Partial correctness. -/
def wlp (x : M W α) (Q : α → Mach W → Prop) (E : Exc → Mach W → Prop) (m : Mach W) : Prop :=
  match x m with
  | .ok a m' => Q a m'
  | .thrown e m' => E e m'
  | .fault _ => True

theorem wlp_mono {x : M W α} {Q Q' : α → Mach W → Prop} {E E' : Exc → Mach W → Prop} (h : wlp x Q E m)
    (h1 : ∀ a m', Q a m' → Q' a m') (h2 : ∀ e m', E e m' → E' e m') : wlp x Q' E' m := by
  unfold wlp at *
  cases hx : x m <;> rw [hx] at h <;> simp_all

theorem wlp_bind {x : M W β} {f : β → M W α} {Q : α → Mach W → Prop} {E : Exc → Mach W → Prop} :
    wlp (x >>= f) Q E m ↔ wlp x (fun b m' => wlp (f b) Q E m') E m := by
  show wlp (M.bnd x f) Q E m ↔ _
  unfold wlp M.bnd
  cases x m <;> simp

theorem wlp_get {Q : Mach W → Mach W → Prop} {E : Exc → Mach W → Prop} : wlp (M.get : M W (Mach W)) Q E m ↔ Q m m := Iff.rfl

theorem wlp_modify {f : Mach W → Mach W} {Q : Unit → Mach W → Prop} {E : Exc → Mach W → Prop} : wlp (M.modify f) Q E m ↔ Q () (f m) := Iff.rfl

theorem wlp_onThrow {x : M W α} {fin : M W Unit} {Q : α → Mach W → Prop} {E : Exc → Mach W → Prop} :
    wlp (M.onThrow x fin) Q E m ↔ wlp x Q (fun e m' => wlp fin (fun _ m'' => E e m'') (fun _ _ => True) m') m := by
  unfold wlp M.onThrow
  cases x m with
  | ok a m' => simp
  | fault g => simp
  | thrown e m' => simp only; cases fin m' <;> simp

theorem Keeps.wlp {K : KRel W} {x : M W α} (h : Keeps K x) (m : Mach W) : SC.wlp x (fun _ m' => K.R m m') (fun e m' => K.E e m m') m := h m

/-- The queues and the log agree; event `c` is being dispatched. -/
structure Logged (m : Mach W) (c : Option Event) : Prop where
  early : Early m
  run : Queues.empty.run m.qlog = some (m.queues c)

theorem QRel.logged {m m' : Mach W} {c : Option Event} (h : QRel m m') (hl : Logged m c) : Logged m' c := by
  obtain ⟨h1, ops, h2⟩ := h hl.early
  refine ⟨h1, ?_⟩
  rw [h2.qlog, run_append, hl.run]
  exact h2.run c

theorem Logged.op {m m' : Mach W} {c c' : Option Event} {o : QOp} (hl : Logged m c) (hh : m'.heap = m.heap) (hq : m'.qlog = m.qlog ++ [o])
    (hs : (m.queues c).step o = some (m'.queues c')) : Logged m' c' := by
  refine ⟨by unfold Early; rw [hh]; exact hl.early, ?_⟩
  rw [hq, run_append, hl.run]
  show (m.queues c).run [o] = _
  rw [run_cons, hs]; rfl

theorem logged_fresh (w : W) : Logged (Mach.fresh w) none := ⟨fun s o h => (by cases h), rfl⟩

theorem queues_eq {m m' : Mach W} (c : Option Event) (hh : m'.heap = m.heap) : m'.queues c = ⟨m'.evq, m'.dq, c, m.holders⟩ := by
  unfold Mach.queues Mach.holders; rw [hh]

theorem dispatch_logged (e : Event) (h : Logged m (some e)) :
    wlp (dispatch P e) (fun _ m' => Logged m' none) (fun _ m' => Logged m' none) m := by
  have hdone : ∀ m1 : Mach W, Logged m1 (some e) → Logged (m1.qop (.done e)) none := by
    intro m1 h1
    exact h1.op rfl rfl (by simp only [Mach.queues, Queues.step, if_true]; rfl)
  unfold dispatch qop
  rw [wlp_bind, wlp_onThrow]
  refine wlp_mono ((queuePrims P).sendEvent e |>.wlp m) ?_ ?_
  · intro r m1 h1
    have hl := QRel.logged h1 h
    by_cases hr : r = .defer
    · rw [if_pos hr, wlp_bind, wlp_onThrow]
      refine wlp_mono ((queuePrims P).toPrims.alloc (.deferNode e) |>.wlp m1) ?_ ?_
      · intro _ m2 h2
        have hl2 := QRel.logged h2 hl
        exact hl2.op rfl rfl (by simp only [Mach.queues, Queues.step, if_true]; rfl)
      · intro _ m2 h2
        have hl2 := QRel.logged h2 hl
        exact hl2.op (m' := m2.qop (.lost e)) rfl rfl (by simp only [Mach.queues, Queues.step, if_true]; rfl)
    · rw [if_neg hr]
      exact hdone m1 hl
  · intro x m1 h1
    exact hdone m1 (QRel.logged h1 h)

theorem processQueued_logged (k : Nat) : ∀ m : Mach W, Logged m none →
    wlp (processQueued P k) (fun _ m' => Logged m' none) (fun _ m' => Logged m' none) m := by
  induction k with
  | zero => intro m h; exact h
  | succ k ih =>
    intro m h
    unfold processQueued
    rw [wlp_bind]
    refine (wlp_get).2 ?_
    split
    · exact h
    · next e q he =>
      rw [wlp_bind]
      refine (wlp_modify).2 ?_
      rw [wlp_bind]
      refine wlp_mono (dispatch_logged e ?_) (fun _ m' h' => ih m' h') (fun _ _ h' => h')
      exact h.op rfl rfl (by simp [Mach.queues, Queues.step, he]; rfl)

theorem guarded_logged {x : M W RR} (hx : Keeps queueK x) (h : Logged m none) :
    wlp (withTrig none (guardTerm P (translated P none x))) (fun _ m' => Logged m' none) (fun _ m' => Logged m' none) m := by
  have hK := queuePrims P
  refine wlp_mono ((hK.withTrig none (hK.guardTerm (hK.translated none hx))).wlp m) ?_ ?_
  · intro _ m' h'; exact QRel.logged h' h
  · intro _ m' h'; exact QRel.logged h' h

theorem terminate_logged (h : Logged m none) : wlp (terminate P) (fun _ m' => Logged m' none) (fun _ m' => Logged m' none) m := by
  unfold terminate
  rw [wlp_bind]
  exact guarded_logged (queuePrims P).termBody h

theorem processEvent_logged (e : Event) (k : Nat) (h : Logged m none) :
    wlp (processEvent P e k) (fun _ m' => Logged m' none) (fun _ m' => Logged m' none) m := by
  unfold processEvent
  rw [wlp_bind]
  refine (wlp_modify).2 ?_
  rw [wlp_bind]
  refine wlp_mono (dispatch_logged e ?_) (fun _ m' h' => processQueued_logged k m' h') (fun _ _ h' => h')
  exact h.op rfl rfl (by simp only [Mach.queues, Queues.step, if_true]; rfl)

theorem initiate_logged (k : Nat) (h : Logged m none) :
    wlp (initiate P k) (fun _ m' => Logged m' none) (fun _ m' => Logged m' none) m := by
  unfold initiate
  rw [wlp_bind]
  refine wlp_mono (terminate_logged h) ?_ (fun _ _ h' => h')
  intro _ m1 h1
  unfold construct
  rw [wlp_bind]
  exact wlp_mono (guarded_logged (queuePrims P).initBody h1) (fun _ m' h' => processQueued_logged k m' h') (fun _ _ h' => h')

theorem postEvent_logged (e : Event) (h : Logged m none) :
    wlp (postEvent P e) (fun _ m' => Logged m' none) (fun _ m' => Logged m' none) m := by
  unfold postEvent
  rw [wlp_bind]
  refine wlp_mono ((queuePrims P).toPrims.alloc (.postNode e) |>.wlp m) ?_ ?_
  · intro _ m1 h1
    have hl := QRel.logged h1 h
    exact hl.op (m' := m1.cmd (.post e)) rfl rfl rfl
  · intro _ m1 h1; exact QRel.logged h1 h

end SC
