import Verif.Tidy
/-!
# The state list while user code runs: reactions, dispatch, the public interface
-/

namespace SC
open Spec Chart
variable {W α β : Type} {P : Prog (W × Log)} {m : Mach (W × Log)}

/-- `x` leads from tidy machines to tidy machines. -/
def KeepsTidy (C : Chart) (x : M (W × Log) α) : Prop :=
  ∀ m, Tidy C {} m → wlp x (fun _ m' => Tidy C {} m') (fun _ m' => Tidy C {} m') m

variable {C : Chart}

theorem KeepsTidy.pure (a : α) : KeepsTidy C (pure a : M (W × Log) α) := fun _ h => h
theorem KeepsTidy.fault (g : Fault) : KeepsTidy C (M.fault g : M (W × Log) α) := fun _ _ => trivial
theorem KeepsTidy.throw (x : Exc) : KeepsTidy C (M.throw x : M (W × Log) α) := fun _ h => h
theorem KeepsTidy.get : KeepsTidy C (M.get : M (W × Log) _) := fun _ h => h
theorem KeepsTidy.getObj (s : Sid) : KeepsTidy C (getObj s : M (W × Log) Obj) := fun _ h => wlp_getObj fun _ _ => h

theorem KeepsTidy.bind {x : M (W × Log) β} {f : β → M (W × Log) α} (hx : KeepsTidy C x) (hf : ∀ b, KeepsTidy C (f b)) : KeepsTidy C (x >>= f) := by
  intro m h
  rw [wlp_bind]
  exact wlp_mono (hx m h) (fun b m1 h1 => hf b m1 h1) (fun _ _ h => h)

theorem KeepsTidy.onThrow {x : M (W × Log) α} {fin : M (W × Log) Unit} (hx : KeepsTidy C x) (hf : KeepsTidy C fin) : KeepsTidy C (M.onThrow x fin) := by
  intro m h
  rw [wlp_onThrow]
  exact wlp_mono (hx m h) (fun _ _ h => h) (fun _ m1 h1 => wlp_mono (hf m1 h1) (fun _ _ h => h) (fun _ _ _ => trivial))

theorem KeepsTidy.finally' {x : M (W × Log) α} {fin : M (W × Log) Unit} (hx : KeepsTidy C x) (hf : KeepsTidy C fin) : KeepsTidy C (M.finally' x fin) := by
  intro m h
  refine wlp_finally ?_
  exact wlp_mono (hx m h) (fun _ m1 h1 => hf m1 h1) (fun _ m1 h1 => wlp_mono (hf m1 h1) (fun _ _ h => h) (fun _ _ _ => trivial))

theorem KeepsTidy.tryCatch {x : M (W × Log) α} {f : Exc → M (W × Log) α} (hx : KeepsTidy C x) (hf : ∀ e, KeepsTidy C (f e)) : KeepsTidy C (M.tryCatch x f) := by
  intro m h
  refine wlp_tryCatch ?_
  exact wlp_mono (hx m h) (fun _ _ h => h) (fun e m1 h1 => hf e m1 h1)

theorem KeepsTidy.ite {c : Prop} [Decidable c] {x y : M (W × Log) α} (hx : KeepsTidy C x) (hy : KeepsTidy C y) : KeepsTidy C (if c then x else y) := by
  split
  · exact hx
  · exact hy

/-- Steps that touch only flags and queues. -/
theorem KeepsTidy.flags {f : Mach (W × Log) → Mach (W × Log)} (h1 : ∀ m, (f m).heap = m.heap) (h2 : ∀ m, (f m).slot = m.slot) (h3 : ∀ m, (f m).endIx = m.endIx)
    (h4 : ∀ m, (f m).pOU = m.pOU) (h5 : ∀ m, (f m).world = m.world) (h6 : ∀ m, (f m).trace = m.trace) (h7 : ∀ m, (f m).sh = m.sh) (h8 : ∀ m, (f m).dh = m.dh)
    (h9 : ∀ m, (f m).outermost = m.outermost := by intro; rfl) : KeepsTidy C (M.modify f) :=
  fun m h => h.flags (h1 m) (h2 m) (h3 m) (h4 m) (by rw [h5]) (h6 m) (h7 m) (h8 m) (h9 m)

theorem KeepsTidy.withTrig {x : M (W × Log) α} (ev : Option Event) (hx : KeepsTidy C x) : KeepsTidy C (withTrig ev x) := by
  intro m h
  have := hx { m with trig := ev } (h.flags rfl rfl rfl rfl rfl rfl rfl rfl)
  unfold wlp SC.withTrig at *
  cases hr : x { m with trig := ev } with
  | ok a m' => rw [hr] at this; exact Tidy.flags this rfl rfl rfl rfl rfl rfl rfl rfl
  | thrown e m' => rw [hr] at this; exact Tidy.flags this rfl rfl rfl rfl rfl rfl rfl rfl
  | fault g => trivial

/-- User code that does not construct or destroy. -/
theorem KeepsTidy.user {f : View → W × Log → UOut (W × Log)} {o : Obs} (hf : ∀ v w, ∃ w', (f v w).world = (w', w.2 ++ [(v, o)]))
    (hd : userCall o = true) (hl : leaving o = none) (ha : ∀ act, aliveStep act o = act)
    (hm : making o = none := by rfl) (ht : ∀ t, topStep C t o = t := by intro; rfl) : KeepsTidy C (runUser f [o] [o]) := by
  intro m h
  have htop : m.outermost = topOf C (m.world.2.map (·.2)) := h.top
  have key : ∀ (w : W) (cmds : List Cmd), Tidy C {} ((List.foldl Mach.cmd { m with world := (w, m.world.2 ++ [(m.view, o)]) } cmds).log o) := by
    intro w cmds
    exact h.call (u' := none) (t' := .exact) hd (fun x _ _ => by rw [hl]) (by simp) (fun x => by rw [ha]) (by simp) (by simp)
      (by intro x hx; rw [hm] at hx; cases hx) (by unfold Mach.terminated termSeen; rw [htop, hm])
      (by show m.outermost = _; rw [topOf_snoc, ht, htop]) w cmds
  refine wlp_call (fun v w => ?_) key ?_
  · obtain ⟨w', hw'⟩ := hf v w
    exact ⟨w', by rw [hw']; split <;> rfl⟩
  · intro x w cmds
    exact (key w cmds).flags rfl rfl rfl rfl rfl rfl rfl rfl

section
variable (hw : Watching P) (hwf : P.toChart.WF)
include hw

theorem runAction_keepsTidy (a : Option Nat) : KeepsTidy P.toChart (runAction P a) := by
  cases a with
  | none => exact .pure _
  | some a => exact .user (fun v w => hw.action a v w) rfl rfl (fun _ => rfl)

theorem allocNode_keepsTidy (has : Mach (W × Log) → Bool) (s : Site) : KeepsTidy P.toChart (allocNode P has s) :=
  fun _ h => allocNode_tidy hw has s h
theorem allocate_keepsTidy (s : Site) : KeepsTidy P.toChart (allocate P s) := fun _ h => allocate_tidy hw s h

include hwf

theorem guardTerm_keepsTidy {x : M (W × Log) α} (hx : KeepsTidy P.toChart x) : KeepsTidy P.toChart (guardTerm P x) := by
  intro m h
  have := hx m h
  unfold wlp SC.guardTerm at *
  cases hr : x m with
  | ok a m' => rw [hr] at this; exact this
  | fault g => trivial
  | thrown e m' =>
    rw [hr] at this
    have h2 := terminateMachine_tidy hw hwf false this
    unfold wlp at h2
    simp only
    cases ht : terminateMachine P false m' with
    | ok a m'' => rw [ht] at h2; exact h2
    | thrown _ _ => trivial
    | fault _ => trivial

theorem terminateInTransit_keepsTidy (t : Sid) : KeepsTidy P.toChart (terminateInTransit P t) := by
  unfold terminateInTransit
  refine .bind .get fun m0 => ?_
  refine .bind (fun m h => terminateState_tidy hw hwf _ _ h) fun _ => ?_
  exact .flags (fun _ => rfl) (fun _ => rfl) (fun _ => rfl) (fun _ => rfl) (fun _ => rfl) (fun _ => rfl) (fun _ => rfl) (fun _ => rfl)

omit hw in
theorem outer_not_leaf {s p : Sid} (hs : s < P.n) (h : Outer P.toChart p s) : P.isLeaf p = false := by
  obtain ⟨q, hq, hb⟩ := h
  rcases hb.child with rfl | ⟨c, hc, hcb⟩
  · exact Chart.parent_not_leaf hwf hs hq
  · exact Chart.parent_not_leaf hwf (hcb.bound hwf (Chart.parent_bound hwf hs hq)) hc

omit hw hwf in
theorem checkCtx_keepsTidy (c : Option Sid) : KeepsTidy P.toChart (checkCtx c : M (W × Log) Unit) := by
  unfold checkCtx
  cases c with
  | none => exact .pure _
  | some p => exact .bind (.getObj p) fun _ => .pure _

theorem relaxedExit_keepsTidy {s t : Sid} {c q : Option Sid} (hs : s < P.n) (a : Option Nat) : KeepsTidy P.toChart (relaxedExit P s t c q a) := by
  unfold relaxedExit
  dsimp only
  by_cases h1 : (P.actionCtxs s).idxOf q = 0 ∧ P.isLeaf s = true
  · rw [if_pos h1]
    exact .bind (checkCtx_keepsTidy _) fun _ => .bind (runAction_keepsTidy hw a) fun _ => terminateInTransit_keepsTidy hw hwf t
  · rw [if_neg h1]
    split
    · exact .bind (terminateInTransit_keepsTidy hw hwf t) fun _ => .bind (checkCtx_keepsTidy _) fun _ => runAction_keepsTidy hw a
    · next hlt =>
      cases hr : (P.actionCtxs s).getD (min ((P.actionCtxs s).idxOf q) ((P.ctxList s).idxOf c + 1)) none with
      | none => exact .fault _
      | some r =>
        have hleaf : P.isLeaf r = false := by
          rw [Nat.min_eq_left (by omega)] at hr
          cases hi : (P.actionCtxs s).idxOf q with
          | zero =>
            rw [hi] at hr
            simp only [Chart.actionCtxs, List.getD_cons_zero, Option.some.injEq] at hr
            subst hr
            cases hx : P.isLeaf s with
            | false => rfl
            | true => exact absurd ⟨hi, hx⟩ h1
          | succ i =>
            rw [hi] at hr
            simp only [Chart.actionCtxs, List.getD_cons_succ] at hr
            have hm : some r ∈ P.ctxList s := by
              rw [List.getD_eq_getElem?_getD] at hr
              cases hg : (P.ctxList s)[i]? with
              | none => rw [hg] at hr; cases hr
              | some y => rw [hg] at hr; simp only [Option.getD_some] at hr; subst hr; exact List.mem_of_getElem? hg
            rw [mem_ctxList hwf hs] at hm
            exact outer_not_leaf hwf hs (by simpa using hm)
        simp only
        refine .bind (fun m h => wlp_mono (addRef_tidy h hleaf) (fun _ _ h => h) (fun _ _ h => h.elim)) fun _ => ?_
        refine .bind (.finally' ?_ ?_) fun _ => terminateInTransit_keepsTidy hw hwf t
        · exact .bind (terminateInTransit_keepsTidy hw hwf r) fun _ => .bind (checkCtx_keepsTidy _) fun _ => runAction_keepsTidy hw a
        · exact fun m h => release_tidy hw hwf (by rw [Stage.of_node hleaf]; exact h)

theorem transit_keepsTidy {s : Sid} {d : Target} {a : Option Nat} (hok : P.transitOK s d a = true) : KeepsTidy P.toChart (transit P s d a) := by
  obtain ⟨hs, ht, _⟩ := transitOK_spec hok
  have hd : d.st < P.n := ht.1
  have hcom : ∀ p, P.commonCtx s d.st = some p → P.isLeaf p = false := by
    intro p hp
    have h1 := (commonCtx_spec hwf hs hd).1
    rw [hp] at h1
    rw [mem_ctxList hwf hs] at h1
    exact outer_not_leaf hwf hs (by simpa using h1)
  have hlock : KeepsTidy P.toChart (match P.commonCtx s d.st with
      | none => pure ()
      | some p => addRef p : M (W × Log) Unit) := by
    cases hc : P.commonCtx s d.st with
    | none => exact .pure _
    | some p => exact fun m h => wlp_mono (addRef_tidy h (hcom p hc)) (fun _ _ h => h) (fun _ _ h => h.elim)
  have hunlock : KeepsTidy P.toChart (match P.commonCtx s d.st with
      | none => pure ()
      | some p => release P p : M (W × Log) Unit) := by
    cases hc : P.commonCtx s d.st with
    | none => exact .pure _
    | some p => exact fun m h => release_tidy hw hwf (by rw [Stage.of_node (hcom p hc)]; exact h)
  have hbuild : KeepsTidy P.toChart (build P (buildFuel P) (.chain (P.pathBelow (P.commonCtx s d.st) d.st) d)) :=
    fun m h => build_tidy hw hwf _ _ m ⟨hd, fun x hx => pathBelow_node hwf hd hx⟩ h
  unfold transit
  refine .ite ?_ ?_
  · unfold transitRelaxed
    cases P.termState s d.st with
    | none => exact .fault _
    | some t =>
      simp only
      refine .bind (.getObj t) fun _ => .bind hlock fun _ => .finally' ?_ hunlock
      exact .bind (relaxedExit_keepsTidy hw hwf hs a) fun _ => hbuild
  · unfold transitDefault
    cases P.termState s d.st with
    | none => exact .fault _
    | some t =>
      simp only
      refine .bind (.getObj t) fun _ => .bind hlock fun _ => .finally' ?_ hunlock
      refine .bind .get fun m0 => .bind (fun m h => terminateState_tidy hw hwf _ _ h) fun _ => ?_
      refine .bind (.flags (fun _ => rfl) (fun _ => rfl) (fun _ => rfl) (fun _ => rfl) (fun _ => rfl) (fun _ => rfl) (fun _ => rfl) (fun _ => rfl)) fun _ => ?_
      exact .bind (checkCtx_keepsTidy _) fun _ => .bind (runAction_keepsTidy hw a) fun _ => hbuild

theorem terminateReaction_keepsTidy (s : Sid) : KeepsTidy P.toChart (terminateReaction P s) := by
  unfold terminateReaction
  refine .bind .get fun m0 => ?_
  refine .bind (fun m h => terminateState_tidy hw hwf _ _ h) fun _ => ?_
  exact fun m h => wlp_mono (setOU_tidy h (fun p hp => by cases hp)) (fun _ _ h => h) (fun _ _ h => h.elim)

omit hw hwf in
theorem deferEvent_keepsTidy (s : Sid) : KeepsTidy P.toChart (deferEvent s : M (W × Log) Unit) := by
  intro m h
  unfold deferEvent
  rw [wlp_bind]
  refine wlp_getObj fun o ho => ?_
  split
  · rw [wlp_modify]
    have h1 := h.upd' (s := s) (o' := { o with deferred := true }) (rcs' := fun _ => 1) (nc' := none) ho rfl (fun _ _ _ => rfl)
      (fun hl => show o.rc = _ from h.rcl ho hl) (fun _ _ h => h) (fun hn => show o.ctxSet = true from h.ctx ho hn) (.inl rfl)
    refine Tidy.same h1 rfl rfl rfl (fun _ => h.ou) rfl ?_ (fun _ _ => h.sh) (fun _ _ => h.dh)
    show (m.trace ++ [(m.trig, Obs.defer s)]).filter (fun x => userCall x.2) = m.trace.filter (fun x => userCall x.2)
    rw [List.filter_append]
    simp [userCall]
  · trivial

variable (hok : Contract P)
include hok

theorem customReact_keepsTidy (s : Sid) (id : Nat) (e : Event) : KeepsTidy P.toChart (customReact P s id e) := by
  unfold customReact
  intro m h
  rw [wlp_bind, wlp_get]
  have hd : ∀ dest a, (P.react s id e m.view m.world).2 = .transit dest a → P.transitOK s dest a = true := fun dest a hd => hok.react s id e _ _ dest a hd
  refine KeepsTidy.bind (.user (fun v w => hw.react s id e v w) rfl rfl (fun _ => rfl)) (fun _ => ?_) m h
  generalize (P.react s id e m.view m.world).2 = d at hd
  cases d with
  | discard => exact .pure _
  | forward => exact .pure _
  | defer => exact .bind (deferEvent_keepsTidy s) fun _ => .pure _
  | transit dest a => exact .bind (transit_keepsTidy hw hwf (hd dest a rfl)) fun _ => .pure _
  | terminate => exact .bind (terminateReaction_keepsTidy hw hwf s) fun _ => .pure _

theorem reactOne_keepsTidy {s : Sid} (hs : s < P.n) (e : Event) {r : Reaction} (hr : r ∈ P.reactions s) : KeepsTidy P.toChart (reactOne P s e r) := by
  unfold reactOne
  refine .ite ?_ (.pure _)
  cases hk : r.kind with
  | transition d a => exact .bind (transit_keepsTidy hw hwf (hwf.trans_ok hs hr hk)) fun _ => .pure _
  | inState a => exact .bind (runAction_keepsTidy hw a) fun _ => .pure _
  | termination => exact .bind (terminateReaction_keepsTidy hw hwf s) fun _ => .pure _
  | deferral => exact .bind (deferEvent_keepsTidy s) fun _ => .pure _
  | custom id => exact customReact_keepsTidy hw hwf hok s id e

theorem localReact_keepsTidy {s : Sid} (hs : s < P.n) (e : Event) : ∀ l, (∀ r ∈ l, r ∈ P.reactions s) → KeepsTidy P.toChart (localReact P s e l) := by
  intro l
  induction l with
  | nil => intro _; exact .pure _
  | cons r rs ih =>
    intro hl
    rw [localReact]
    refine .bind (reactOne_keepsTidy hw hwf hok hs e (hl r List.mem_cons_self)) fun x => ?_
    exact .ite (ih fun r hr => hl r (List.mem_cons_of_mem _ hr)) (.pure _)

theorem reactF_keepsTidy (e : Event) : ∀ f s, KeepsTidy P.toChart (reactF P f s e) := by
  intro f
  induction f with
  | zero => intro _; exact .fault _
  | succ f ih =>
    intro s m h
    rw [reactF, wlp_bind]
    refine wlp_getObj fun o ho => ?_
    refine KeepsTidy.bind (localReact_keepsTidy hw hwf hok (h.bound ho) e _ (fun _ h => h)) (fun x => ?_) m h
    refine .ite (.bind (.getObj s) fun o' => .ite ?_ (.fault _)) (.pure _)
    cases P.parent s with
    | none => exact .pure _
    | some p => exact ih p

theorem handleException_keepsTidy (cur : Option Sid) (ev : Event) (x : Exc) : KeepsTidy P.toChart (handleException P cur ev x) := by
  unfold handleException
  refine .bind .get fun m0 => .ite (.throw x) ?_
  cases m0.handler cur with
  | none => exact .fault _
  | some h =>
    refine .withTrig _ ?_
    refine .bind (.flags (fun _ => rfl) (fun _ => rfl) (fun _ => rfl) (fun _ => rfl) (fun _ => rfl) (fun _ => rfl) (fun _ => rfl) (fun _ => rfl)) fun _ => ?_
    refine .bind (reactF_keepsTidy hw hwf hok ev _ h) fun r => ?_
    refine .bind (.flags (fun _ => rfl) (fun _ => rfl) (fun _ => rfl) (fun _ => rfl) (fun _ => rfl) (fun _ => rfl) (fun _ => rfl) (fun _ => rfl)) fun _ => ?_
    exact .bind .get fun m1 => .ite (.throw x) (.pure _)

theorem translated_keepsTidy (cur : Option Sid) {x : M (W × Log) RR} (hx : KeepsTidy P.toChart x) : KeepsTidy P.toChart (translated P cur x) := by
  unfold translated
  refine .tryCatch hx fun e => ?_
  cases P.translate e with
  | none => exact .throw e
  | some ev => exact handleException_keepsTidy hw hwf hok cur ev e

theorem sendLoop_keepsTidy (e : Event) : ∀ f i, KeepsTidy P.toChart (sendLoop P e f i) := by
  intro f
  induction f with
  | zero => intro _; exact .fault _
  | succ f ih =>
    intro i
    rw [sendLoop]
    refine .bind .get fun m0 => .ite (.pure _) ?_
    cases m0.slot i with
    | none => exact .fault _
    | some s =>
      refine .bind (translated_keepsTidy hw hwf hok (some s) (reactF_keepsTidy hw hwf hok e _ s)) fun r => ?_
      exact .ite (ih (i + 1)) (.pure _)

theorem sendEvent_keepsTidy (e : Event) : KeepsTidy P.toChart (sendEvent P e) := by
  unfold sendEvent
  refine .withTrig _ ?_
  refine .bind (guardTerm_keepsTidy hw hwf ?_) fun r => ?_
  · exact .bind .get fun m0 => .ite (.fault _) (sendLoop_keepsTidy hw hwf hok e _ _)
  · refine .bind (.ite (.user (fun v w => hw.unconsumed e v w) rfl rfl (fun _ => rfl)) (.pure _)) fun _ => .pure _

omit hw hwf hok in
theorem qop_keepsTidy (o : QOp) : KeepsTidy P.toChart (qop o : M (W × Log) Unit) :=
  .flags (fun _ => rfl) (fun _ => rfl) (fun _ => rfl) (fun _ => rfl) (fun _ => rfl) (fun _ => rfl) (fun _ => rfl) (fun _ => rfl)

theorem dispatch_keepsTidy (e : Event) : KeepsTidy P.toChart (dispatch P e) := by
  unfold dispatch
  refine .bind (.onThrow (sendEvent_keepsTidy hw hwf hok e) (qop_keepsTidy _)) fun r => ?_
  refine .ite (.bind (.onThrow (allocate_keepsTidy hw _) (qop_keepsTidy _)) fun _ => ?_) (qop_keepsTidy _)
  exact .flags (fun _ => rfl) (fun _ => rfl) (fun _ => rfl) (fun _ => rfl) (fun _ => rfl) (fun _ => rfl) (fun _ => rfl) (fun _ => rfl)

theorem processQueued_keepsTidy : ∀ k, KeepsTidy P.toChart (processQueued P k) := by
  intro k
  induction k with
  | zero => exact .bind .get fun _ => .pure _
  | succ k ih =>
    rw [processQueued]
    refine .bind .get fun m0 => ?_
    cases m0.evq with
    | nil => exact .pure _
    | cons e q =>
      refine .bind ?_ fun _ => .bind (dispatch_keepsTidy hw hwf hok e) fun _ => ih
      exact .flags (fun _ => rfl) (fun _ => rfl) (fun _ => rfl) (fun _ => rfl) (fun _ => rfl) (fun _ => rfl) (fun _ => rfl) (fun _ => rfl)

theorem terminate_keepsTidy : KeepsTidy P.toChart (SC.terminate P) := by
  unfold SC.terminate
  refine .bind (.withTrig _ (guardTerm_keepsTidy hw hwf (translated_keepsTidy hw hwf hok none ?_))) fun _ => .pure _
  exact .bind (fun m h => terminateMachine_tidy hw hwf true h) fun _ => .pure _

theorem call_keepsTidy (c : Call) : KeepsTidy P.toChart (c.run P) := by
  have hcmd : ∀ c : Cmd, KeepsTidy P.toChart (M.modify fun m : Mach (W × Log) => m.cmd c) := fun c m h => cmds_tidy h [c]
  cases c with
  | initiate k =>
    refine .bind (terminate_keepsTidy hw hwf hok) fun _ => ?_
    unfold construct
    refine .bind (.withTrig _ (guardTerm_keepsTidy hw hwf (translated_keepsTidy hw hwf hok none ?_))) fun _ => processQueued_keepsTidy hw hwf hok k
    exact .bind (fun m h => build_tidy hw hwf _ _ m hwf.initial_ok.1 h) fun _ => .pure _
  | terminate => exact .bind (terminate_keepsTidy hw hwf hok) fun _ => .pure _
  | process e k => exact .bind (qop_keepsTidy _) fun _ => .bind (dispatch_keepsTidy hw hwf hok e) fun _ => processQueued_keepsTidy hw hwf hok k
  | post e => exact .bind (.bind (allocate_keepsTidy hw _) fun _ => hcmd _) fun _ => .pure _
  | clearShallow k => exact .bind (.bind (allocNode_keepsTidy hw _ _) fun _ => hcmd _) fun _ => .pure _
  | clearDeep k => exact .bind (.bind (allocNode_keepsTidy hw _ _) fun _ => hcmd _) fun _ => .pure _

end

theorem tidy_fresh (C : Chart) (w : W) : Tidy C {} (Mach.fresh (w, []) : Mach (W × Log)) := by
  constructor
  case live => intro s; simp [Mach.fresh, alive]
  case logged => rfl
  case top => rfl
  case seen =>
    intro pre v o post h
    exact absurd h.symm (by simp [Mach.fresh])
  all_goals simp [Mach.fresh]

theorem Watched.tidy {P : Prog W} (hwf : P.toChart.WF) (hok : Contract P) (h : Watched P m) : Tidy P.toChart {} m := by
  induction h with
  | fresh w => exact tidy_fresh _ w
  | @returns c m m' _ _ hr ih =>
    have := call_keepsTidy P.watch_watching hwf hok.watch c m ih
    unfold wlp at this; rw [hr] at this; exact this
  | @throws c x m m' _ _ hr ih =>
    have := call_keepsTidy P.watch_watching hwf hok.watch c m ih
    unfold wlp at this; rw [hr] at this; exact this
  | world w _ ih => exact Tidy.flags ih rfl rfl rfl rfl rfl rfl rfl rfl

end SC
