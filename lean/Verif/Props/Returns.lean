import Verif.Props.Queues
import Verif.Example
/-!
# `process_event` and `initiate` return (C43)

`processEvent P e k` is `process_event(e)`, stopped after `k` queued events; it returns `false` iff the queue is not empty then, i.e. iff the C++
function is still running. -/

namespace SC.Spec
open SC

/-- No function of the user posts an event. -/
structure Mute (P : Prog W) : Prop where
  ctor : ∀ s v w e, Cmd.post e ∉ (P.ctor s v w).cmds
  exit : ∀ s v w e, Cmd.post e ∉ (P.exit s v w).cmds
  dtor : ∀ s v w e, Cmd.post e ∉ (P.dtor s v w).2
  action : ∀ a v w e, Cmd.post e ∉ (P.action a v w).cmds
  react : ∀ s i x v w e, Cmd.post e ∉ (P.react s i x v w).1.cmds
  unconsumed : ∀ x v w e, Cmd.post e ∉ (P.unconsumed x v w).cmds

end SC.Spec

namespace SC
open Spec Chart
variable {W : Type} {P : Prog W} {m m' m1 : Mach W}

/-! ## Arithmetic -/

/-- With `t` events around, `c` of which are pending or will be posted: the number of turns, times 2, plus what is left afterwards. -/
theorem Spec.Turns.bound {es : List Event} {past tr : List Obs} {q d ps q' d' : List Event} (h : Turns es past q d tr ps q' d') :
    2 * es.length + ((q'.length + d'.length) * (q'.length + d'.length) + 2 * q'.length + (q.length + d.length + ps.length)) ≤
      (q.length + d.length + ps.length) * (q.length + d.length + ps.length) + 2 * (q.length + ps.length) + (q'.length + d'.length) := by
  induction h with
  | nil => simp
  | @cons e es past now rest q d q1 d1 q' d' ps ps' h1 _ ih =>
    have key : ∀ t c t1 c1 : Nat, t = q.length + 1 + d.length + (ps.length + ps'.length) → c = q.length + 1 + (ps.length + ps'.length) →
        t1 = q1.length + d1.length + ps'.length → c1 = q1.length + ps'.length →
        2 + (t1 * t1 + 2 * c1 + t) ≤ t * t + 2 * c + t1 := by
      intro t c t1 c1 ht hc ht1 hc1
      cases h1 with
      | deferred =>
        simp only [List.length_append, List.length_cons, List.length_nil] at ht1 hc1
        have : t1 = t := by omega
        subst this; omega
      | released =>
        simp only [List.length_append, List.length_nil] at ht1 hc1
        obtain rfl : t = t1 + 1 := by omega
        have : (t1 + 1) * (t1 + 1) = t1 * t1 + 2 * t1 + 1 := by rw [Nat.add_mul, Nat.mul_add]; omega
        omega
      | plain =>
        simp only [List.length_append] at ht1 hc1
        obtain rfl : t = t1 + 1 := by omega
        have : (t1 + 1) * (t1 + 1) = t1 * t1 + 2 * t1 + 1 := by rw [Nat.add_mul, Nat.mul_add]; omega
        omega
    have := key _ _ _ _ rfl rfl rfl rfl
    simp only [List.length_cons, List.length_append]
    omega

theorem Spec.Turns.bound' {es : List Event} {past tr : List Obs} {q d ps q' d' : List Event} (h : Turns es past q d tr ps q' d') (n : Nat)
    (hn : n = q.length + d.length + ps.length) : 2 * (es.length + q'.length) ≤ n * (n + 1) := by
  have := h.bound
  rw [← hn] at this
  have h2 : q'.length + d'.length ≤ (q'.length + d'.length) * (q'.length + d'.length) := Nat.le_mul_self _
  rw [show n * (n + 1) = n * n + n from Nat.mul_succ n n]
  omega

/-- The number of events in the queues grows by the events posted and received only. -/
theorem step_size {q q' : Queues} {o : QOp} (h : q.step o = some q') :
    q'.inside.length ≤ q.inside.length + ((posts [o]).length + (recvs [o]).length) := by
  cases o <;> simp only [Queues.step] at h
  case pop e =>
    split at h
    · cases h
    · next x rest hp =>
      split at h
      · next hc => cases h; simp [Queues.inside, hp, hc.1]; omega
      · cases h
  all_goals first
    | (split at h <;> first | (cases h; simp_all [Queues.inside, posts, recvs]; done) | (cases h; simp_all [Queues.inside, posts, recvs]; omega) | cases h)
    | (cases h; simp_all [Queues.inside, posts, recvs]; done)
    | (cases h; simp_all [Queues.inside, posts, recvs]; omega)

theorem run_size : ∀ {ops : List QOp} {q q' : Queues}, q.run ops = some q' →
    q'.inside.length ≤ q.inside.length + ((posts ops).length + (recvs ops).length)
  | [], q, q', h => by rw [run_nil] at h; cases h; exact Nat.le_add_right _ _
  | o :: ops, q, q', h => by
    rw [run_cons] at h
    cases h1 : q.step o with
    | none => rw [h1] at h; cases h
    | some q1 =>
      rw [h1] at h
      have a := step_size h1
      have b := run_size (ops := ops) (q := q1) h
      have c : (posts (o :: ops)).length = (posts [o]).length + (posts ops).length := by
        rw [show o :: ops = [o] ++ ops from rfl, posts_append, List.length_append]
      have d : (recvs (o :: ops)).length = (recvs [o]).length + (recvs ops).length := by
        rw [show o :: ops = [o] ++ ops from rfl]; unfold recvs; rw [List.filterMap_append, List.length_append]
      omega

/-! ## The loop -/

theorem pops_append (a b : List QOp) : pops (a ++ b) = pops a ++ pops b := List.filterMap_append

/-- If the loop was stopped, it took `k` events from the queue. -/
theorem processQueued_false : ∀ (k : Nat) (m m' : Mach W), Early m → processQueued P k m = .ok false m' →
    m'.evq ≠ [] ∧ ∃ ops, m'.qlog = m.qlog ++ ops ∧ (pops ops).length = k ∧ recvs ops = []
  | 0, m, m', _, h => by
    unfold processQueued at h
    change Res.ok m.evq.isEmpty m = .ok false m' at h
    cases hq : m.evq with
    | nil => rw [hq] at h; cases h
    | cons e q => rw [hq] at h; cases h; exact ⟨by rw [hq]; simp, [], by simp, rfl, rfl⟩
  | k + 1, m, m', he, h => by
    unfold processQueued at h
    change (match m.evq with
      | [] => pure true
      | e :: q => M.bnd (M.modify fun m => { m with evq := q, qlog := m.qlog ++ [.pop e] }) fun _ => M.bnd (dispatch P e) fun _ => processQueued P k : M W Bool) m =
        .ok false m' at h
    cases hq : m.evq with
    | nil => rw [hq] at h; cases h
    | cons e q =>
      rw [hq] at h
      simp only [M.bnd, M.modify] at h
      cases hd : dispatch P e { m with evq := q, qlog := m.qlog ++ [.pop e] } with
      | fault g => rw [hd] at h; cases h
      | thrown x m1 => rw [hd] at h; cases h
      | ok u m1 =>
        rw [hd] at h
        simp only at h
        have he0 : Early { m with evq := q, qlog := m.qlog ++ [.pop e] } := he
        obtain ⟨o1, i1, i2, i3⟩ := wlp_ok (dispatch_ops (P := P) e he0) hd
        have he1 : Early m1 := (((relPrims P).dispatch (fun _ _ _ _ ho => relrel_turn ho) e).ok hd he0).1
        obtain ⟨k1, o2, k2, k3, k4⟩ := processQueued_false k m1 m' he1 h
        refine ⟨k1, .pop e :: (o1 ++ o2), by rw [k2, i1]; simp, ?_, ?_⟩
        · have : pops (.pop e :: (o1 ++ o2)) = e :: (pops o1 ++ pops o2) := congrArg (e :: ·) List.filterMap_append
          rw [this, i2]; simp [k3]
        · have : recvs (.pop e :: (o1 ++ o2)) = recvs o1 ++ recvs o2 := List.filterMap_append
          rw [this, i3, k4]; rfl

/-- Once the loop has ended, more iterations make no difference. -/
theorem processQueued_mono : ∀ (k k' : Nat) (m : Mach W), k ≤ k' → (∀ m', processQueued P k m ≠ .ok false m') → processQueued P k' m = processQueued P k m
  | 0, 0, _, _, _ => rfl
  | 0, k' + 1, m, _, h => by
    unfold processQueued at h ⊢
    change (match m.evq with
      | [] => pure true
      | e :: q => M.bnd (M.modify fun m => { m with evq := q, qlog := m.qlog ++ [.pop e] }) fun _ => M.bnd (dispatch P e) fun _ => processQueued P k' : M W Bool) m =
        Res.ok m.evq.isEmpty m
    change ∀ m', Res.ok m.evq.isEmpty m ≠ .ok false m' at h
    cases hq : m.evq with
    | nil => rfl
    | cons e q => rw [hq] at h; exact absurd rfl (h m)
  | k + 1, 0, _, hk, _ => absurd hk (by omega)
  | k + 1, k' + 1, m, hk, h => by
    unfold processQueued at h ⊢
    have hb : ∀ k, (match m.evq with
      | [] => pure true
      | e :: q => do
        M.modify fun m => { m with evq := q, qlog := m.qlog ++ [.pop e] }
        dispatch P e
        processQueued P k : M W Bool) m =
      (match m.evq with
        | [] => .ok true m
        | e :: q => M.bnd (dispatch P e) (fun _ => processQueued P k) { m with evq := q, qlog := m.qlog ++ [.pop e] }) := by
      intro k
      cases m.evq <;> rfl
    change ∀ m', (match m.evq with
      | [] => pure true
      | e :: q => do
        M.modify fun m => { m with evq := q, qlog := m.qlog ++ [.pop e] }
        dispatch P e
        processQueued P k : M W Bool) m ≠ _ at h
    rw [hb] at h
    refine (hb k').trans (Eq.trans ?_ (hb k).symm)
    cases hq : m.evq with
    | nil => rfl
    | cons e q =>
      rw [hq] at h
      simp only [M.bnd] at h ⊢
      cases hd : dispatch P e { m with evq := q, qlog := m.qlog ++ [.pop e] } with
      | fault g => rfl
      | thrown x m1 => rfl
      | ok u m1 =>
        rw [hd] at h
        exact processQueued_mono k k' m1 (by omega) h

/-! ## Functions that post nothing -/

/-- Nothing was posted. -/
def muteK : KRel W where
  R m m' := posts m'.qlog = posts m.qlog
  E _ m m' := posts m'.qlog = posts m.qlog
  refl _ := rfl
  trans h1 h2 := h2.trans h1
  re h1 h2 := h2.trans h1
  er h1 h2 := h2.trans h1

theorem posts_snoc (l : List QOp) (o : QOp) (h : ∀ e, o ≠ .post e) : posts (l ++ [o]) = posts l := by
  rw [posts_append]
  cases o <;> first | exact List.append_nil _ | exact absurd rfl (h _)

theorem mute_cmds : ∀ (l : List Cmd), (∀ e, Cmd.post e ∉ l) → ∀ m : Mach W, (l.foldl Mach.cmd m).qlog = m.qlog
  | [], _, _ => rfl
  | c :: l, h, m => by
    rw [List.foldl_cons, mute_cmds l fun e he => h e (List.mem_cons_of_mem _ he)]
    cases c with
    | post e => exact absurd List.mem_cons_self (h e)
    | clearShallow k => rfl
    | clearDeep k => rfl

theorem mute_logs : ∀ (l : List Obs) (m : Mach W), (l.foldl Mach.log m).qlog = m.qlog
  | [], _ => rfl
  | _ :: l, m => mute_logs l _

theorem keeps_runUser_mute {f : View → W → UOut W} {a b : List Obs} (h : ∀ v w e, Cmd.post e ∉ (f v w).cmds) : Keeps muteK (runUser f a b) := by
  intro m
  unfold KeepsAt runUser
  simp only
  have hq := mute_cmds _ (h m.view m.world) { m with world := (f m.view m.world).world }
  cases (f m.view m.world).throws with
  | none => exact congrArg posts ((mute_logs _ _).trans hq)
  | some x => exact congrArg posts ((mute_logs _ _).trans hq)

theorem muteCore (h : Mute P) : RPrims muteK P := CorePrims.rprims {
    core := fun h => congrArg posts h.qlog
    raise := fun _ _ => rfl
    ctor := fun s m => by
      have := keeps_runUser_mute (f := P.ctor s) (a := [.enter s]) (b := [.enterFail s]) (h.ctor s) m
      unfold KeepsAt runCtor
      by_cases hc : P.isSimple s = true ∧ (P.ctor s m.view m.world).cmds ≠ []
      · simp [hc]
      · rw [if_neg hc]; exact this
    dtor := fun s m => congrArg posts (mute_cmds _ (h.dtor s m.view m.world) _)
    action := fun a => by
      cases a with
      | none => exact Keeps.pure _
      | some a => exact keeps_runUser_mute (h.action a)
    react := fun s i e => keeps_runUser_mute (h.react s i e)
    relEv := fun s m => posts_snoc _ _ (by simp)
    hold := fun s m => posts_snoc _ _ (by simp) }

theorem mutePrims (h : Mute P) : AllPrims muteK P where
  toRPrims := muteCore h
  er h := h
  re' h := h
  loose h := congrArg posts h.qlog
  fullExit := (muteCore h).toPrims.fullExit (fun m l => rfl) (fun m f _ => rfl) (fun m f _ => rfl) fun s => keeps_runUser_mute (h.exit s)
  unconsumed e := keeps_runUser_mute (h.unconsumed e)
  clear := fun m => posts_snoc _ _ (by simp)

theorem mute_turn (m : Mach W) (q d : List Event) (o : QOp) (h : o.isTurn = true) : muteK.R m { m with evq := q, dq := d, qlog := m.qlog ++ [o] } :=
  posts_snoc _ _ (by cases o <;> first | (intro e; simp; done) | cases h)

theorem mute_processEvent (h : Mute P) (e : Event) (k : Nat) : Keeps muteK (processEvent P e k) :=
  Keeps.bind (Keeps.modify fun m => mute_turn m m.evq m.dq _ rfl) fun _ =>
    Keeps.bind ((mutePrims h).dispatch mute_turn e) fun _ => (mutePrims h).processQueued mute_turn k

theorem mute_initiate (h : Mute P) (k : Nat) : Keeps muteK (initiate P k) :=
  Keeps.bind (mutePrims h).terminate fun _ => Keeps.bind
    ((mutePrims h).withTrig _ ((mutePrims h).guardTerm ((mutePrims h).translated _ (mutePrims h).initBody))) fun _ => (mutePrims h).processQueued mute_turn k

/-! ## C43 -/

/-- **C43.** Once `process_event`/`initiate` has returned or thrown, the bound on the number of queued events does not matter. -/
theorem C43_limit {e : Event} {k k' : Nat} (hk : k ≤ k') (h : ∀ m', processEvent P e k m ≠ .ok false m') :
    processEvent P e k' m = processEvent P e k m := by
  unfold processEvent at h ⊢
  change ∀ m', M.bnd (dispatch P e) (fun _ => processQueued P k) (m.qop (.recv e)) ≠ _ at h
  change M.bnd (dispatch P e) (fun _ => processQueued P k') (m.qop (.recv e)) = M.bnd (dispatch P e) (fun _ => processQueued P k) (m.qop (.recv e))
  unfold M.bnd at h ⊢
  cases hd : dispatch P e (m.qop (.recv e)) with
  | fault g => rfl
  | thrown x m1 => rfl
  | ok u m1 =>
    rw [hd] at h
    exact processQueued_mono k k' m1 hk h

theorem construct_bnd (k : Nat) (m : Mach W) : initiate P k m = M.bnd (M.bnd (terminate P) fun _ =>
    withTrig none (guardTerm P (translated P none (initBody P)))) (fun _ => processQueued P k) m := by
  show M.bnd (terminate P) (fun _ => M.bnd _ fun _ => processQueued P k) m = _
  unfold M.bnd
  cases terminate P m <;> rfl

theorem C43_limit_initiate {k k' : Nat} (hk : k ≤ k') (h : ∀ m', initiate P k m ≠ .ok false m') : initiate P k' m = initiate P k m := by
  rw [construct_bnd] at h
  rw [construct_bnd, construct_bnd]
  generalize M.bnd (terminate P) (fun _ => withTrig none (guardTerm P (translated P none (initBody P)))) = x at h ⊢
  unfold M.bnd at h ⊢
  cases hx : x m with
  | fault g => rfl
  | thrown x m1 => rfl
  | ok u m1 =>
    rw [hx] at h
    exact processQueued_mono k k' m1 hk h

section
variable (hwf : P.toChart.WF) (hok : Contract P)
include hwf hok

/-- **C43.** With `n` the number of events that were in the machine or came into it (`e`, pending, deferred, and posted meanwhile), `process_event`
dispatches no more than `n (n + 1) / 2` events; if it has dispatched `k + 1` events and has not returned, `k + 2` is no more than that. -/
theorem C43_process_event {e : Event} {k : Nat} {b : Bool} (h : Reach P m) (hr : processEvent P e k m = .ok b m') :
    ∃ ops, m'.qlog = m.qlog ++ ops ∧ ∀ n, n = 1 + m.evq.length + m.dq.length + (posts ops).length →
      2 * (1 + (pops ops).length) ≤ n * (n + 1) ∧ (b = false → 2 * (k + 2) ≤ n * (n + 1)) := by
  obtain ⟨es, tr, ops, h1, h2, h3, h4, h5, h6⟩ := C21_process_event hwf hok h hr
  refine ⟨ops, h2, fun n hn => ?_⟩
  have hb := h5.bound' n (by rw [hn]; simp only [List.length_cons]; omega)
  simp only [List.length_cons] at hb
  refine ⟨by rw [h4]; omega, fun hf => ?_⟩
  subst hf
  have hr' := hr
  unfold processEvent at hr'
  change M.bnd (dispatch P e) (fun _ => processQueued P k) (m.qop (.recv e)) = _ at hr'
  unfold M.bnd at hr'
  cases hd : dispatch P e (m.qop (.recv e)) with
  | fault g => rw [hd] at hr'; cases hr'
  | thrown x m1 => rw [hd] at hr'; cases hr'
  | ok u m1 =>
    rw [hd] at hr'
    simp only at hr'
    have he : Early m := h.logged.early
    have he0 : Early (m.qop (.recv e)) := he
    obtain ⟨o1, i1, i2, i3⟩ := wlp_ok (dispatch_ops (P := P) e he0) hd
    have he1 : Early m1 := (((relPrims P).dispatch (fun _ _ _ _ ho => relrel_turn ho) e).ok hd he0).1
    obtain ⟨k1, o2, k2, k3, _⟩ := processQueued_false k m1 m' he1 hr'
    have : ops = .recv e :: (o1 ++ o2) := by
      have : m.qlog ++ ops = m.qlog ++ (.recv e :: (o1 ++ o2)) := by rw [← h2, k2, i1]; simp [Mach.qop]
      exact List.append_cancel_left this
    have hes : es.length = k := by
      rw [← h4, this]
      have : pops (.recv e :: (o1 ++ o2)) = pops o1 ++ pops o2 := List.filterMap_append
      rw [this, i2]; exact k3
    have : 0 < m'.evq.length := List.length_pos_iff.2 k1
    omega

/-- **C43.** The same of `initiate()`. -/
theorem C43_initiate {k : Nat} {b : Bool} (h : Reach P m) (hl : (Call.initiate k).legal P m) (hr : initiate P k m = .ok b m') :
    ∃ ops, m'.qlog = m.qlog ++ ops ∧ ∀ n, n = m.evq.length + m.dq.length + (posts ops).length →
      2 * (pops ops).length ≤ n * (n + 1) ∧ (b = false → 2 * (k + 1) ≤ n * (n + 1)) := by
  -- the machine when the loop begins
  have hr' := hr
  rw [construct_bnd] at hr'
  have h0 := construct_bnd (P := P) 0 m
  generalize hx : M.bnd (terminate P) (fun _ => withTrig none (guardTerm P (translated P none (initBody P)))) = x at hr' h0
  unfold M.bnd at hr' h0
  cases hd : x m with
  | fault g => rw [hd] at hr'; cases hr'
  | thrown y m1 => rw [hd] at hr'; cases hr'
  | ok u m1 =>
    rw [hd] at hr' h0
    simp only at hr' h0
    have hk : Keeps queueK x := by
      rw [← hx]
      exact Keeps.bind (queuePrims P).terminate fun _ =>
        (queuePrims P).withTrig _ ((queuePrims P).guardTerm ((queuePrims P).translated _ (queuePrims P).initBody))
    obtain ⟨he1, o1, g1, g2, g3⟩ := hk.ok hd h.logged.early
    have hv : Visible P m1 := by
      cases hq : m1.evq.isEmpty with
      | true =>
        refine .inl (.returns (c := .initiate 0) h hl ?_)
        show initiate P 0 m = _
        rw [h0]; unfold processQueued; change Res.ok m1.evq.isEmpty m1 = _; rw [hq]
      | false =>
        refine .inr ⟨m, .initiate 0, h, hl, ?_⟩
        show initiate P 0 m = _
        rw [h0]; unfold processQueued; change Res.ok m1.evq.isEmpty m1 = _; rw [hq]
    obtain ⟨_, _, _, es, _, hruns⟩ := wp_ok (processQueued_wp hwf hok (userMem_forget P) k m1 (hv.stable hwf hok).1) hr'
    obtain ⟨tr, o2, k1, k2, k3⟩ := hruns.turns hwf hok hv.holds.2
    obtain ⟨o2', j1, j2, j3⟩ := hruns.pops
    have : o2' = o2 := List.append_cancel_left (j1.symm.trans k2)
    subst this
    refine ⟨o1 ++ o2', by rw [k2, g1, List.append_assoc], fun n hn => ?_⟩
    have hsz := run_size (g3 none)
    have hrec : recvs o1 = [] := by
      have : ∀ l : List QOp, (∀ o ∈ l, o.isInner = true) → recvs l = [] ∧ pops l = [] := by
        intro l
        induction l with
        | nil => intro _; exact ⟨rfl, rfl⟩
        | cons o l ih =>
          intro hl
          obtain ⟨q1, q2⟩ := ih fun o ho => hl o (List.mem_cons_of_mem _ ho)
          have := hl o List.mem_cons_self
          cases o <;> first | exact ⟨q1, q2⟩ | cases this
      exact (this o1 g2).1
    have hpop : pops o1 = [] := by
      have : ∀ l : List QOp, (∀ o ∈ l, o.isInner = true) → pops l = [] := by
        intro l
        induction l with
        | nil => intro _; rfl
        | cons o l ih =>
          intro hl
          have q2 := ih fun o ho => hl o (List.mem_cons_of_mem _ ho)
          have := hl o List.mem_cons_self
          cases o <;> first | exact q2 | cases this
      exact this o1 g2
    rw [hrec] at hsz
    simp only [Queues.inside, Mach.queues, List.length_append, List.length_nil, Option.toList_none, Nat.zero_add, Nat.add_zero] at hsz
    rw [posts_append, List.length_append] at hn
    have hb := k3.bound' _ rfl
    have hmono : (m1.evq.length + m1.dq.length + (posts o2').length) * (m1.evq.length + m1.dq.length + (posts o2').length + 1) ≤ n * (n + 1) :=
      Nat.mul_le_mul (by omega) (by omega)
    have hpp : (pops (o1 ++ o2')).length = es.length := by rw [pops_append, hpop, j2]; rfl
    refine ⟨by omega, fun hf => ?_⟩
    subst hf
    obtain ⟨k1, o3, k4, k5, _⟩ := processQueued_false k m1 m' he1 hr'
    have : o3 = o2' := List.append_cancel_left (k4.symm.trans k2)
    subst this
    have : es.length = k := by rw [← j2]; exact k5
    have : 0 < m'.evq.length := List.length_pos_iff.2 k1
    omega

/-- **C43.** If `process_event` never returns, the functions of the user post events without end. -/
theorem C43_forever {e : Event} (h : Reach P m) (hr : ∀ k, ∃ m', processEvent P e k m = .ok false m') (N : Nat) :
    ∃ k m' ops, processEvent P e k m = .ok false m' ∧ m'.qlog = m.qlog ++ ops ∧ N ≤ (posts ops).length := by
  obtain ⟨m', hm⟩ := hr ((1 + m.evq.length + m.dq.length + N) * (1 + m.evq.length + m.dq.length + N + 1))
  obtain ⟨ops, h1, h2⟩ := C43_process_event hwf hok h hm
  refine ⟨_, m', ops, hm, h1, ?_⟩
  have h3 := (h2 _ rfl).2 rfl
  refine Nat.le_of_not_lt fun hlt => ?_
  have : (1 + m.evq.length + m.dq.length + (posts ops).length) * (1 + m.evq.length + m.dq.length + (posts ops).length + 1) ≤
    (1 + m.evq.length + m.dq.length + N) * (1 + m.evq.length + m.dq.length + N + 1) := Nat.mul_le_mul (by omega) (by omega)
  omega

/-- **C43.** If no function of the user posts events, `process_event` ends: it returns or throws. -/
theorem C43_returns {e : Event} {k n : Nat} (hp : Mute P) (h : Reach P m) (hn : n = 1 + m.evq.length + m.dq.length) (hk : n * (n + 1) ≤ 2 * (k + 1)) :
    (∃ m', processEvent P e k m = .ok true m') ∨ ∃ x m', processEvent P e k m = .thrown x m' := by
  cases hr : processEvent P e k m with
  | fault g =>
    have := processEvent_wp hwf hok (userMem_forget P) e k (h.stable hwf hok).1
    unfold wp at this
    rw [hr] at this
    exact this.elim
  | thrown x m' => exact .inr ⟨x, m', rfl⟩
  | ok b m' =>
    cases b with
    | true => exact .inl ⟨m', rfl⟩
    | false =>
      obtain ⟨ops, h1, h2⟩ := C43_process_event hwf hok h hr
      have h3 := (mute_processEvent hp e k).ok hr
      change posts m'.qlog = posts m.qlog at h3
      rw [h1, posts_append] at h3
      have h4 : posts ops = [] := List.append_right_eq_self.1 h3
      have := (h2 n (by rw [hn, h4]; rfl)).2 rfl
      omega

/-- **C43.** The same of `initiate()`. -/
theorem C43_initiate_returns {k n : Nat} (hp : Mute P) (h : Reach P m) (hl : (Call.initiate k).legal P m) (hn : n = m.evq.length + m.dq.length)
    (hk : n * (n + 1) ≤ 2 * k) : (∃ m', initiate P k m = .ok true m') ∨ ∃ x m', initiate P k m = .thrown x m' := by
  cases hr : initiate P k m with
  | fault g =>
    have := initiate_wp hwf hok k (userMem_forget P) (h.stable hwf hok).1 hl
    unfold wp at this
    rw [hr] at this
    exact this.elim
  | thrown x m' => exact .inr ⟨x, m', rfl⟩
  | ok b m' =>
    cases b with
    | true => exact .inl ⟨m', rfl⟩
    | false =>
      obtain ⟨ops, h1, h2⟩ := C43_initiate hwf hok h hl hr
      have h3 := (mute_initiate hp k).ok hr
      change posts m'.qlog = posts m.qlog at h3
      rw [h1, posts_append] at h3
      have h4 : posts ops = [] := List.append_right_eq_self.1 h3
      have := (h2 n (by rw [hn, h4]; rfl)).2 rfl
      omega

end

end SC

/-! ## Examples -/

namespace SC.Ex
open Spec

/-- The bound of `C43_process_event` is reached: `D` (3) is active and an event of type 1 is pending; `process_event` of an event of type 3 defers it, then
`D` is left because of the pending event, then the deferred event is dispatched again. -/
example : ∃ m, Reach prog m ∧ (m.evq.length == 1 && m.dq.length == 0 && match processEvent prog ⟨3, 0⟩ 2 m with
    | .ok true m' => (pops (m'.qlog.drop m.qlog.length)).length == 2 && (posts (m'.qlog.drop m.qlog.length)).length == 0
    | _ => false) = true ∧ 2 * (1 + 2) = 2 * (2 + 1) := by
  obtain ⟨m, h1, h2⟩ := scenario_ex (P := prog) [(0, .initiate 3), (0, .process ⟨1, 0⟩ 3), (0, .post ⟨1, 0⟩)] 0
    (fun m => m.evq.length == 1 && m.dq.length == 0 && match processEvent prog ⟨3, 0⟩ 2 m with
      | .ok true m' => (pops (m'.qlog.drop m.qlog.length)).length == 2 && (posts (m'.qlog.drop m.qlog.length)).length == 0
      | _ => false) (by decide +kernel)
  exact ⟨m, h1, h2, rfl⟩

/-- The example program, but nothing is posted. -/
def mute : Prog Nat := { prog with
  dtor := fun _ _ w => (w, [])
  react := fun s i e v w => ({ world := w }, (prog.react s i e v w).2) }

theorem mute_wf : mute.toChart.WF := wf
theorem mute_contract : Contract mute := ⟨fun _ _ _ _ => rfl, contract.react⟩
theorem mute_mute : Mute mute := by constructor <;> intros <;> intro h <;> cases h

/-- With an event pending and one deferred, six turns are enough. -/
example : ∃ m, Reach mute m ∧ (m.evq.length == 1 && m.dq.length == 1) = true ∧
    ((∃ m', processEvent mute ⟨1, 0⟩ 5 m = .ok true m') ∨ ∃ x m', processEvent mute ⟨1, 0⟩ 5 m = .thrown x m') := by
  obtain ⟨m, h1, h2⟩ := scenario_ex (P := mute) [(0, .initiate 3), (0, .process ⟨1, 0⟩ 3), (0, .process ⟨3, 0⟩ 3), (0, .post ⟨3, 0⟩)] 0
    (fun m => m.evq.length == 1 && m.dq.length == 1) (by decide +kernel)
  refine ⟨m, h1, h2, ?_⟩
  simp only [Bool.and_eq_true, beq_iff_eq] at h2
  exact C43_returns mute_wf mute_contract mute_mute h1 rfl (by rw [h2.1, h2.2]; decide)

example : (∃ m', initiate mute 0 (Mach.fresh 0) = .ok true m') ∨ ∃ x m', initiate mute 0 (Mach.fresh 0) = .thrown x m' :=
  C43_initiate_returns mute_wf mute_contract mute_mute (.fresh 0) (Call.legal_of_terminated rfl 0) rfl (by decide)

/-- The example program, but `unconsumed_event` posts the event again. -/
def babble : Prog Nat := { prog with unconsumed := fun e _ w => { world := w, cmds := [.post e] } }

theorem babble_wf : babble.toChart.WF := wf
theorem babble_contract : Contract babble := ⟨fun _ _ _ _ => rfl, contract.react⟩

theorem babble_loop (e : Event) : ∀ (k : Nat) (m : Mach Nat), m.endIx = 0 → m.pOU = none → m.evq = [e] →
    ∃ m', processQueued babble k m = .ok false m'
  | 0, m, _, _, h3 => ⟨m, by unfold processQueued; change Res.ok m.evq.isEmpty m = _; rw [h3]; rfl⟩
  | k + 1, m, h1, h2, h3 => by
    obtain ⟨heap, slot, len, endIx, outermost, ico, pOU, fullExit, sh, dh, shKeys, dhKeys, evq, dq, trig, world, trace, qlog, hlog, xlog⟩ := m
    subst h1 h2 h3
    exact babble_loop e k _ rfl rfl rfl

/-- The hypothesis of `C43_forever` can hold: the machine was not initiated, so no state consumes the event, and `process_event` does not return. -/
theorem babble_forever (e : Event) (k : Nat) : ∃ m', processEvent babble e k (Mach.fresh 0) = .ok false m' :=
  babble_loop e k _ rfl rfl rfl

example (e : Event) (N : Nat) : ∃ k m' ops, processEvent babble e k (Mach.fresh 0) = .ok false m' ∧
    m'.qlog = (Mach.fresh 0 : Mach Nat).qlog ++ ops ∧ N ≤ (posts ops).length :=
  C43_forever (P := babble) (m := Mach.fresh 0) babble_wf babble_contract (.fresh 0) (babble_forever e) N

end SC.Ex
