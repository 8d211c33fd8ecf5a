import Verif.Props.Calls
import Verif.Released
/-!
# Properties of the event queues (C21, C22, C38)
-/

namespace SC.Spec
open SC

/-- `s` deferred an event and was not destroyed since then. -/
def Deferrer (tr : List Obs) (s : Sid) : Prop := ∃ a b, tr = a ++ .defer s :: b ∧ Obs.destroy s ∉ b

/-- What the dispatch of one event `e` does to the queues. `past`: observations before, `now`: observations of the dispatch, `q`/`d`: pending and
deferred events when the dispatch begins (`e` is in neither), `ps`: the events posted during the dispatch, `q'`/`d'`: the queues afterwards. -/
inductive Turn (e : Event) (past now : List Obs) (q d ps : List Event) : List Event → List Event → Prop
  /-- `e` is deferred: it is appended to the deferred events. No state is destroyed. -/
  | deferred {o s} : now = o ++ [.defer s] → (∀ x, Obs.defer x ∉ o) → (∀ x, Obs.destroy x ∉ o) → Turn e past now q d ps (q ++ ps) (d ++ [e])
  /-- A state that had deferred some event is destroyed: all deferred events are put before the pending events. -/
  | released {s} : (∀ x, Obs.defer x ∉ now) → Deferrer past s → Obs.destroy s ∈ now → Turn e past now q d ps (d ++ q ++ ps) []
  /-- Neither. -/
  | plain : (∀ x, Obs.defer x ∉ now) → (∀ s, Deferrer past s → Obs.destroy s ∉ now) → Turn e past now q d ps (q ++ ps) d

/-- Pending events `es` are dispatched in order, one after the other; the oldest pending event is taken each time. `ops`: log of queue operations. -/
inductive Turns : List Event → List Obs → List Event → List Event → List Obs → List Event → List Event → List Event → Prop
  | nil {past q d} : Turns [] past q d [] [] q d
  | cons {e es past now rest q d q1 d1 q' d' ps ps'} : Turn e past now q d ps q1 d1 → Turns es (past ++ now) q1 d1 rest ps' q' d' →
      Turns (e :: es) past (e :: q) d (now ++ rest) (ps ++ ps') q' d'

theorem fold_holdStep (tr : List Obs) (s : Sid) : tr.foldl holdStep (fun _ => false) s = true ↔ Deferrer tr s := by
  induction tr using snocInd with
  | nil => simp [Deferrer]
  | snoc l o ih =>
    rw [List.foldl_append]
    show holdStep (l.foldl holdStep fun _ => false) o s = true ↔ _
    have key : o ≠ .defer s → o ≠ .destroy s → (Deferrer (l ++ [o]) s ↔ Deferrer l s) := by
      intro h1 h2
      constructor
      · rintro ⟨a, b, h3, h4⟩
        rcases List.eq_nil_or_concat b with rfl | ⟨b', x, rfl⟩
        · have := (List.append_inj' h3 rfl).2
          simp only [List.cons.injEq, and_true] at this
          exact absurd this h1
        · have h5 : l ++ [o] = (a ++ .defer s :: b') ++ [x] := by rw [h3]; simp
          obtain ⟨h6, _⟩ := List.append_inj' h5 rfl
          exact ⟨a, b', h6, fun h => h4 (by simp [h])⟩
      · rintro ⟨a, b, h3, h4⟩
        refine ⟨a, b ++ [o], by rw [h3]; simp, ?_⟩
        simp only [List.mem_append, List.mem_singleton, not_or]
        exact ⟨h4, fun h => h2 h.symm⟩
    by_cases h1 : o = .defer s
    · subst h1
      simp only [holdStep, if_true, true_iff]
      exact ⟨l, [], rfl, by simp⟩
    · by_cases h2 : o = .destroy s
      · subst h2
        simp only [holdStep, if_true, Bool.false_eq_true, false_iff]
        rintro ⟨a, b, h3, h4⟩
        rcases List.eq_nil_or_concat b with rfl | ⟨b', x, rfl⟩
        · have := (List.append_inj' h3 rfl).2
          simp at this
        · have h5 : l ++ [.destroy s] = (a ++ .defer s :: b') ++ [x] := by rw [h3]; simp
          obtain ⟨_, h6⟩ := List.append_inj' h5 rfl
          simp only [List.cons.injEq, and_true] at h6
          exact h4 (by simp [h6])
      · rw [key h1 h2, ← ih]
        cases o with
        | defer x =>
          simp only [holdStep]
          rw [if_neg (fun h => h1 (by rw [h]))]
        | destroy x =>
          simp only [holdStep]
          rw [if_neg (fun h => h2 (by rw [h]))]
        | _ => rfl

theorem posts_append (a b : List QOp) : posts (a ++ b) = posts a ++ posts b := List.filterMap_append

end SC.Spec

namespace SC
open Spec Chart
variable {W : Type} {P : Prog W} {m m' : Mach W}

/-- The flags of the state objects agree with the trace. -/
def Holds (m : Mach W) : Prop := m.holders = (m.trace.map (·.2)).foldl holdStep (fun _ => false)

theorem Holds.iff (h : Holds m) (s : Sid) : m.holders s = true ↔ Deferrer (m.trace.map (·.2)) s := by
  rw [h]; exact fold_holdStep _ s

theorem RelRel.holds {b : Bool} (h : RelRel b m m') (he : Early m) (hm : Holds m) : Early m' ∧ Holds m' := by
  obtain ⟨h1, ops, tr, h2⟩ := h he
  refine ⟨h1, ?_⟩
  unfold Holds
  rw [h2.hold, h2.trace, hm, List.map_append, List.foldl_append]

theorem relrel_turn {q d : List Event} {o : QOp} (ho : o.isTurn = true) : RelRel true m { m with evq := q, dq := d, qlog := m.qlog ++ [o] } := by
  intro he
  refine ⟨he, [o], [], rfl, by simp, by simp, ?_, by simp, rfl, ?_⟩
  all_goals
    intro s h
    simp only [List.mem_singleton] at h
    subst h
    cases ho

theorem relCall (P : Prog W) (c : Call) : Keeps (relK true) (c.run P) :=
  (relPrims P).call (fun _ _ _ _ ho => relrel_turn ho) (fun m c => relrel_cmds m.world [c] m) c

theorem Reach.holds (h : Reach P m) : Early m ∧ Holds m := by
  induction h with
  | fresh w => exact ⟨fun s o h => (by cases h), rfl⟩
  | @returns c m m' _ _ hr ih => exact RelRel.holds ((relCall P c).ok hr) ih.1 ih.2
  | @throws c x m m' _ _ hr ih => exact RelRel.holds ((relCall P c).thrown hr) ih.1 ih.2
  | world w _ ih => exact ih

theorem Visible.holds (h : Visible P m) : Early m ∧ Holds m := by
  rcases h with h | ⟨m0, c, h0, _, hr⟩
  · exact h.holds
  · exact RelRel.holds ((relCall P c).ok hr) h0.holds.1 h0.holds.2

theorem SendOk.deferLast (hwf : P.toChart.WF) (hok : Contract P) {e : Event} {r : RR} (hm : Stable P.toChart m) (h : SendOk P Forget e m r m') :
    ∃ tr, m'.trace = m.trace ++ tr ∧ DeferLast (tr.map (·.2)) r := by
  have h0 : Stable P.toChart (m.trigger e) := hm.setTrig (some e)
  have sent : ∀ {r m1}, Sent P Forget e m.leaves (m.trigger e) r m1 → ∃ tr, m1.trace = m.trace ++ tr ∧ DeferLast (tr.map (·.2)) r := by
    intro r m1 h
    cases h with
    | @swept obs _ _ h1 h2 =>
      refine ⟨_, h1, ?_⟩
      have := Sweep.deferLast (Sweep.meantM (m := m.trigger e) hwf hok h0 h0.leaves_live h2)
      rw [map_snd]; exact this
    | @caught s x m2 ev h m1 hr hx hh hd =>
      obtain ⟨obs, h1, h2⟩ := Raises.broken (m := m.trigger e) hwf hok h0 hr
      obtain ⟨obs2, h3, h4⟩ := hd.spec
      have := Search.deferLast (Search.meant hwf (validD hok) h4 hr.inv.forest (hr.inv.memOK hwf) hd.live)
      refine ⟨tag (some e) obs ++ obs2.map _, by rw [h3, h1, List.append_assoc]; rfl, ?_⟩
      intro x
      unfold tag
      rw [List.map_append, List.mem_append, map_snd, map_snd]
      rintro (h | h)
      · exact h2.keeps x h
      · exact this x h
  cases h with
  | @consumed _ m' h _ => exact sent (m1 := m') h
  | @unconsumed m1 m' h _ hu _ =>
    obtain ⟨tr, h1, h2⟩ := sent h
    refine ⟨tr ++ [(m1.trig, .unconsumed)], ?_, ?_⟩
    · show m'.trace = _
      rw [hu.trace, h1, List.append_assoc]; rfl
    · intro x
      rw [List.map_append, List.mem_append]
      rintro (h | h)
      · exact h2 x h
      · simp at h

section
variable (hwf : P.toChart.WF) (hok : Contract P)
include hwf hok

/-- One dispatch in a stable machine. -/
theorem Stable.turn {e : Event} (hm : Stable P.toChart m) (hh : Holds m) (hr : dispatch P e m = .ok () m') :
    ∃ tr ops, m'.trace = m.trace ++ tr ∧ m'.qlog = m.qlog ++ ops ∧
      Turn e (m.trace.map (·.2)) (tr.map (·.2)) m.evq m.dq (posts ops) m'.evq m'.dq := by
  -- `send_event`
  have hsend : ∃ r m1, sendEvent P e m = .ok r m1 ∧ m'.trace = m1.trace ∧
      ((r = .defer ∧ m'.evq = m1.evq ∧ m'.dq = m1.dq ++ [e] ∧ m'.qlog = m1.qlog ++ [.defer e]) ∨
       (r ≠ .defer ∧ m'.evq = m1.evq ∧ m'.dq = m1.dq ∧ m'.qlog = m1.qlog ++ [.done e])) := by
    unfold dispatch at hr
    change M.bnd (M.onThrow (sendEvent P e) _) _ m = _ at hr
    unfold M.bnd M.onThrow at hr
    cases hx : sendEvent P e m with
    | fault g => rw [hx] at hr; cases hr
    | thrown y m1 => rw [hx] at hr; cases hr
    | ok r m1 =>
      rw [hx] at hr
      simp only at hr
      refine ⟨r, m1, rfl, ?_⟩
      by_cases hd : r = .defer
      · rw [if_pos hd] at hr
        change M.bnd _ _ m1 = _ at hr
        unfold M.bnd allocate at hr
        simp only at hr
        cases ha : P.alloc (.deferNode e) m1.world with
        | mk w o =>
          rw [ha] at hr
          cases o with
          | none => cases hr; exact ⟨rfl, .inl ⟨hd, rfl, rfl, rfl⟩⟩
          | some y => cases hr
      · rw [if_neg hd] at hr
        cases hr; exact ⟨rfl, .inr ⟨hd, rfl, rfl, rfl⟩⟩
  obtain ⟨r, m1, h1, ht, h2⟩ := hsend
  have he := hm.inv.early
  obtain ⟨_, _, _, hq, _, hso⟩ := wp_ok (sendEvent_wp hwf hok (userMem_forget P) e hm) h1
  obtain ⟨tr, k1, k2⟩ := hso.deferLast hwf hok hm
  obtain ⟨_, ops, tr', k3⟩ := sendEvent_rel h1 he
  have : tr' = tr := List.append_cancel_left (k3.trace.symm.trans k1)
  subst this
  obtain ⟨_, ops', k4⟩ := ((queuePrims P).sendEvent e).ok h1 he
  have : ops' = ops := List.append_cancel_left (k4.qlog.symm.trans k3.qlog)
  subst this
  obtain ⟨k5, k6⟩ := run_inner _ (k4.run none) fun o ho => ⟨k4.inner o ho, fun h => k3.noclear rfl (h ▸ ho)⟩
  change m1.evq = (if releases ops' then m.dq else []) ++ m.evq ++ posts ops' at k5
  change m1.dq = (if releases ops' then [] else m.dq) at k6
  have hpost : ∀ o, (∀ x, o ≠ .post x) → posts (ops' ++ [o]) = posts ops' := by
    intro o ho
    rw [posts_append]
    cases o <;> simp [posts] at ho ⊢
  rcases h2 with ⟨rfl, e1, e2, e3⟩ | ⟨hne, e1, e2, e3⟩
  · obtain ⟨o, s, g1, g2⟩ := k2
    have hqu := hq (by simp)
    -- nothing is destroyed
    have hnd : ∀ x, Obs.destroy x ∉ tr'.map (·.2) := by
      obtain ⟨_, tr2, j1, _, _, j2⟩ := hso.episode hwf hok hm
      obtain ⟨obs, _, j3, _, j4, _⟩ := j2 rfl
      have : tr2 = tr' := List.append_cancel_left (j1.symm.trans k1)
      subst this
      intro x hx
      unfold tag at j3
      rw [j3, map_snd] at hx
      exact absurd (j4 _ hx) (by simp [quietObs])
    have hnr : releases ops' = false := by
      cases hx : releases ops' with
      | false => rfl
      | true =>
        obtain ⟨s, hs⟩ := releases_iff.1 hx
        exact absurd (k3.rel s hs) (hnd s)
    rw [hnr] at k5 k6
    refine ⟨tr', ops' ++ [.defer e], by rw [ht, k1], by rw [e3, k3.qlog, List.append_assoc], ?_⟩
    rw [hpost _ (by simp), e1, e2, k5, k6]
    exact .deferred g1 g2 fun x hx => hnd x (by rw [g1]; simp [hx])
  · have hnd : ∀ x, Obs.defer x ∉ tr'.map (·.2) := by
      cases r <;> first | exact absurd rfl hne | exact k2
    refine ⟨tr', ops' ++ [.done e], by rw [ht, k1], by rw [e3, k3.qlog, List.append_assoc], ?_⟩
    rw [hpost _ (by simp), e1, e2, k5, k6]
    have hrel : ∀ s, Deferrer (m.trace.map (·.2)) s → Obs.destroy s ∈ tr'.map (·.2) → releases ops' = true := by
      intro s h1 h2
      exact releases_iff.2 ⟨s, k3.dest s ((hh.iff s).2 h1) h2⟩
    cases hx : releases ops' with
    | true =>
      obtain ⟨s, hs⟩ := releases_iff.1 hx
      have hd := k3.rel s hs
      refine .released (s := s) hnd ((hh.iff s).1 ?_) hd
      rcases run_releaser _ (k4.run none) hs with h | h
      · exact h
      · exact absurd (k3.held s h) (hnd s)
    | false =>
      refine .plain hnd fun s h1 h2 => ?_
      rw [hrel s h1 h2] at hx; cases hx

/-- Several dispatches. -/
theorem Runs.turns {es : List Event} (h : Runs P Forget es m m') (hh : Holds m) :
    ∃ tr ops, m'.trace = m.trace ++ tr ∧ m'.qlog = m.qlog ++ ops ∧
      Turns es (m.trace.map (·.2)) m.evq m.dq (tr.map (·.2)) (posts ops) m'.evq m'.dq := by
  induction h with
  | nil _ => exact ⟨[], [], by simp, by simp, .nil⟩
  | @cons e q es m m1 m' h1 h2 h3 _ ih =>
    let m0 : Mach W := { m with evq := q, qlog := m.qlog ++ [.pop e] }
    have hs0 : Stable P.toChart m0 := (Takes.pop h2).stable h1
    have hh0 : Holds m0 := hh
    obtain ⟨t1, o1, k1, k2, k3⟩ := Stable.turn hwf hok hs0 hh0 h3.eq
    have hh1 : Holds m1 := (RelRel.holds (((relPrims P).dispatch (fun _ _ _ _ ho => relrel_turn ho) e).ok h3.eq) hs0.inv.early hh0).2
    obtain ⟨t2, o2, k4, k5, k6⟩ := ih hh1
    refine ⟨t1 ++ t2, .pop e :: o1 ++ o2, by rw [k4, k1, List.append_assoc], by rw [k5, k2]; simp [m0], ?_⟩
    rw [k1, List.map_append] at k6
    rw [h2, List.map_append, List.cons_append]
    have : posts (.pop e :: (o1 ++ o2)) = posts o1 ++ posts o2 := by
      rw [← posts_append]; rfl
    rw [this]
    exact .cons k3 k6

/-! ## C22 -/

/-- **C22.** Every dispatch that ends normally, of an event given to `process_event` or taken from the queue, treats the queues as `Spec.Turn` says: the event is
deferred, or all deferred events are released to the front of the queue because a state that had deferred an event was destroyed, or neither happens.
Events posted by the user's functions meanwhile are appended, in order. -/
theorem C22_dispatch {e : Event} {m0 : Mach W} (h : Visible P m) (ht : Takes e m m0) (hr : dispatch P e m0 = .ok () m') :
    ∃ tr ops, m'.trace = m.trace ++ tr ∧ m'.qlog = m0.qlog ++ ops ∧
      Turn e (m.trace.map (·.2)) (tr.map (·.2)) m0.evq m.dq (posts ops) m'.evq m'.dq := by
  have hh : Holds m0 := by
    have := h.holds.2
    cases ht <;> exact this
  obtain ⟨tr, ops, h1, h2, h3⟩ := Stable.turn hwf hok (ht.stable (h.stable hwf hok).1) hh hr
  rw [ht.same.trace, ht.dq] at h3
  rw [ht.same.trace] at h1
  exact ⟨tr, ops, h1, h2, h3⟩

/-- **C22.** While an event is deferred, an active state exists that deferred an event (and was not destroyed since then). -/
theorem C22_not_stranded (h : Visible P m) (hd : m.dq ≠ []) : ∃ s, m.act s = true ∧ Deferrer (m.trace.map (·.2)) s := by
  have hs := (h.stable hwf hok).1
  obtain ⟨s, o, h1, h2⟩ := hs.flags hd
  refine ⟨s, ?_, (h.holds.2.iff s).1 (by unfold Mach.holders; rw [h1]; exact h2)⟩
  unfold Mach.act; rw [h1]; rfl

/-! ## C21 -/

/-- **C21.** `process_event(e)` dispatches `e` and then the pending events, always the oldest one first, until none is left. -/
theorem C21_process_event {e : Event} {k : Nat} {b : Bool} (h : Reach P m) (hr : processEvent P e k m = .ok b m') :
    ∃ es tr ops, m'.trace = m.trace ++ tr ∧ m'.qlog = m.qlog ++ ops ∧ recvs ops = [e] ∧ pops ops = es ∧
      Turns (e :: es) (m.trace.map (·.2)) (e :: m.evq) m.dq (tr.map (·.2)) (posts ops) m'.evq m'.dq ∧ (b = true → m'.evq = []) := by
  have hs := (h.stable hwf hok).1
  obtain ⟨es', _, _, _, _, _, _, _, ops', j1, j2, j3⟩ := process_event_returns hwf hok h hr
  obtain ⟨_, _, h3, m1, es, h4, h5⟩ := wp_ok (processEvent_wp hwf hok (userMem_forget P) e k hs) hr
  have ht : Takes e m (m.qop (.recv e)) := .recv
  obtain ⟨t1, o1, k1, k2, k3⟩ := C22_dispatch hwf hok (.inl h) ht h4.eq
  have hh1 : Holds m1 := (RelRel.holds (((relPrims P).dispatch (fun _ _ _ _ ho => relrel_turn ho) e).ok h4.eq) (ht.stable hs).inv.early h.holds.2).2
  obtain ⟨t2, o2, k4, k5, k6⟩ := h5.turns hwf hok hh1
  obtain ⟨p1, i1, i2, i3⟩ := wlp_ok (dispatch_ops (P := P) e (m := m.qop (.recv e)) hs.inv.early) h4.eq
  obtain ⟨p2, i4, i5, i6⟩ := h5.pops
  have hq : m'.qlog = m.qlog ++ (.recv e :: (o1 ++ o2)) := by rw [k5, k2]; simp [Mach.qop]
  have : p1 = o1 := List.append_cancel_left (i1.symm.trans k2)
  subst this
  have : p2 = o2 := List.append_cancel_left (i4.symm.trans k5)
  subst this
  refine ⟨es, t1 ++ t2, _, by rw [k4, k1, List.append_assoc], hq, ?_, ?_, ?_, h3⟩
  · have : recvs (.recv e :: (p1 ++ p2)) = e :: (recvs p1 ++ recvs p2) := congrArg (e :: ·) List.filterMap_append
    rw [this, i3, i6]; rfl
  · have : pops (.recv e :: (p1 ++ p2)) = pops p1 ++ pops p2 := List.filterMap_append
    rw [this, i2, i5]; rfl
  · have : posts (.recv e :: (p1 ++ p2)) = posts p1 ++ posts p2 := List.filterMap_append
    rw [this, List.map_append]
    rw [k1, List.map_append] at k6
    exact .cons k3 k6

end

/-- **C21.** `post_event(e)` by the client appends `e` and does nothing else. -/
theorem C21_post_event {e : Event} (hr : postEvent P e m = .ok () m') : m'.evq = m.evq ++ [e] ∧ m'.dq = m.dq ∧ m'.trace = m.trace ∧ m'.heap = m.heap := by
  unfold postEvent at hr
  change M.bnd _ _ m = _ at hr
  unfold M.bnd allocate at hr
  cases ha : P.alloc (.postNode e) m.world with
  | mk w o =>
    rw [ha] at hr
    cases o with
    | none => cases hr; exact ⟨rfl, rfl, rfl, rfl⟩
    | some y => cases hr

/-- **C21.** Every event posted by a function of the user, of whatever kind, is appended to the queue and logged, in order; nothing else happens to the queues. -/
theorem C21_user_posts {f : View → W → UOut W} {a b : List Obs} (hr : runUser f a b m = .ok () m' ∨ ∃ y, runUser f a b m = .thrown y m') :
    ∃ ops, m'.qlog = m.qlog ++ ops ∧ posts ops = (f m.view m.world).cmds.filterMap (fun | .post e => some e | _ => none) ∧
      m'.evq = m.evq ++ posts ops ∧ m'.dq = m.dq := by
  have hl : ∀ (l : List Obs) (m : Mach W), (l.foldl Mach.log m).qlog = m.qlog ∧ (l.foldl Mach.log m).evq = m.evq ∧ (l.foldl Mach.log m).dq = m.dq := by
    intro l
    induction l with
    | nil => intro m; exact ⟨rfl, rfl, rfl⟩
    | cons o l ih => intro m; exact ih (m.log o)
  have hp : ∀ l : List Cmd, posts (cmdOps l) = l.filterMap (fun | .post e => some e | _ => none) ∧ releases (cmdOps l) = false := by
    intro l
    induction l with
    | nil => exact ⟨rfl, rfl⟩
    | cons c l ih =>
      cases c with
      | post e => exact ⟨congrArg (e :: ·) ih.1, ih.2⟩
      | clearShallow k => exact ih
      | clearDeep k => exact ih
  have key : ∃ (l : List Obs) (xs : List Exc), m' =
      { l.foldl Mach.log ((f m.view m.world).cmds.foldl Mach.cmd { m with world := (f m.view m.world).world }) with xlog := xs } := by
    unfold runUser at hr
    cases h : (f m.view m.world).throws with
    | some x =>
      simp only [h] at hr
      rcases hr with hr | ⟨y, hr⟩ <;> cases hr
      exact ⟨b, _, rfl⟩
    | none =>
      simp only [h] at hr
      rcases hr with hr | ⟨y, hr⟩ <;> cases hr
      exact ⟨a, _, rfl⟩
  obtain ⟨l, xs, rfl⟩ := key
  have hq := qstep_cmds' (f m.view m.world).cmds { m with world := (f m.view m.world).world }
  obtain ⟨r1, r2⟩ := run_inner _ (hq.run none) fun o ho => ⟨hq.inner o ho, by obtain ⟨e, rfl⟩ := cmdOps_post ho; simp⟩
  rw [(hp _).2] at r1 r2
  obtain ⟨k1, k2, k3⟩ := hl l ((f m.view m.world).cmds.foldl Mach.cmd { m with world := (f m.view m.world).world })
  refine ⟨cmdOps (f m.view m.world).cmds, ?_, (hp _).1, ?_, ?_⟩
  · rw [k1]; exact hq.qlog
  · rw [k2]; exact r1
  · rw [k3]; exact r2

/-- Every call keeps queues and log in agreement, also when it ends with an exception. -/
theorem call_logged (c : Call) (h : Logged m none) : wlp (c.run P) (fun _ m' => Logged m' none) (fun _ m' => Logged m' none) m := by
  have hcl : ∀ (has : Mach W → Bool) (site : Site) (c : Cmd), (∀ e, c ≠ .post e) →
      wlp (do allocNode P has site; M.modify fun m : Mach W => m.cmd c) (fun _ m' => Logged m' none) (fun _ m' => Logged m' none) m := by
    intro has site c hc
    rw [wlp_bind]
    refine wlp_mono ((queuePrims P).toPrims.allocNode has site |>.wlp m) ?_ ?_
    · intro _ m1 h1
      have hl := QRel.logged h1 h
      cases c with
      | post e => exact absurd rfl (hc e)
      | clearShallow k => exact ⟨hl.early, hl.run⟩
      | clearDeep k => exact ⟨hl.early, hl.run⟩
    · intro _ m1 h1; exact QRel.logged h1 h
  cases c with
  | initiate k => exact initiate_logged k h
  | terminate =>
    show wlp (terminate P >>= fun _ => pure true) _ _ m
    rw [wlp_bind]; exact terminate_logged h
  | process e k => exact processEvent_logged e k h
  | post e =>
    show wlp (postEvent P e >>= fun _ => pure true) _ _ m
    rw [wlp_bind]; exact postEvent_logged e h
  | clearShallow k =>
    show wlp (clearShallowHistory P k >>= fun _ => pure true) _ _ m
    rw [wlp_bind]; exact hcl _ _ _ (by simp)
  | clearDeep k =>
    show wlp (clearDeepHistory P k >>= fun _ => pure true) _ _ m
    rw [wlp_bind]; exact hcl _ _ _ (by simp)

theorem Reach.logged (h : Reach P m) : Logged m none := by
  induction h with
  | fresh w => exact logged_fresh w
  | @returns c m m' _ _ hr ih => exact wlp_ok (call_logged c ih) hr
  | @throws c x m m' _ _ hr ih => exact wlp_thrown (call_logged c ih) hr
  | world w _ ih => exact ⟨ih.early, ih.run⟩

theorem Visible.logged (h : Visible P m) : Logged m none := by
  rcases h with h | ⟨m0, c, h0, _, hr⟩
  · exact h.logged
  · exact wlp_ok (call_logged c h0.logged) hr

/-- **C21.** At all times, and also after exceptions, the pending and the deferred events are what the abstract machine `Spec.Queues` contains after the
logged operations, all of which it accepts; no event is being dispatched. -/
theorem C21_queues (h : Visible P m) : ∃ q, Queues.empty.run m.qlog = some q ∧ q.pending = m.evq ∧ q.deferred = m.dq ∧ q.current = none :=
  ⟨_, h.logged.run, rfl, rfl, rfl⟩

theorem Visible.between {ops : List QOp} (h : Visible P m) (h' : Visible P m') (hq : m'.qlog = m.qlog ++ ops) :
    (m.queues none).run ops = some (m'.queues none) := by
  have := h'.logged.run
  rw [hq, run_append, h.logged.run] at this
  exact this

/-- **C21.** No event is lost, made up or duplicated between two moments: unless the queues are cleared (or memory for a deferred event is lacking), every event
that was inside, posted or given to `process_event` was completely processed or is still inside, with the same multiplicity. -/
theorem C21_conserved {ops : List QOp} (h : Visible P m) (h' : Visible P m') (hq : m'.qlog = m.qlog ++ ops)
    (hc : ∀ o ∈ ops, o ≠ .clear ∧ ∀ e, o ≠ .lost e) :
    (posts ops ++ recvs ops ++ (m.dq ++ m.evq)).Perm (dones ops ++ (m'.dq ++ m'.evq)) := run_conserve ops (h.between h' hq) hc

/-- **C21.** Between two releases of deferred events, events are taken from the queue in the order in which they were posted. -/
theorem C21_fifo {ops : List QOp} (h : Visible P m) (h' : Visible P m') (hq : m'.qlog = m.qlog ++ ops)
    (hc : ∀ o ∈ ops, o ≠ .clear ∧ ∀ s, o ≠ .release s) : m.evq ++ posts ops = pops ops ++ m'.evq := run_fifo ops (h.between h' hq) hc

/-! ## C38 -/

/-- The dispatch of an event begins / ends. -/
def QOp.isStart : QOp → Bool
  | .recv _ | .pop _ => true
  | _ => false

def QOp.isEnd : QOp → Bool
  | .defer _ | .lost _ | .done _ => true
  | _ => false

theorem run_busy (l : List QOp) : ∀ {q q' : Queues}, q.run l = some q' → q.current ≠ none → (∀ o ∈ l, o.isEnd = false) →
    q'.current = q.current ∧ ∀ o ∈ l, o.isStart = false := by
  induction l with
  | nil => intro q q' h _ _; cases h; exact ⟨rfl, by simp⟩
  | cons o l ih =>
    intro q q' h hc he
    obtain ⟨q1, h1, h2⟩ := run_step h
    have ho := he o (by simp)
    have key : q1.current = q.current ∧ o.isStart = false := by
      cases o with
      | post e => cases h1; exact ⟨rfl, rfl⟩
      | hold x => cases h1; exact ⟨rfl, rfl⟩
      | clear => cases h1; exact ⟨rfl, rfl⟩
      | release x =>
        simp only [Queues.step] at h1
        split at h1 <;> cases h1
        exact ⟨rfl, rfl⟩
      | recv e =>
        simp only [Queues.step] at h1
        rw [if_neg hc] at h1; cases h1
      | pop e =>
        simp only [Queues.step] at h1
        split at h1
        · cases h1
        · rw [if_neg (fun h => hc h.1)] at h1; cases h1
      | _ => cases ho
    obtain ⟨i1, i2⟩ := ih h2 (by rw [key.1]; exact hc) fun o h => he o (by simp [h])
    refine ⟨i1.trans key.1, ?_⟩
    intro o' h'
    rcases List.mem_cons.1 h' with rfl | h'
    · exact key.2
    · exact i2 _ h'

/-- **C38.** The dispatch of an event begins only after the dispatch of the event before has ended: between two beginnings there is an end. -/
theorem C38_one_at_a_time {a b c : List QOp} {s1 s2 : QOp} (h : Visible P m) (hq : m.qlog = a ++ s1 :: (b ++ s2 :: c))
    (h1 : s1.isStart = true) (h2 : s2.isStart = true) : ∃ o ∈ b, o.isEnd = true := by
  have hr := h.logged.run
  rw [hq, run_append] at hr
  obtain ⟨q0, _, h4⟩ := Option.bind_eq_some_iff.1 hr
  obtain ⟨q1, h5, h6⟩ := run_step h4
  have hc : q1.current ≠ none := by
    cases s1 with
    | recv e =>
      simp only [Queues.step] at h5
      split at h5 <;> cases h5
      simp
    | pop e =>
      simp only [Queues.step] at h5
      split at h5
      · cases h5
      · split at h5 <;> cases h5
        simp
    | _ => cases h1
  refine Classical.byContradiction fun hn => ?_
  have hb : ∀ o ∈ b, o.isEnd = false := by
    intro o ho
    cases hx : o.isEnd with
    | false => rfl
    | true => exact absurd ⟨o, ho, hx⟩ hn
  have hb' : ∀ o ∈ b ++ [s2], o.isEnd = false := by
    intro o ho
    rcases List.mem_append.1 ho with ho | ho
    · exact hb o ho
    · simp only [List.mem_singleton] at ho
      subst ho
      cases o <;> first | rfl | cases h2
  have hs : b ++ s2 :: c = (b ++ [s2]) ++ c := by simp
  rw [hs, run_append] at h6
  obtain ⟨q2, h7, _⟩ := Option.bind_eq_some_iff.1 h6
  have := (run_busy _ h7 hc hb').2 s2 (by simp)
  rw [this] at h2; cases h2

section
variable (hwf : P.toChart.WF) (hok : Contract P)
include hwf hok

/-- **C38.** Nothing is taken from the queue while an event is dispatched; the events posted meanwhile are in the queue when the dispatch ends, behind
everything else. -/
theorem C38_posted_later {e : Event} {m0 : Mach W} (h : Visible P m) (ht : Takes e m m0) (hr : dispatch P e m0 = .ok () m') :
    ∃ ops, m'.qlog = m0.qlog ++ ops ∧ (∀ o ∈ ops, o.isStart = false) ∧ posts ops <:+ m'.evq := by
  obtain ⟨tr, ops, h1, h2, h3⟩ := C22_dispatch hwf hok h ht hr
  obtain ⟨ops', h4, h5, h6⟩ := wlp_ok (dispatch_ops (P := P) e (ht.stable (h.stable hwf hok).1).inv.early) hr
  have : ops' = ops := List.append_cancel_left (h4.symm.trans h2)
  subst this
  refine ⟨ops', h2, ?_, ?_⟩
  · intro o ho
    cases o with
    | recv x =>
      have : x ∈ recvs ops' := List.mem_filterMap.2 ⟨_, ho, rfl⟩
      rw [h6] at this; cases this
    | pop x =>
      have : x ∈ pops ops' := List.mem_filterMap.2 ⟨_, ho, rfl⟩
      rw [h5] at this; cases this
    | _ => rfl
  · generalize m'.evq = x at h3
    generalize m'.dq = y at h3
    cases h3 <;> exact List.suffix_append _ _

end
end SC

namespace SC.Ex
open Spec Chart

/-- Case for `C22_dispatch`, `released`: state 3 deferred event 3, the transition on event 1 destroys state 3. -/
example : ∃ m m' : Mach Nat, Reach prog m ∧ m.dq = [⟨3, 0⟩] ∧ m.evq = [⟨20, 1⟩] ∧ Takes ⟨1, 0⟩ m (m.qop (.recv ⟨1, 0⟩)) ∧
    dispatch prog ⟨1, 0⟩ (m.qop (.recv ⟨1, 0⟩)) = .ok () m' ∧ m'.evq = [⟨3, 0⟩, ⟨20, 1⟩] ∧ m'.dq = [] := by
  obtain ⟨m, h1, h2⟩ := scenario_ex (P := prog) [(0, .initiate 0), (0, .process ⟨1, 0⟩ 0), (0, .process ⟨3, 0⟩ 0), (0, .post ⟨20, 1⟩)] 0
    (fun m => m.dq == [⟨3, 0⟩] && m.evq == [⟨20, 1⟩] && match dispatch prog ⟨1, 0⟩ (m.qop (.recv ⟨1, 0⟩)) with
      | .ok _ m' => m'.evq == [⟨3, 0⟩, ⟨20, 1⟩] && m'.dq == []
      | _ => false) (by decide +kernel)
  cases hx : dispatch prog ⟨1, 0⟩ (m.qop (.recv ⟨1, 0⟩)) with
  | ok u m' =>
    rw [hx] at h2
    simp only [Bool.and_eq_true, beq_iff_eq] at h2
    exact ⟨m, m', h1, h2.1.1, h2.1.2, .recv, hx, h2.2.1, h2.2.2⟩
  | thrown x m' => rw [hx] at h2; simp at h2
  | fault g => rw [hx] at h2; simp at h2

/-- Case for `C22_not_stranded`. -/
example : ∃ m : Mach Nat, Visible prog m ∧ m.dq ≠ [] := by
  obtain ⟨m, h1, h2⟩ := scenario_ex (P := prog) [(0, .initiate 0), (0, .process ⟨1, 0⟩ 0), (0, .process ⟨3, 0⟩ 0)] 0
    (fun m => !m.dq.isEmpty) (by decide +kernel)
  exact ⟨m, .inl h1, by simpa using h2⟩

/-- Case for `C21_process_event`: `react` of state 2 posts events 1 and 4, which are dispatched before the call returns. -/
example : ∃ m m' : Mach Nat, Reach prog m ∧ processEvent prog ⟨2, 0⟩ 5 m = .ok true m' ∧ pops m'.qlog = [⟨1, 0⟩, ⟨4, 0⟩] ∧ m'.act 3 = true ∧ m'.act 7 = true := by
  obtain ⟨m, h1, h2⟩ := scenario_ex (P := prog) [(0, .initiate 0)] 5
    (fun m => match processEvent prog ⟨2, 0⟩ 5 m with
      | .ok b m' => b && pops m'.qlog == [⟨1, 0⟩, ⟨4, 0⟩] && m'.act 3 && m'.act 7
      | _ => false) (by decide +kernel)
  cases hx : processEvent prog ⟨2, 0⟩ 5 m with
  | ok b m' =>
    rw [hx] at h2
    simp only [Bool.and_eq_true, beq_iff_eq] at h2
    obtain ⟨⟨⟨rfl, h3⟩, h4⟩, h5⟩ := h2
    exact ⟨m, m', h1, hx, h3, h4, h5⟩
  | thrown x m' => rw [hx] at h2; simp at h2
  | fault g => rw [hx] at h2; simp at h2

/-- Operations that neither clear the queues nor release deferred events. -/
def calm : QOp → Bool
  | .clear | .lost _ | .release _ => false
  | _ => true

/-- Case for `C21_conserved`, `C21_fifo` and `C38_one_at_a_time`: the log of one call, with two beginnings of a dispatch. -/
example : ∃ (m m' : Mach Nat) (b c : List QOp), Visible prog m ∧ Visible prog m' ∧
    m'.qlog = m.qlog ++ (.recv ⟨2, 0⟩ :: (b ++ .pop ⟨1, 0⟩ :: c)) ∧ ∀ o ∈ QOp.recv ⟨2, 0⟩ :: (b ++ .pop ⟨1, 0⟩ :: c), calm o = true := by
  let new (m m' : Mach Nat) : List QOp := m'.qlog.drop m.qlog.length
  obtain ⟨m, h1, h2⟩ := scenario_ex (P := prog) [(5, .initiate 0)] 5
    (fun m => match processEvent prog ⟨2, 0⟩ 5 m with
      | .ok b m' => b && (new m m').all calm && m.qlog.isPrefixOf m'.qlog &&
        (new m m').head? == some (.recv ⟨2, 0⟩) && (new m m').tail.contains (.pop ⟨1, 0⟩)
      | _ => false) (by decide +kernel)
  cases hx : processEvent prog ⟨2, 0⟩ 5 m with
  | ok b m' =>
    rw [hx] at h2
    simp only [Bool.and_eq_true, beq_iff_eq, List.all_eq_true, List.contains_iff_mem, List.isPrefixOf_iff_prefix] at h2
    obtain ⟨⟨⟨⟨rfl, h3⟩, ⟨ops, h4⟩⟩, h6⟩, h7⟩ := h2
    have hn : new m m' = ops := by simp only [new, ← h4]; simp
    rw [hn] at h3 h6 h7
    cases ops with
    | nil => cases h6
    | cons o ops =>
      simp only [List.head?_cons, Option.some.injEq] at h6
      subst h6
      obtain ⟨b, c, h8⟩ := List.append_of_mem h7
      simp only [List.tail_cons] at h8
      subst h8
      exact ⟨m, m', b, c, .inl h1, .inl (h1.returns (c := .process ⟨2, 0⟩ 5) trivial hx), h4.symm, h3⟩
  | thrown x m' => rw [hx] at h2; simp at h2
  | fault g => rw [hx] at h2; simp at h2

end SC.Ex
