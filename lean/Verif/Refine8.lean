import Verif.Refine7
import Verif.Reach
/-!
# The library and the reference machine: reactions and the public interface
-/

namespace SC
open Spec Chart
variable {W α β : Type} {P : Prog W} {m : Mach W}

/-- The answer of the reference machine for a `reaction_result`. -/
def RR.answer : RR → Ref.Answer
  | .noReaction => .noReaction
  | .forward => .forward
  | .discard => .discard
  | .defer => .defer

theorem answer_forward (r : RR) : (r.answer = .forward) = (r = .forward) := by cases r <;> simp [RR.answer]
theorem answer_discard (r : RR) : (r.answer = .discard) = (r = .discard) := by cases r <;> simp [RR.answer]
theorem answer_defer (r : RR) : (r.answer = .defer) = (r = .defer) := by cases r <;> simp [RR.answer]

theorem sim_withTrig {r : α → β} {x : M W α} {F : Ref.R W β} {ev : Option Event} (h : Sim r x F { m with trig := ev }) :
    Sim r (withTrig ev x) (Ref.during ev F) m := by
  unfold Sim withTrig Ref.during
  cases hx : x { m with trig := ev } with
  | ok a m' =>
    have : F { abs m with trig := ev } = .ok (r a) (abs m') := h.ok hx
    simp only [this]; rfl
  | thrown e m' =>
    have : F { abs m with trig := ev } = .thrown e (abs m') := h.thrown hx
    simp only [this]; rfl
  | fault g => trivial

theorem sim_guardTerm (hwf : P.toChart.WF) (hpl : Plain P) {r : α → β} {x : M W α} {F : Ref.R W β} (h : Sim r x F m)
    (hi : ∀ e m', x m = .thrown e m' → Inv P.toChart noL none m') : Sim r (guardTerm P x) (Ref.guarded P F) m := by
  unfold Sim guardTerm Ref.guarded
  cases hx : x m with
  | ok a m' => simp only [h.ok hx]
  | fault g => trivial
  | thrown e m' =>
    have hs := terminateMachine_sim hwf hpl false (hi e m' hx)
    simp only [h.thrown hx]
    cases ht : terminateMachine P false m' with
    | ok u m'' => simp only [hs.ok ht]
    | thrown y m'' => trivial
    | fault g => trivial

section
variable (hwf : P.toChart.WF) (hok : Contract P) (hpl : Plain P)
include hwf hpl

theorem terminateReaction_sim {s : Sid} (h : Inv P.toChart noL none m) (hs : (m.heap s).isSome) :
    Sim id (terminateReaction P s) (Ref.terminateState P s) m := by
  unfold terminateReaction Ref.terminateState
  refine sim_get2 (sim_bind (r := id) ?_ fun _ m1 _ => sim_setOU none)
  have := terminateState_sim hwf hpl m.fullExit h hs (fun _ _ => rfl)
  simp only [removalF_noL, lockOf_noL] at this
  exact this

omit hwf hpl in
theorem deferEvent_sim {s : Sid} : Sim id (deferEvent s) (Ref.defer s : Ref.R W Unit) m := by
  unfold deferEvent Ref.defer
  refine sim_getObj fun o ho => ?_
  by_cases hc : o.ctxSet = true
  · rw [if_pos hc]
    refine sim_modify ?_
    rw [abs_log]
    congr 1
    have h1 : (Mach.act { m with heap := upd m.heap s (some { o with deferred := true }), qlog := m.qlog ++ [.hold s] }) = m.act := by
      funext x; simp only [Mach.act, upd]; split
      · next hx => subst hx; simp [ho]
      · rfl
    have h2 : (abs { m with heap := upd m.heap s (some { o with deferred := true }), qlog := m.qlog ++ [.hold s] }).defers =
        fun x => if x = s then true else (abs m).defers x := by
      funext x
      simp only [abs, upd]
      by_cases hx : x = s <;> simp [hx]
    rw [← h2]
    have h3 : (abs { m with heap := upd m.heap s (some { o with deferred := true }), qlog := m.qlog ++ [.hold s] }).act = (abs m).act := h1
    have h4 : (abs m) = { abs m with act := (abs { m with heap := upd m.heap s (some { o with deferred := true }), qlog := m.qlog ++ [.hold s] }).act } := by rw [h3]
    rw [h4]
    rfl
  · rw [if_neg hc]; exact sim_fault _ _ _

include hok

theorem customReact_sim {s : Sid} {id : Nat} {e : Event} (h : Inv P.toChart noL none m) (hs : (m.heap s).isSome) (hou : OUBelow P.toChart s m) :
    Sim RR.answer (customReact P s id e) (Ref.custom P s id e) m := by
  unfold customReact Ref.custom
  refine sim_get2 ?_
  have hv : P.react s id e (abs m).view (abs m).world = P.react s id e m.view m.world := (hpl.react s id e _ (view_same h.filled)).symm
  rw [hv]
  refine sim_bind (sim_user (f := fun v w => (P.react s id e v w).1) (fun w hs => by rw [hpl.react s id e w hs]) _ _ h.filled) fun _ m1 hm1 => ?_
  have hu : UserStep m m1 [.react s id] := by
    have : wp (runUser (fun v w => (P.react s id e v w).1) [.react s id] [.react s id])
        (fun _ m' => UserStep m m' [.react s id]) (fun _ _ => True) m := by
      unfold wp runUser
      have hst := world_step m (P.react s id e m.view m.world).1.world (P.react s id e m.view m.world).1.cmds
      cases hx : (P.react s id e m.view m.world).1.throws with
      | none => simp only [hx]; exact hst.logs [.react s id]
      | some x => simp only [hx]
    exact wp_okAt this hm1
  have h1 : Inv P.toChart noL none m1 := by
    refine h.user hu ?_
    intro o ho
    simp only [List.mem_singleton] at ho
    subst ho
    simp only [lifeStep]
    rw [if_pos]
    exact ⟨trivial, hs⟩
  have hs1 : (m1.heap s).isSome := by rw [hu.core.heap]; exact hs
  have hou1 := hou.quiet hu.quiet
  cases hd : (P.react s id e m.view m.world).2 with
  | discard => exact sim_pure RR.answer _
  | forward => exact sim_pure RR.answer _
  | defer => exact sim_bind deferEvent_sim fun _ _ _ => sim_pure RR.answer _
  | transit d a => exact sim_bind (transit_sim hwf hok hpl (hok.react _ _ _ _ _ _ _ hd) h1 hs1 hou1) fun _ _ _ => sim_pure RR.answer _
  | terminate => exact sim_bind (terminateReaction_sim hwf hpl h1 hs1) fun _ _ _ => sim_pure RR.answer _

theorem reactOne_sim {s : Sid} {e : Event} {r : Reaction} (hr : r ∈ P.reactions s) (hm : r.ev = none ∨ r.ev = some e.ty)
    (h : Inv P.toChart noL none m) (hs : (m.heap s).isSome) (hou : OUBelow P.toChart s m) :
    Sim RR.answer (reactOne P s e r) (Ref.react P s e r.kind) m := by
  unfold reactOne
  rw [if_pos hm]
  cases hk : r.kind with
  | transition d a => exact sim_bind (transit_sim hwf hok hpl (hwf.trans_ok (h.live_bound hs) hr hk) h hs hou) fun _ _ _ => sim_pure RR.answer _
  | inState a => exact sim_bind (sim_runAction hpl h.filled a) fun _ _ _ => sim_pure RR.answer _
  | termination => exact sim_bind (terminateReaction_sim hwf hpl h hs) fun _ _ _ => sim_pure RR.answer _
  | deferral => exact sim_bind deferEvent_sim fun _ _ _ => sim_pure RR.answer _
  | custom id => exact customReact_sim hwf hok hpl h hs hou

theorem localReact_sim {s : Sid} {e : Event} (h : Inv P.toChart noL none m) (hs : (m.heap s).isSome) (hou : OUBelow P.toChart s m) :
    Sim RR.answer (localReact P s e (P.reactions s)) (Ref.local' P s e) m := by
  unfold Ref.local'
  have key : ∀ l : List Reaction, (∀ r ∈ l, r ∈ P.reactions s) → Sim RR.answer (localReact P s e l)
      (match l.find? fun r => r.ev = none ∨ r.ev = some e.ty with
        | none => pure .forward
        | some r => Ref.react P s e r.kind) m := by
    intro l
    induction l with
    | nil => intro _; exact sim_pure RR.answer .forward
    | cons r rs ih =>
      intro hl
      unfold localReact
      by_cases hm : r.ev = none ∨ r.ev = some e.ty
      · rw [List.find?_cons_of_pos (by simpa using hm)]
        refine sim_end ?_
        refine sim_assoc ?_
        have hw := reactOne_wp (F := fun _ _ => True) hwf hok anyUserMem (hl r (by simp)) hm h hs hou
        have : Sim RR.answer (reactOne P s e r >>= fun a => (if a = .noReaction then localReact P s e rs else pure a) >>= pure)
            (Ref.react P s e r.kind >>= pure) m := by
          refine sim_bind (reactOne_sim hwf hok hpl (hl r (by simp)) hm h hs hou) fun a m1 hm1 => ?_
          rw [if_neg (wp_okAt hw hm1).1]
          exact sim_pure RR.answer a
        refine this.congr ?_
        show Ref.react P s e r.kind (abs m) = Ref.R.bnd (Ref.react P s e r.kind) pure (abs m)
        unfold Ref.R.bnd
        cases Ref.react P s e r.kind (abs m) <;> rfl
      · rw [List.find?_cons_of_neg (by simpa using hm)]
        have he : reactOne P s e r = pure .noReaction := by unfold reactOne; rw [if_neg hm]
        rw [he]
        exact ih fun r hr => hl r (by simp [hr])
  exact key _ fun _ h => h

/-- The search for a reaction from `s` outward. -/
theorem reactF_sim {e : Event} : ∀ (f : Nat) (s : Sid) (m : Mach W), Inv P.toChart noL none m → (m.heap s).isSome →
    OUBelow P.toChart s m → Sim RR.answer (reactF P f s e) (Ref.offer P e (s :: P.ancestors s)) m := by
  intro f
  induction f with
  | zero => intro s m _ _ _; exact sim_fault _ _ _
  | succ f ih =>
    intro s m h hs hou
    unfold reactF Ref.offer
    refine sim_getObj fun o ho => ?_
    refine sim_bind (localReact_sim hwf hok hpl h hs hou) fun x m1 hm1 => ?_
    obtain ⟨hx, hq, hp⟩ := wp_okAt (localReact_wp (F := fun _ _ => True) hwf hok anyUserMem h hs hou _ (fun _ h => h)) hm1
    by_cases hf : x = .forward
    · subst hf
      have hq := hq (by simp)
      rw [if_pos rfl, if_pos (show RR.forward.answer = .forward from rfl)]
      refine sim_getObj fun o1 ho1 => ?_
      rw [if_pos (hp.inv.ctx ho1)]
      have hs1 : (m1.heap s).isSome := by rw [ho1]; rfl
      cases hpar : P.parent s with
      | none =>
        rw [ancestors_none hpar]
        exact sim_pure RR.answer .forward
      | some p =>
        rw [ancestors_some hwf (h.live_bound hs) hpar]
        exact ih p m1 hp.inv (hp.inv.par_live hs1 hpar) ((hou.quiet hq).up (t := p) (.step hpar .refl))
    · rw [if_neg hf, if_neg (by rw [answer_forward]; exact hf)]
      exact sim_pure RR.answer x

theorem reactImpl_sim {e : Event} {s : Sid} (h : Inv P.toChart noL none m) (hs : (m.heap s).isSome) (hou : OUBelow P.toChart s m) :
    Sim RR.answer (reactImpl P s e) (Ref.offerFrom P s e) m := reactF_sim hwf hok hpl _ _ _ h hs hou

theorem handleException_sim {cur : Option Sid} {ev : Event} {x : Exc} (h : Inv P.toChart noL none m)
    (hc : m.pOU = none → ∀ s, cur = some s → (∀ x, m.act x = false) ∨ m.act s = true) :
    Sim RR.answer (handleException P cur ev x) (Ref.handle P cur ev x) m := by
  unfold handleException Ref.handle
  refine sim_get2 ?_
  cases ho : m.outermost with
  | none =>
    have : m.terminated = true := by unfold Mach.terminated; rw [ho]; rfl
    rw [if_pos this]
    have hr : (abs m).root = none := ho
    rw [hr]
    exact sim_throw _ _
  | some o =>
    have : ¬ m.terminated = true := by unfold Mach.terminated; rw [ho]; simp
    rw [if_neg this]
    have hr : (abs m).root = some o := ho
    rw [hr]
    cases hh : m.handler cur with
    | none => exact sim_fault _ _ _
    | some s =>
      have hh' : (abs m).unstable.or cur = some s := by
        show m.pOU.or cur = some s
        unfold Mach.handler at hh
        cases hp : m.pOU with
        | none => rw [hp] at hh; simpa using hh
        | some u => rw [hp] at hh; simpa using hh
      rw [hh']
      have hlive : m.act s = true ∧ OUBelow P.toChart s m := by
        unfold Mach.handler at hh
        cases hp : m.pOU with
        | some u =>
          rw [hp] at hh
          simp only [Option.some.injEq] at hh
          subst hh
          refine ⟨(h.ou_live hp).1, ?_⟩
          intro v hv; rw [hp] at hv; cases hv; exact .refl
        | none =>
          rw [hp] at hh
          refine ⟨?_, fun v hv => (by rw [hp] at hv; cases hv)⟩
          rcases hc hp s hh with hd | hd
          · exfalso
            apply this
            unfold Mach.terminated
            rw [h.outer_dead hd]; rfl
          · exact hd
      refine sim_withTrig ?_
      refine sim_bind (sim_modify (g := fun m => { m with fullExit := false }) rfl) fun _ m1 hm1 => ?_
      cases hm1
      have h0 : Inv P.toChart noL none (m.handling ev) := h.setFlags m.ico false (some ev)
      refine sim_bind (reactImpl_sim hwf hok hpl (m := m.handling ev) h0 hlive.1 hlive.2) fun r m2 hm2 => ?_
      refine sim_bind (sim_modify (g := fun m => { m with fullExit := true }) rfl) fun _ m3 hm3 => ?_
      refine sim_get2 ?_
      have hu : (abs m3).unstable = m3.pOU := rfl
      rw [hu]
      by_cases hr : r ≠ .discard ∨ m3.pOU ≠ none
      · rw [if_pos hr, if_neg (by rw [answer_discard]; rintro ⟨a, b⟩; rcases hr with hr | hr <;> exact hr (by assumption))]
        exact sim_throw _ _
      · rw [if_neg hr, if_pos (by
          rw [answer_discard]
          exact ⟨Decidable.byContradiction fun hne => hr (.inl hne), Decidable.byContradiction fun hne => hr (.inr hne)⟩)]
        exact sim_pure RR.answer .discard

theorem translated_sim {cur : Option Sid} {x : M W RR} {F : Ref.R W Ref.Answer} (hx : Sim RR.answer x F m)
    (hi : ∀ e m', x m = .thrown e m' → Inv P.toChart noL none m' ∧ (m'.pOU = none → ∀ s, cur = some s → (∀ x, m'.act x = false) ∨ m'.act s = true)) :
    Sim RR.answer (translated P cur x) (Ref.translated P cur F) m := by
  unfold translated Ref.translated
  refine sim_tryCatch hx fun e m' hm' => ?_
  cases P.translate e with
  | none => exact sim_throw _ _
  | some ev =>
    obtain ⟨h1, h2⟩ := hi e m' hm'
    exact handleException_sim hwf hok hpl h1 h2

theorem stable_after {e : Event} {s : Sid} (hm : Stable P.toChart m) (hs : (m.heap s).isSome) {m' : Mach W}
    (hr : reactImpl P s e m = .ok .forward m') : Stable P.toChart m' ∧ Quiet m m' := by
  have hou : OUBelow P.toChart s m := by intro u hu; rw [hm.pOU] at hu; cases hu
  obtain ⟨_, hq, hp⟩ := wp_okAt (reactImpl_wp (F := fun _ _ => True) hwf hok anyUserMem hm.inv (e := e) hs hou) hr
  have hq := hq (by simp)
  exact ⟨⟨hp.inv, by rw [hq.pOU, hm.pOU], fun hi => by rw [hq.ico] at hi; rw [hq.act]; exact hm.ico hi, by rw [hp.fullExit, hm.fullExit],
    hp.flags hm.flags⟩, hq⟩

omit hwf hok hpl in
/-- `translated` answers only `discard` after an exception. -/
theorem translated_ok {cur : Option Sid} {x : M W RR} {r : RR} {m' : Mach W} (h : translated P cur x m = .ok r m') (hr : r ≠ .discard) :
    x m = .ok r m' := by
  unfold translated M.tryCatch at h
  cases hx : x m with
  | ok a m1 => rw [hx] at h; exact h
  | fault g => rw [hx] at h; cases h
  | thrown e m1 =>
    rw [hx] at h
    simp only at h
    exfalso
    cases ht : P.translate e with
    | none => rw [ht] at h; cases h
    | some ev =>
      rw [ht] at h
      simp only at h
      have : wp (handleException P cur ev e) (fun r _ => r = .discard) (fun _ _ => True) m1 ∨ ∃ g, handleException P cur ev e m1 = .fault g := by
        cases hh : handleException P cur ev e m1 with
        | fault g => exact .inr ⟨g, rfl⟩
        | thrown y m2 => left; unfold wp; rw [hh]; trivial
        | ok a m2 =>
          left
          unfold wp
          rw [hh]
          simp only
          unfold handleException at hh
          simp only [bind, M.bnd, M.get] at hh
          by_cases hterm : m1.terminated = true
          · rw [if_pos hterm] at hh; cases hh
          · rw [if_neg hterm] at hh
            cases hd : m1.handler cur with
            | none => rw [hd] at hh; cases hh
            | some s =>
              rw [hd] at hh
              simp only [withTrig, M.modify, M.bnd, M.get] at hh
              split at hh
              · next hq =>
                split at hq
                · split at hq
                  · cases hq
                  · cases hq; cases hh; rfl
                · cases hq
                · cases hq
              · cases hh
              · cases hh
      rcases this with h' | ⟨g, h'⟩
      · exact hr (wp_okAt h' h)
      · rw [h'] at h; cases h

theorem sendLoop_sim (e : Event) : ∀ (f i : Nat) (m : Mach W), i ≤ m.endIx → Stable P.toChart m →
    Sim RR.answer (sendLoop P e f i) (Ref.ask P e (m.leaves.drop i)) m := by
  intro f
  induction f with
  | zero => intro i m _ _; exact sim_fault _ _ _
  | succ f ih =>
    intro i m hi hm
    unfold sendLoop
    refine sim_get ?_
    by_cases he : i = m.endIx
    · rw [if_pos he]
      have : m.leaves.drop i = [] := by rw [hm.inv.leaves_eq]; simp; omega
      rw [this]
      exact sim_pure RR.answer .forward
    · rw [if_neg he]
      obtain ⟨s, o, h1, h2, _⟩ := hm.inv.slot_in (i := i) (by omega)
      rw [hm.inv.leaves_drop (i := i) (by omega) h1, h1]
      have hs : (m.heap s).isSome := by rw [h2]; rfl
      have hou : OUBelow P.toChart s m := by intro u hu; rw [hm.pOU] at hu; cases hu
      unfold Ref.ask
      have hw := reactImpl_wp (F := fun _ _ => True) hwf hok anyUserMem hm.inv (e := e) hs hou
      refine sim_bind (translated_sim hwf hok hpl (reactImpl_sim hwf hok hpl hm.inv hs hou) ?_) fun r m1 hm1 => ?_
      · intro x m2 hm2
        obtain ⟨hp, _⟩ := wp_thrownAt hw hm2
        refine ⟨hp.inv, ?_⟩
        intro hn s' hs'
        cases hs'
        rcases hp.kind with hq | hq | hq
        · exact .inr (by rw [hq.act]; exact hs)
        · exact absurd hn hq
        · exact .inl hq
      · by_cases hf : r = .forward
        · subst hf
          rw [if_pos rfl, if_pos (show RR.forward.answer = .forward from rfl)]
          obtain ⟨k1, k2⟩ := stable_after hwf hok hpl hm hs (translated_ok hm1 (by simp))
          have := ih (i + 1) m1 (by rw [k2.endIx]; omega) k1
          rw [k2.leaves] at this
          exact this
        · rw [if_neg hf, if_neg (by rw [answer_forward]; exact hf)]
          exact sim_pure RR.answer r

theorem sendEvent_sim (e : Event) (hm : Stable P.toChart m) : Sim RR.answer (sendEvent P e)
    (Ref.during (some e) (do
      let r ← Ref.guarded P (do
        let st ← Ref.R.get
        Ref.ask P e st.leaves)
      (if r = .forward then Ref.user (P.unconsumed e) [.unconsumed] [.unconsumed] else pure ())
      pure r)) m := by
  unfold sendEvent
  refine sim_withTrig ?_
  have h0 : Stable P.toChart (m.trigger e) := hm.setTrig (some e)
  have hw := sendLoop_wp (F := fun _ _ => True) hwf hok anyUserMem e (m.endIx + 1) 0 (m.trigger e) (by show m.endIx - 0 < _; omega) (Nat.zero_le _) h0
  have hbody : (M.get >>= fun m : Mach W => if m.pOU ≠ none then M.fault .assertFail else sendLoop P e (m.endIx + 1) 0) (m.trigger e) =
      sendLoop P e (m.endIx + 1) 0 (m.trigger e) := by
    simp only [bind, M.bnd, M.get]
    rw [if_neg]
    · rfl
    · rw [h0.pOU]; simp
  refine sim_bind (r := RR.answer) (sim_guardTerm hwf hpl ?_ ?_) fun r m1 hm1 => ?_
  · have := sendLoop_sim hwf hok hpl e (m.endIx + 1) 0 (m.trigger e) (Nat.zero_le _) h0
    exact this.step hbody rfl
  · intro y m' hm'
    have hm' : sendLoop P e (m.endIx + 1) 0 (m.trigger e) = .thrown y m' := by rw [← hbody]; exact hm'
    exact (wp_thrownAt hw hm').1
  · have hfill : Filled m1 := by
      unfold guardTerm at hm1
      rw [show ({ m with trig := some e } : Mach W) = m.trigger e from rfl, hbody] at hm1
      cases hl : sendLoop P e (m.endIx + 1) 0 (m.trigger e) with
      | ok a m2 =>
        rw [hl] at hm1
        cases hm1
        exact (wp_okAt hw hl).1.inv.filled
      | fault g => rw [hl] at hm1; cases hm1
      | thrown x m2 =>
        rw [hl] at hm1
        simp only at hm1
        split at hm1 <;> cases hm1
    refine sim_bind (r := id) ?_ fun _ _ _ => sim_pure RR.answer r
    by_cases hf : r = .forward
    · subst hf
      rw [if_pos rfl, if_pos (show RR.forward.answer = .forward from rfl)]
      exact sim_user (hpl.unconsumed e) _ _ hfill
    · rw [if_neg hf, if_neg (by rw [answer_forward]; exact hf)]
      exact sim_pure id ()

omit hwf hok hpl in
theorem sim_logged {r : α → β} {x : M W α} {F : Ref.R W β} {g : Mach W → Mach W} (hg : ∀ m, abs (g m) = abs m) (h : Sim r x F m) :
    Sim r (M.onThrow x (M.modify g)) F m := by
  unfold Sim M.onThrow M.modify
  cases hx : x m with
  | ok a m' => exact h.ok hx
  | fault f => trivial
  | thrown e m' =>
    have := h.thrown hx
    rw [← hg m'] at this
    exact this

theorem dispatch_sim (e : Event) (hm : Stable P.toChart m) : Sim id (dispatch P e) (Ref.dispatch P e) m := by
  unfold dispatch Ref.dispatch qop
  refine sim_bind (sim_logged (fun _ => rfl) (sendEvent_sim hwf hok hpl e hm)) fun r m1 hm1 => ?_
  by_cases hd : r = .defer
  · subst hd
    rw [if_pos rfl, if_pos (show RR.defer.answer = .defer from rfl)]
    refine sim_bind (sim_logged (fun _ => rfl) (sim_alloc _)) fun _ m2 _ => ?_
    exact sim_modify rfl
  · rw [if_neg hd, if_neg (by rw [answer_defer]; exact hd)]
    exact sim_silent rfl

theorem processQueued_sim : ∀ (k : Nat) (m : Mach W), Stable P.toChart m → Sim id (processQueued P k) (Ref.drain P k) m := by
  intro k
  induction k with
  | zero => intro m _; exact sim_get2 (sim_pure id _)
  | succ k ih =>
    intro m hm
    unfold processQueued Ref.drain
    refine sim_get2 ?_
    have he : (abs m).evq = m.evq := rfl
    rw [he]
    cases hq : m.evq with
    | nil => exact sim_pure id true
    | cons e q =>
      refine sim_bind (sim_modify (g := fun m => { m with evq := q, qlog := m.qlog ++ [.pop e] }) rfl) fun _ m1 hm1 => ?_
      cases hm1
      have h1 : Stable P.toChart ({ m with evq := q, qlog := m.qlog ++ [.pop e] } : Mach W) := hm.same ⟨by constructor <;> rfl, rfl, rfl, rfl, rfl⟩ hm.flags
      refine sim_bind (dispatch_sim hwf hok hpl e h1) fun _ m2 hm2 => ?_
      exact ih m2 (wp_okAt (dispatch_wp (F := fun _ _ => True) hwf hok anyUserMem e h1) hm2).1

theorem terminate_sim (hm : Stable P.toChart m) : Sim id (terminate P) (Ref.stop P) m := by
  unfold terminate Ref.stop
  refine sim_bind (r := RR.answer) ?_ fun _ _ _ => sim_pure id ()
  have h0 := hm.setTrig none
  have hbody : ∀ e m', (terminateMachine P true >>= fun _ => (pure RR.discard : M W RR)) m.untrigger = .thrown e m' →
      Inv P.toChart noL none m' ∧ (m'.pOU ≠ none ∨ ∀ s, m'.act s = false) := by
    intro e m' hm'
    refine wp_thrownAt (Q := fun _ _ => True) (E := fun _ m' => Inv P.toChart noL none m' ∧ (m'.pOU ≠ none ∨ ∀ s, m'.act s = false)) ?_ hm'
    simp only [wp_bind, wp_pure]
    refine wp_mono (terminateMachine_wp hwf true h0.inv) (fun _ _ _ => trivial) ?_
    rintro _ m1 ⟨hp, _⟩
    exact ⟨hp.inv, hp.unstable⟩
  have hw : wp (translated P none (terminateMachine P true >>= fun _ => (pure RR.discard : M W RR))) (fun _ _ => True)
      (fun _ m' => Inv P.toChart noL none m') m.untrigger := by
    simp only [translated, wp_tryCatch, wp_bind, wp_pure]
    refine wp_mono (wp_keeps (terminateMachine_wp hwf true h0.inv) (keeps_terminateMachine_flag _ _)) (fun _ _ _ => trivial) ?_
    rintro e m1 ⟨⟨hp, _⟩, hk⟩
    cases ht : P.translate e with
    | none => simp only [wp_throw]; exact hp.inv
    | some ev =>
      simp only
      refine wp_mono (handleException_wp (F := fun _ _ => True) hwf hok anyUserMem hp.inv (hk.flags h0.inv hm.flags) ?_) (fun _ _ _ => trivial) (fun _ _ h => h.1)
      intro hn
      rcases hp.unstable with h2 | h2
      · exact absurd hn h2
      · exact .inl h2
  refine sim_withTrig (sim_guardTerm hwf hpl (translated_sim hwf hok hpl ?_ ?_) ?_)
  · exact sim_bind (terminateMachine_sim hwf hpl true h0.inv) fun _ _ _ => sim_pure RR.answer .discard
  · intro e m' hm'
    exact ⟨(hbody e m' hm').1, fun _ s hs => by cases hs⟩
  · intro e m' hm'
    exact wp_thrownAt hw hm'

theorem construct_sim (k : Nat) (hm : Stable P.toChart m) (hd : ∀ x, m.act x = false) : Sim id (construct P k)
    (do
      let _ ← Ref.during none (Ref.guarded P (Ref.translated P none (do
        Ref.build P (Ref.depth P) (.deep P.initial)
        pure .discard)))
      Ref.drain P k) m := by
  unfold construct
  have h0 := hm.setTrig none
  have hpre : BPre P.toChart noL none [0] m.untrigger := by
    refine ⟨h0.inv, fun p hp => (by cases hp), ?_, fun _ => h0.pOU⟩
    intro c hc
    have := hd c
    unfold Mach.act at this
    rw [show m.untrigger.heap = m.heap from rfl, this] at hc
    cases hc
  have hcrit : critB P.toChart none [0] m.untrigger := by
    refine .inr ⟨⟨0, by simp, by simp [Chart.regions]⟩, hm.pOU⟩
  have hin := initialConstruct_wp (L := noL) (F := fun _ _ => True) hwf hok anyMem m.untrigger hpre
  have hw : wp (translated P none (initialConstruct P >>= fun _ => (pure RR.discard : M W RR))) (fun _ _ => True)
      (fun _ m' => Inv P.toChart noL none m') m.untrigger := by
    simp only [translated, wp_tryCatch, wp_bind, wp_pure]
    refine wp_mono (wp_keeps hin ((flagPrims P).build _ _ _)) (fun _ _ _ => trivial) ?_
    rintro e m1 ⟨⟨hp, _⟩, hk⟩
    cases ht : P.translate e with
    | none => simp only [wp_throw]; exact hp.inv
    | some ev =>
      simp only
      refine wp_mono (handleException_wp (F := fun _ _ => True) hwf hok anyUserMem hp.inv (hk.flags h0.inv hm.flags) ?_) (fun _ _ _ => trivial) (fun _ _ h => h.1)
      intro hn
      rcases hp.crit hcrit with h2 | h2
      · exact absurd hn h2
      · exact .inl h2
  have hS : Sim RR.answer (withTrig none (guardTerm P (translated P none (initialConstruct P >>= fun _ => (pure RR.discard : M W RR)))))
      (Ref.during none (Ref.guarded P (Ref.translated P none (do
        Ref.build P (Ref.depth P) (.deep P.initial)
        pure .discard)))) m := by
    refine sim_withTrig (sim_guardTerm hwf hpl (translated_sim hwf hok hpl ?_ ?_) ?_)
    · exact sim_bind (initialConstruct_sim hwf hok hpl hpre) fun _ _ _ => sim_pure RR.answer .discard
    · intro e m' hm'
      refine ⟨?_, fun _ s hs => by cases hs⟩
      refine wp_thrownAt (Q := fun _ _ => True) (E := fun _ m' => Inv P.toChart noL none m') ?_ hm'
      simp only [wp_bind, wp_pure]
      exact wp_mono hin (fun _ _ _ => trivial) (fun _ _ h => h.1.inv)
    · intro e m' hm'
      exact wp_thrownAt hw hm'
  refine sim_bind hS fun _ m1 hm1 => ?_
  refine processQueued_sim hwf hok hpl k m1 ?_
  have hg : wp (withTrig none (guardTerm P (translated P none (initBody P)))) (fun _ m' => Stable P.toChart m') (fun _ _ => True) m := by
    refine wp_mono (guarded_wp (F := fun _ _ => True) (Q := fun _ => True) hwf hok anyUserMem ?_ ?_ ?_) (fun _ _ h => h.1) (fun _ _ _ => trivial)
    · exact Keeps.bind keeps_initialConstruct_tag (fun _ => Keeps.pure _)
    · exact Keeps.bind keeps_initialConstruct_exc (fun _ => Keeps.pure _)
    · simp only [wp_bind, wp_pure]
      refine wp_mono (wp_keeps hin ((flagPrims P).build _ _ _)) ?_ ?_
      · rintro _ m' ⟨⟨l, hp⟩, hk⟩
        exact ⟨trivial, ⟨hp.inv, hp.crit hcrit, fun hi => (by rw [hp.ico] at hi; cases hi), by rw [hp.fullExit]; exact hm.fullExit, hk.flags h0.inv hm.flags⟩, trivial⟩
      · rintro e m' ⟨⟨hp, _⟩, hk⟩
        exact ⟨hp.inv, hk.flags h0.inv hm.flags, hp.crit hcrit, fun hn => torn_init h0.inv hd hp hcrit⟩
  exact wp_okAt (Q := fun _ m' => Stable P.toChart m') hg hm1

/-- The operation of the reference machine for a call. -/
def Call.op : Call → Ref.Op
  | .initiate k => .initiate k
  | .terminate => .terminate
  | .process e k => .process e k
  | .post e => .post e
  | .clearShallow k => .clearShallow k
  | .clearDeep k => .clearDeep k

theorem call_sim (c : Call) (hm : Stable P.toChart m) (hl : c.legal P m) : Sim id (c.run P) (Ref.run P c.op) m := by
  cases c with
  | initiate k =>
    refine sim_bind (terminate_sim hwf hok hpl hm) fun _ m1 hm1 => ?_
    have h1 := (wp_okAt (terminate_wp' hwf hok hm) hm1).1
    exact construct_sim hwf hok hpl k h1 ((h1.terminated_iff hwf).1 (hl m1 hm1))
  | terminate => exact sim_bind (terminate_sim hwf hok hpl hm) fun _ _ _ => sim_pure id true
  | process e k =>
    refine sim_skip (sim_silent rfl) fun _ m1 hm1 => ?_
    have hm1 : m1 = m.qop (.recv e) := by cases hm1; rfl
    have h1 : Stable P.toChart m1 := by
      rw [hm1]; exact hm.same ⟨by constructor <;> rfl, rfl, rfl, rfl, rfl⟩ hm.flags
    refine sim_bind (dispatch_sim hwf hok hpl e h1) fun _ m2 hm2 => ?_
    exact processQueued_sim hwf hok hpl k m2 (wp_okAt (dispatch_wp (F := fun _ _ => True) hwf hok anyUserMem e h1) hm2).1
  | post e =>
    refine sim_assoc (sim_bind (sim_alloc _) fun _ m1 _ => ?_)
    exact sim_bind (sim_modify (g := fun m => m.cmd (.post e)) (abs_cmd m1 _).symm) fun _ _ _ => sim_pure id true
  | clearShallow k =>
    refine sim_assoc (sim_bind (sim_node _ _ rfl _) fun _ m1 _ => ?_)
    exact sim_bind (sim_modify (g := fun m => m.cmd (.clearShallow k)) (abs_cmd m1 _).symm) fun _ _ _ => sim_pure id true
  | clearDeep k =>
    refine sim_assoc (sim_bind (sim_node _ _ rfl _) fun _ m1 _ => ?_)
    exact sim_bind (sim_modify (g := fun m => m.cmd (.clearDeep k)) (abs_cmd m1 _).symm) fun _ _ _ => sim_pure id true

end
end SC
