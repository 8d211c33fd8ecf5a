import Verif.Relax
import Verif.Defer
/-!
# Reactions of one state and of its outer states
-/

namespace SC
open Spec Chart
variable {W : Type} {P : Prog W} {m : Mach W} {F : Memory → Memory → Prop}

/-- Decisions the user's `react` members may return. -/
def Prog.decides (P : Prog W) (s : Sid) (id : Nat) (e : Event) (d : Decision) : Prop :=
  ∃ v w, (P.react s id e v w).2 = d ∧ (P.react s id e v w).1.throws = none

theorem TransitPost.transits (hwf : P.toChart.WF) {s t : Sid} {d : Target} {a : Option Nat} {l : List Sid} {m' : Mach W}
    (htr : P.transitOK s d a = true) (hr : P.relaxed = false) (hi : Inv P.toChart noL none m) (hs : (m.heap s).isSome)
    (h : TransitPost P.toChart F s d a t m m' l) :
    ∃ obs, m'.trace = m.trace ++ obs.map (fun o => (m.trig, o)) ∧ Transits P.toChart F m.fullExit s d a m.conf obs m'.conf := by
  obtain ⟨hsn, ⟨hdn, _, _⟩, t', k0, hpos⟩ := transitOK_spec htr
  obtain ⟨t'', g1, g2, g3⟩ := termState_spec hwf hsn hdn
  rw [h.term] at g1 k0; cases g1; cases k0
  have hpath := pathBelow_path hwf hdn (commonCtx_spec hwf hsn hdn).2.1
  obtain ⟨h1, k1, k2⟩ := h.mem
  rw [exits_eq, map_snd] at k1
  refine ⟨exitObs m.fullExit (exitOrder P.toChart m.act t) ++ acts a ++ exitObs m.fullExit [] ++ enterObs l, ?_,
    ⟨P.commonCtx s d.st, t, _, _, l, h1, commonCtx_common hwf hsn hdn, g2, g3, hi.leaves hwf (hi.live_of_below g3 hs) hr a, rfl,
      by simpa [exitObs, Mach.conf] using k1, k2, h.act, h.entered,
      P.firstEntered (P.commonCtx s d.st) d.st, hpath.head, hpos.symm, hpath.head_below⟩⟩
  rw [h.trace, exits_eq, enters_eq]
  simp [exitObs]

theorem RelaxPost.transits (hwf : P.toChart.WF) {s t : Sid} {d : Target} {a : Option Nat} {q : Option Sid} {l1 l2 l : List Sid} {m' : Mach W}
    (htr : P.transitOK s d a = true) (hq : Before P.toChart a = Inside P.toChart q) (h : RelaxPost P.toChart F s d q a t m m' l1 l2 l) :
    ∃ obs, m'.trace = m.trace ++ obs.map (fun o => (m.trig, o)) ∧ Transits P.toChart F m.fullExit s d a m.conf obs m'.conf := by
  obtain ⟨hsn, ⟨hdn, _, _⟩, t', k0, hpos⟩ := transitOK_spec htr
  obtain ⟨t'', g1, g2, g3⟩ := termState_spec hwf hsn hdn
  rw [h.term] at g1 k0; cases g1; cases k0
  have hpath := pathBelow_path hwf hdn (commonCtx_spec hwf hsn hdn).2.1
  obtain ⟨h1, k1, k2⟩ := h.mem
  exact ⟨_, h.trace, ⟨P.commonCtx s d.st, t, l1, l2, l, h1, commonCtx_common hwf hsn hdn, g2, g3, hq ▸ h.leaves, rfl, k1, k2, h.act,
    h.entered, P.firstEntered (P.commonCtx s d.st) d.st, hpath.head, hpos.symm, hpath.head_below⟩⟩

/-- With relaxed transition context the states left before the action `a` are those inside the context of `a`. -/
theorem before_relaxed {C : Chart} (hr : C.relaxed = true) (a : Option Nat) : Before C a = Inside C (C.ctxOf a) := by
  funext x
  rw [ctxOf_eq]
  exact propext ⟨fun h => h hr, fun h _ => h⟩

theorem TerminatePost.terminates {s : Sid} {m' : Mach W} (h : TerminatePost P.toChart F s m m') :
    ∃ obs, m'.trace = m.trace ++ obs.map (fun o => (m.trig, o)) ∧ Terminates P.toChart F m.fullExit s m.conf obs m'.conf := by
  refine ⟨_, ?_, ⟨rfl, ?_, h.act⟩⟩
  · rw [h.trace, exits_eq]; rfl
  · have := h.mem
    rw [exits_eq, map_snd] at this; exact this

/-- Some state was destroyed between `m` and `m'`. -/
def Razes (m m' : Mach W) : Prop := ∃ obs, m'.trace = m.trace ++ obs ∧ ∃ x, Obs.destroy x ∈ obs.map (·.2)

theorem Razes.after {m m1 m2 : Mach W} {obs : List (Option Event × Obs)} (h1 : m1.trace = m.trace ++ obs) (h : Razes m1 m2) : Razes m m2 := by
  obtain ⟨o2, h2, x, hx⟩ := h
  exact ⟨obs ++ o2, by rw [h2, h1, List.append_assoc], x, by rw [List.map_append]; exact List.mem_append_right _ hx⟩

theorem razes_of {m m' : Mach W} {Q : Conf → List Obs → Conf → Prop}
    (h : ∃ obs : List Obs, m'.trace = m.trace ++ obs.map (fun o => (m.trig, o)) ∧ Q m.conf obs m'.conf)
    (hQ : ∀ obs c', Q m.conf obs c' → ∃ x, Obs.destroy x ∈ obs) : Razes m m' := by
  obtain ⟨obs, h1, h2⟩ := h
  obtain ⟨x, hx⟩ := hQ _ _ h2
  exact ⟨_, h1, x, by rw [map_snd]; exact hx⟩

/-- A transition destroys its source state. -/
theorem Spec.Transits.razes {C : Chart} {full : Bool} {s : Sid} {d : Target} {a : Option Nat} {c c' : Conf} {obs : List Obs} (hs : c.act s = true)
    (h : Transits C F full s d a c obs c') : ∃ x, Obs.destroy x ∈ obs := by
  obtain ⟨k, t, l1, l2, l, h1, _, _, hb, hl, rfl, _⟩ := h.ex
  refine ⟨s, ?_⟩
  by_cases hB : Before C a s
  · have := mem_exitObs_destroy full ((hl.first.mem s).2 ⟨⟨hs, hb⟩, hB⟩)
    simp [this]
  · have := mem_exitObs_destroy full ((hl.rest.mem s).2 ⟨⟨hs, hb⟩, hB⟩)
    simp [this]

/-- A termination destroys the state. -/
theorem Spec.Terminates.razes {C : Chart} {full : Bool} {s : Sid} {c c' : Conf} {obs : List Obs} (h : Terminates C F full s c obs c') (hs : s ∈ exitOrder C c.act s) :
    ∃ x, Obs.destroy x ∈ obs := by
  rw [h.seen]
  exact ⟨s, mem_exitObs_destroy full (List.mem_append_left _ hs)⟩

/-- Normal completion of (part of) a reaction search; `Q` relates configurations,
observations and result. -/
structure RPost (C : Chart) (Q : Conf → List Obs → RR → Conf → Prop) (m m' : Mach W) (r : RR) : Prop where
  inv : Inv C noL none m'
  fullExit : m'.fullExit = m.fullExit
  trig : m'.trig = m.trig
  kind : Quiet m m' ∨ (r = .discard ∧ m'.pOU = none ∧ m'.ico = false ∧ Razes m m')
  flags : Flags m → Flags m'
  deferred : r = .defer → Flagged m'
  spec : ∃ obs, m'.trace = m.trace ++ obs.map (fun o => (m.trig, o)) ∧ Q m.conf obs r m'.conf

/-- Exceptional completion. -/
structure RThrow (C : Chart) (m m' : Mach W) : Prop where
  inv : Inv C noL none m'
  fullExit : m'.fullExit = m.fullExit
  trig : m'.trig = m.trig
  kind : Quiet m m' ∨ m'.pOU ≠ none ∨ ∀ x, m'.act x = false
  flags : Flags m → Flags m'
  torn : m.pOU = none → Shaken C m m'

theorem Fails.rthrow {C : Chart} {m m' : Mach W} (h : Fails C m m') (hf : Flags m → Flags m') : RThrow C m m' :=
  ⟨h.inv, h.fullExit, h.trig, .inr h.unstable, hf, fun hp => (h.torn hp).shaken⟩

theorem FlagRel.flags {C : Chart} {m m' : Mach W} (h : FlagRel m m') (hi : Inv C noL none m) : Flags m → Flags m' :=
  fun hf => (h ⟨hi.early, hf⟩).2

theorem RThrow.after {C : Chart} {m m1 m2 : Mach W} (hq : Quiet m m1) (hf : m1.fullExit = m.fullExit) (ht : m1.trig = m.trig)
    (hfl : Flags m → Flags m1) (hn : NoEnter m m1) (h : RThrow C m1 m2) : RThrow C m m2 := by
  refine ⟨h.inv, by rw [h.fullExit, hf], by rw [h.trig, ht], ?_, fun g => h.flags (hfl g), fun hp => (h.torn (by rw [hq.pOU, hp])).after hq.act hn⟩
  rcases h.kind with h | h
  · exact .inl (hq.trans h)
  · exact .inr h

theorem OUBelow.quiet {C : Chart} {s : Sid} {m m' : Mach W} (h : OUBelow C s m) (hq : Quiet m m') : OUBelow C s m' := by
  intro u hu; rw [hq.pOU] at hu; exact h u hu

theorem wp_deferEvent {s : Sid} (h : Inv P.toChart noL none m) (hs : (m.heap s).isSome) {Q : Unit → Mach W → Prop}
    {E : Exc → Mach W → Prop}
    (hq : ∀ m', Inv P.toChart noL none m' → Quiet m m' → m'.trace = m.trace ++ [(m.trig, .defer s)] → m'.mem = m.mem → m'.fullExit = m.fullExit →
      m'.trig = m.trig → Flagged m' → Q () m') : wp (deferEvent s) Q E m := by
  obtain ⟨o, ho⟩ := Option.isSome_iff_exists.1 hs
  unfold deferEvent
  simp only [wp_bind, wp_getObj]
  refine ⟨o, ho, ?_⟩
  rw [if_pos (h.ctx ho)]
  simp only [wp_modify]
  have hact : ∀ x, ((upd m.heap s (some { o with deferred := true })) x).isSome = (m.heap x).isSome := by
    intro x; simp only [upd]
    split
    · next hx => subst hx; simp [ho]
    · rfl
  have hback : ∀ {x o'}, upd m.heap s (some { o with deferred := true }) x = some o' →
      ∃ o, m.heap x = some o ∧ o'.rc = o.rc ∧ o'.ctxSet = o.ctxSet ∧ o'.inner = o.inner ∧ o'.lpos = o.lpos := by
    intro x o' hx
    simp only [upd] at hx
    split at hx
    · next hxs => cases hx; subst hxs; exact ⟨o, ho, rfl, rfl, rfl, rfl⟩
    · exact ⟨o', hx, rfl, rfl, rfl, rfl⟩
  have hfwd : ∀ {x o'}, m.heap x = some o' → ∃ o2, upd m.heap s (some { o with deferred := true }) x = some o2 ∧ o2.lpos = o'.lpos := by
    intro x o' hx
    simp only [upd]
    split
    · next hxs => subst hxs; rw [ho] at hx; cases hx; exact ⟨_, rfl, rfl⟩
    · exact ⟨o', hx, rfl⟩
  have hA : Mach.act { m with heap := upd m.heap s (some { o with deferred := true }), qlog := m.qlog ++ [.hold s] } = m.act := by
    funext x; exact hact x
  have hI : Inv P.toChart noL none { m with heap := upd m.heap s (some { o with deferred := true }), qlog := m.qlog ++ [.hold s] } := ?_
  · refine hq _ (hI.user (obs := [.defer s]) ((cmds_step [] _).logs [.defer s]) ?_) ⟨hA, rfl, rfl, rfl, rfl, List.prefix_refl _, rfl⟩ rfl
      (mem_log _ _ rfl) rfl rfl ⟨s, { o with deferred := true }, by simp [upd, Mach.log], rfl⟩
    intro o' ho'
    simp only [List.mem_singleton] at ho'
    subst ho'
    simp only [lifeStep]
    rw [if_pos]
    refine ⟨trivial, ?_⟩
    rw [hA]; exact hs
  constructor
  · intro x o' hx; obtain ⟨o2, h1, _⟩ := hback hx; exact h.bound h1
  · intro x o' hx; obtain ⟨o2, h1, _, h2, _⟩ := hback hx; rw [h2]; exact h.ctx h1
  · intro p o' i c hx
    obtain ⟨o2, h1, _, _, h2, _⟩ := hback hx
    rw [h2]
    have := h.inner_iff h1 (i := i) (c := c)
    simp only [hact]; exact this
  · intro x p; simp only [hact]; exact h.par_live
  · intro x; simp only [hact]; exact h.outer
  · intro i hi
    obtain ⟨x, o', h1, h2, h3, h4⟩ := h.slot_in hi
    obtain ⟨o2, h5, h6⟩ := hfwd h2
    exact ⟨x, o2, h1, h5, h3, by rw [h6, h4]⟩
  · exact h.slot_out
  · exact h.end_le
  · intro x o' hx hl hL; obtain ⟨o2, h1, _, _, _, h2⟩ := hback hx; rw [h2]; exact h.leaf_in h1 hl hL
  · intro x o' hx
    obtain ⟨o2, h1, h2, _, h3, h4⟩ := hback hx
    rw [h2, h3, h4]; exact h.rc h1
  · intro x hx; have := h.ou_live hx; simp only [hact]; exact this
  · intro x hx; exact absurd rfl hx
  · intro x o' hx hl hn; obtain ⟨o2, h1, _, _, h2, _⟩ := hback hx; rw [h2] at hn; exact h.noOrphan h1 hl hn
  · exact ⟨h.hist.sh, h.hist.dh⟩
  · rw [hA]; exact h.tr

section
variable (hwf : P.toChart.WF) (hok : Contract P) (hF : UserMem P F)
include hwf hok hF

/-- A transition, with or without relaxed transition context. -/
theorem transit_wp {s : Sid} {d : Target} {a : Option Nat} (hd : P.transitOK s d a = true) (h : Inv P.toChart noL none m) (hs : (m.heap s).isSome)
    (hou : OUBelow P.toChart s m) :
    wp (transit P s d a)
      (fun _ m' => m'.pOU = none ∧ m'.ico = false ∧ RPost P.toChart (fun c obs _ c' => Transits P.toChart F m.fullExit s d a c obs c') m m' .discard)
      (fun _ m' => RThrow P.toChart m m' ∧ RCut (TransitsUntil P.toChart F m.fullExit s d a) m m') m := by
  have hfl := keeps_transit_flag (P := P) s d a m
  unfold transit at hfl ⊢
  by_cases hr : P.relaxed = true
  · rw [if_pos hr] at hfl ⊢
    have hB := before_relaxed hr a
    refine wp_mono (wp_keeps (transitRelaxed_wp hwf hok hF hd (ctxOf_eq (C := P.toChart) a ▸ transitOK_ctx hd hr) h hs hou) hfl) ?_ ?_
    · rintro _ m' ⟨⟨t, l1, l2, l, hp⟩, hk⟩
      exact ⟨hp.pOU, hp.ico, hp.inv, hp.fullExit, hp.trig, .inr ⟨rfl, hp.pOU, hp.ico, razes_of (hp.transits hwf hd hB) fun _ _ h => h.razes hs⟩, hk.flags h, fun h => (by cases h), hp.transits hwf hd hB⟩
    · rintro _ m' ⟨⟨hp, hc⟩, hk⟩
      exact ⟨⟨hp.inv, hp.fullExit, hp.trig, hp.kind.symm, hk.flags h, hp.shaken hr (by rintro rfl; exact ctxOf_eq (C := P.toChart) none)⟩, hc hB⟩
  · rw [if_neg hr] at hfl ⊢
    have hr' : P.relaxed = false := by simpa using hr
    refine wp_mono (wp_keeps (transitDefault_wp hwf hok hF hd h hs hou) hfl) ?_
      (fun _ _ hp => ⟨hp.1.1.rthrow (hp.2.flags h), hp.1.2 hr'⟩)
    rintro _ m' ⟨⟨t, l, hp⟩, hk⟩
    exact ⟨hp.pOU, hp.ico, hp.inv, hp.fullExit, hp.trig, .inr ⟨rfl, hp.pOU, hp.ico, razes_of (hp.transits hwf hd hr' h hs) fun _ _ h => h.razes hs⟩, hk.flags h, fun h => (by cases h), hp.transits hwf hd hr' h hs⟩

theorem reactOne_wp {s : Sid} {e : Event} {r : Reaction} (hr : r ∈ P.reactions s) (hm : r.ev = none ∨ r.ev = some e.ty)
    (h : Inv P.toChart noL none m) (hs : (m.heap s).isSome) (hou : OUBelow P.toChart s m) :
    wp (reactOne P s e r)
      (fun x m' => x ≠ .noReaction ∧ RPost P.toChart (fun c obs x c' => Fires F (.code P.toChart F m.fullExit) P.decides s e c r.kind obs x c') m m' x)
      (fun _ m' => RThrow P.toChart m m' ∧ RCut (fun c obs => FiresUntil F (.code P.toChart F m.fullExit) P.decides s e c r.kind obs) m m') m := by
  have hsn := h.live_bound hs
  have htrans : ∀ (m : Mach W) (d : Target) (a : Option Nat), Inv P.toChart noL none m → (m.heap s).isSome → OUBelow P.toChart s m →
      P.transitOK s d a = true → wp (transit P s d a)
        (fun _ m' => RPost P.toChart (fun c obs _ c' => Transits P.toChart F m.fullExit s d a c obs c') m m' .discard)
        (fun _ m' => RThrow P.toChart m m' ∧ RCut (TransitsUntil P.toChart F m.fullExit s d a) m m') m := by
    intro m d a h hs hou hd
    exact wp_mono (transit_wp hwf hok hF hd h hs hou) (fun _ _ h => h.2.2) (fun _ _ h => h)
  have hterm : ∀ (m : Mach W), Inv P.toChart noL none m → (m.heap s).isSome → OUBelow P.toChart s m →
      wp (terminateReaction P s)
        (fun _ m' => RPost P.toChart (fun c obs _ c' => Terminates P.toChart F m.fullExit s c obs c') m m' .discard)
        (fun _ m' => RThrow P.toChart m m' ∧ RCut (TerminatesUntil P.toChart m.fullExit s) m m') m := by
    intro m h hs hou
    refine wp_mono (wp_keeps (terminateReaction_wp hwf hF h hs hou) (keeps_terminateReaction_flag s m)) ?_
      (fun _ _ hp => ⟨hp.1.1.rthrow (hp.2.flags h), hp.1.2⟩)
    rintro _ m' ⟨hp, hk⟩
    exact ⟨hp.inv, hp.fullExit, hp.trig, .inr ⟨rfl, hp.pOU, hp.ico, razes_of hp.terminates fun _ _ hh => hh.razes ((h.mem_exitOrder hwf hs).2 ⟨hs, .refl⟩)⟩, hk.flags h, fun h => (by cases h), hp.terminates⟩
  unfold reactOne
  rw [if_pos hm]
  cases hk : r.kind with
  | transition d a =>
    simp only [wp_bind, wp_pure]
    refine wp_mono (htrans m d a h hs hou (hwf.trans_ok hsn hr hk)) ?_ (fun _ _ h => ⟨h.1, h.2.imp fun _ h => .transition h⟩)
    intro _ m' hp
    obtain ⟨obs, g1, g2⟩ := hp.spec
    exact ⟨by simp, hp.inv, hp.fullExit, hp.trig, hp.kind, hp.flags, hp.deferred, obs, g1, .transition g2⟩
  | inState a =>
    simp only [wp_bind, wp_pure]
    have := wp_keeps (K := memK P.toChart hF.pre) (wp_runAction (P := P) h a
      (Q := fun _ m' => UserStep m m' (acts a) ∧ Inv P.toChart noL none m')
      (E := fun _ m' => UserStep m m' (acts a) ∧ Inv P.toChart noL none m' ∧ a ≠ none)
      (fun _ a b => ⟨a, b⟩) (fun _ _ a b c => ⟨a, b, c⟩)) ((memPrims hF).action a _)
    refine wp_mono this ?_ ?_
    · rintro _ m' ⟨⟨hu, hi⟩, hkk⟩
      refine ⟨by simp, hi, hu.core.fullExit, hu.core.trig, .inl hu.quiet, hu.flagRel.flags h, fun h => (by cases h), acts a, hu.trace, ?_⟩
      have hf : F m.mem m'.mem := by
        have := memK_obs hF.pre hkk hu.trace
        rw [map_snd] at this
        have hn : ∀ (l : List Obs) h h', (∀ o ∈ l, ∀ s, o ≠ .exit s) → MemRun P.toChart F h l h' → F h h' := by
          intro l h h' hl hr
          induction hr with
          | nil h => exact h
          | exit _ _ _ _ => exact absurd rfl (hl _ List.mem_cons_self _)
          | other _ _ ih => exact ih (fun o ho => hl o (by simp [ho]))
        refine hn _ _ _ ?_ this
        cases a <;> simp [acts]
      have he : m'.conf = ⟨m.conf.act, m'.mem⟩ := by unfold Mach.conf; rw [hu.core.act]
      rw [he]
      exact .inState hf
    · rintro x m' ⟨⟨hu, hi, hane⟩, _⟩
      refine ⟨⟨hi, hu.core.fullExit, hu.core.trig, .inl hu.quiet, hu.flagRel.flags h, fun hp => Torn.shaken (.refl (noEnter_of hu.trace ?_) hu.core.act (by rw [hu.core.pOU, hp]))⟩,
        _, hu.trace, ?_⟩
      · cases a <;> simp [acts]
      · cases a with
        | none => exact absurd rfl hane
        | some a => exact .inState
  | termination =>
    simp only [wp_bind, wp_pure]
    refine wp_mono (hterm m h hs hou) ?_ (fun _ _ h => ⟨h.1, h.2.imp fun _ h => .termination h⟩)
    intro _ m' hp
    obtain ⟨obs, g1, g2⟩ := hp.spec
    exact ⟨by simp, hp.inv, hp.fullExit, hp.trig, hp.kind, hp.flags, hp.deferred, obs, g1, .termination g2⟩
  | deferral =>
    simp only [wp_bind, wp_pure]
    refine wp_deferEvent h hs ?_
    intro m' g1 g2 g3 g4 g5 g6 g7
    refine ⟨by simp, g1, g5, g6, .inl g2, fun _ _ => g7, fun _ => g7, [.defer s], by simp [g3], ?_⟩
    have he : m'.conf = m.conf := by unfold Mach.conf; rw [g2.act, g4]
    rw [he]; exact .deferral
  | custom id =>
    unfold customReact
    simp only [wp_bind, wp_get]
    have hru : wp (runUser (fun v w => (P.react s id e v w).1) [.react s id] [.react s id])
        (fun _ m' => UserStep m m' [.react s id] ∧ F m.mem m'.mem ∧ (P.react s id e m.view m.world).1.throws = none)
        (fun _ m' => UserStep m m' [.react s id]) m := by
      unfold wp runUser
      have hst := world_step m (P.react s id e m.view m.world).1.world (P.react s id e m.view m.world).1.cmds
      have hf := hF.react s id e m.view m.world { m with world := (P.react s id e m.view m.world).1.world }
      cases hx : (P.react s id e m.view m.world).1.throws with
      | none =>
        simp only [hx]
        refine ⟨hst.logs [.react s id], ?_, trivial⟩
        exact by rw [List.foldl_cons, List.foldl_nil, mem_log _ (Obs.react s id) rfl]; exact hf
      | some x =>
        simp only [hx]
        exact (hst.logs [.react s id]).raise x
    have hinv : ∀ m', UserStep m m' [.react s id] → Inv P.toChart noL none m' := by
      intro m' hu
      refine h.user hu ?_
      intro o ho
      simp only [List.mem_singleton] at ho
      subst ho
      simp only [lifeStep]
      rw [if_pos]
      exact ⟨trivial, hs⟩
    refine wp_mono hru ?_ ?_
    · rintro _ m1 ⟨hu, hf, hth⟩
      have h1 := hinv m1 hu
      have hs1 : (m1.heap s).isSome := by rw [hu.core.heap]; exact hs
      have hou1 := hou.quiet hu.quiet
      have he : m1.conf = ⟨m.conf.act, m1.mem⟩ := by unfold Mach.conf; rw [hu.core.act]
      cases hd : (P.react s id e m.view m.world).2 with
      | discard =>
        simp only [wp_pure]
        refine ⟨by simp, h1, hu.core.fullExit, hu.core.trig, .inl hu.quiet, hu.flagRel.flags h, fun h => (by cases h), [.react s id], hu.trace, ?_⟩
        rw [he]; exact .discard hf ⟨_, _, hd, hth⟩
      | forward =>
        simp only [wp_pure]
        refine ⟨by simp, h1, hu.core.fullExit, hu.core.trig, .inl hu.quiet, hu.flagRel.flags h, fun h => (by cases h), [.react s id], hu.trace, ?_⟩
        rw [he]; exact .forward hf ⟨_, _, hd, hth⟩
      | defer =>
        simp only [wp_bind, wp_pure]
        refine wp_deferEvent h1 hs1 ?_
        intro m' g1 g2 g3 g4 g5 g6 g7
        refine ⟨by simp, g1, by rw [g5, hu.core.fullExit], by rw [g6, hu.core.trig], .inl (hu.quiet.trans g2), fun _ _ => g7, fun _ => g7, [.react s id, .defer s],
          by rw [g3, hu.trace, hu.core.trig]; simp, ?_⟩
        have he' : m'.conf = ⟨m.conf.act, m1.mem⟩ := by rw [← he]; unfold Mach.conf; rw [g2.act, g4]
        rw [he']; exact .defer hf ⟨_, _, hd, hth⟩
      | transit d a =>
        simp only [wp_bind, wp_pure]
        refine wp_mono (htrans m1 d a h1 hs1 hou1 (hok.react _ _ _ _ _ _ _ hd)) ?_
          (fun _ _ h' => ⟨h'.1.after hu.quiet hu.core.fullExit hu.core.trig (hu.flagRel.flags h) (noEnter_of hu.trace (by simp)), ?_⟩)
        rotate_left
        · obtain ⟨obs, g1, g2⟩ := h'.2
          rw [hu.core.fullExit, he] at g2
          exact ⟨.react s id :: obs, by rw [g1, hu.trace, hu.core.trig]; simp, .transit hf ⟨_, _, hd, hth⟩ g2⟩
        intro _ m' hp
        obtain ⟨obs, g1, g2⟩ := hp.spec
        rw [hu.core.fullExit, he] at g2
        refine ⟨by simp, hp.inv, by rw [hp.fullExit, hu.core.fullExit], by rw [hp.trig, hu.core.trig], ?_, fun hh => hp.flags (hu.flagRel.flags h hh), fun h => (by cases h), .react s id :: obs, ?_,
          .transit hf ⟨_, _, hd, hth⟩ g2⟩
        · rcases hp.kind with g | g
          · exact .inl (hu.quiet.trans g)
          · exact .inr ⟨g.1, g.2.1, g.2.2.1, g.2.2.2.after hu.trace⟩
        · rw [g1, hu.trace, hu.core.trig]; simp
      | terminate =>
        simp only [wp_bind, wp_pure]
        refine wp_mono (hterm m1 h1 hs1 hou1) ?_
          (fun _ _ h' => ⟨h'.1.after hu.quiet hu.core.fullExit hu.core.trig (hu.flagRel.flags h) (noEnter_of hu.trace (by simp)), ?_⟩)
        rotate_left
        · obtain ⟨obs, g1, g2⟩ := h'.2
          rw [hu.core.fullExit, he] at g2
          exact ⟨.react s id :: obs, by rw [g1, hu.trace, hu.core.trig]; simp, .terminate hf ⟨_, _, hd, hth⟩ g2⟩
        intro _ m' hp
        obtain ⟨obs, g1, g2⟩ := hp.spec
        rw [hu.core.fullExit, he] at g2
        refine ⟨by simp, hp.inv, by rw [hp.fullExit, hu.core.fullExit], by rw [hp.trig, hu.core.trig], ?_, fun hh => hp.flags (hu.flagRel.flags h hh), fun h => (by cases h), .react s id :: obs, ?_,
          .terminate hf ⟨_, _, hd, hth⟩ g2⟩
        · rcases hp.kind with g | g
          · exact .inl (hu.quiet.trans g)
          · exact .inr ⟨g.1, g.2.1, g.2.2.1, g.2.2.2.after hu.trace⟩
        · rw [g1, hu.trace, hu.core.trig]; simp
    · intro x m1 hu
      exact ⟨⟨hinv m1 hu, hu.core.fullExit, hu.core.trig, .inl hu.quiet, hu.flagRel.flags h,
        fun hp => Torn.shaken (.refl (noEnter_of hu.trace (by simp)) hu.core.act (by rw [hu.core.pOU, hp]))⟩, _, hu.trace, .react⟩

theorem localReact_wp {s : Sid} {e : Event} (h : Inv P.toChart noL none m) (hs : (m.heap s).isSome) (hou : OUBelow P.toChart s m) :
    ∀ (l : List Reaction), (∀ r ∈ l, r ∈ P.reactions s) →
    wp (localReact P s e l)
      (fun x m' => x ≠ .noReaction ∧ (x ≠ .discard → Quiet m m') ∧
        RPost P.toChart (fun c obs x c' => Local F (.code P.toChart F m.fullExit) P.decides s e l c obs x c') m m' x)
      (fun _ m' => RThrow P.toChart m m' ∧ RCut (LocalUntil F (.code P.toChart F m.fullExit) P.decides s e l) m m') m := by
  intro l
  induction l with
  | nil =>
    intro _
    exact ⟨by simp, fun _ => .refl _, h, rfl, rfl, .inl (.refl _), id, fun h => (by cases h), [], by simp, .none⟩
  | cons r rs ih =>
    intro hl
    unfold localReact
    simp only [wp_bind]
    by_cases hm : r.ev = none ∨ r.ev = some e.ty
    · refine wp_mono (reactOne_wp hwf hok hF (hl r (by simp)) hm h hs hou) ?_
        (fun _ _ h => ⟨h.1, h.2.imp fun _ h => ⟨[], r, rs, rfl, by simp, hm, h⟩⟩)
      rintro x m' ⟨hx, hp⟩
      rw [if_neg hx]
      simp only [wp_pure]
      obtain ⟨obs, g1, g2⟩ := hp.spec
      refine ⟨hx, ?_, hp.inv, hp.fullExit, hp.trig, hp.kind, hp.flags, hp.deferred, obs, g1, .fire hm g2⟩
      intro hd
      rcases hp.kind with g | g
      · exact g
      · exact absurd g.1 hd
    · unfold reactOne
      rw [if_neg hm]
      simp only [wp_pure, if_true]
      refine wp_mono (ih (fun r hr => hl r (by simp [hr]))) ?_ ?_
      rotate_left
      · rintro x m' ⟨h1, h2⟩
        refine ⟨h1, h2.imp ?_⟩
        rintro _ ⟨l1, r', l2, k1, k2, k3⟩
        refine ⟨r :: l1, r', l2, by rw [k1]; rfl, ?_, k3⟩
        intro q hq
        rcases List.mem_cons.1 hq with rfl | hq
        · exact ⟨fun h => hm (.inl h), fun h => hm (.inr h)⟩
        · exact k2 q hq
      rintro x m' ⟨hx, hq, hp⟩
      obtain ⟨obs, g1, g2⟩ := hp.spec
      refine ⟨hx, hq, hp.inv, hp.fullExit, hp.trig, hp.kind, hp.flags, hp.deferred, obs, g1, .skip ?_ ?_ g2⟩
      · exact fun h => hm (.inl h)
      · exact fun h => hm (.inr h)

/-- Reaction search from `s` outward. -/
theorem reactF_wp {e : Event} : ∀ (f : Nat) (s : Sid) (m : Mach W), s < f → Inv P.toChart noL none m → (m.heap s).isSome →
    OUBelow P.toChart s m →
    wp (reactF P f s e)
      (fun x m' => x ≠ .noReaction ∧ (x ≠ .discard → Quiet m m') ∧
        RPost P.toChart (fun c obs x c' => Search P.toChart F (.code P.toChart F m.fullExit) P.decides e s c obs x c') m m' x)
      (fun _ m' => RThrow P.toChart m m' ∧
        RCut (SearchUntil P.toChart F (.code P.toChart F m.fullExit) (.code P.toChart F m.fullExit) P.decides e s) m m') m := by
  intro f
  induction f with
  | zero => intro s m hf; omega
  | succ f ih =>
    intro s m hf h hs hou
    have hsn := h.live_bound hs
    obtain ⟨o, ho⟩ := Option.isSome_iff_exists.1 hs
    unfold reactF
    simp only [wp_bind, wp_getObj]
    refine ⟨o, ho, ?_⟩
    refine wp_mono (localReact_wp hwf hok hF h hs hou _ (fun _ h => h)) ?_
      (fun _ _ h => ⟨h.1, h.2.imp fun obs h => ⟨[], s, _, obs, rfl, .here, h⟩⟩)
    rintro x m1 ⟨hx, hq, hp⟩
    obtain ⟨obs, g1, g2⟩ := hp.spec
    by_cases hf : x = .forward
    · subst hf
      rw [if_pos rfl]
      have hq := hq (by simp)
      have hs1 : (m1.heap s).isSome := by
        have : m1.act s = true := by rw [hq.act]; exact hs
        exact this
      obtain ⟨o1, ho1⟩ := Option.isSome_iff_exists.1 hs1
      simp only [wp_bind, wp_getObj]
      refine ⟨o1, ho1, ?_⟩
      rw [if_pos (hp.inv.ctx ho1)]
      cases hpar : P.parent s with
      | none =>
        simp only [wp_pure]
        exact ⟨by simp, fun _ => hq, hp.inv, hp.fullExit, hp.trig, hp.kind, hp.flags, hp.deferred, obs, g1, .top g2 hpar⟩
      | some p =>
        simp only
        have hou1 := (hou.quiet hq).up (t := p) (.step hpar .refl)
        have := hwf.parent_lt hsn hpar
        refine wp_mono (ih p m1 (by omega) hp.inv (hp.inv.par_live hs1 hpar) hou1) ?_
          (fun _ _ h => ⟨h.1.after hq hp.fullExit hp.trig hp.flags (noEnter_of g1 (g2.noEnter rfl)), ?_⟩)
        rotate_left
        · obtain ⟨ob, k1, o1, k, c1, o2, rfl, k2, k3⟩ := h.2
          rw [hp.fullExit] at k2 k3
          exact ⟨obs ++ (o1 ++ o2), by rw [k1, g1, hp.trig]; simp, obs ++ o1, k, c1, o2, by simp, .out g2 hpar k2, k3⟩
        rintro x m2 ⟨hx2, hq2, hp2⟩
        obtain ⟨obs2, k1, k2⟩ := hp2.spec
        rw [hp.fullExit] at k2
        refine ⟨hx2, fun hf => hq.trans (hq2 hf), hp2.inv, by rw [hp2.fullExit, hp.fullExit], by rw [hp2.trig, hp.trig], ?_,
          fun h => hp2.flags (hp.flags h), hp2.deferred, obs ++ obs2, ?_, .out g2 hpar k2⟩
        · rcases hp2.kind with g | g
          · exact .inl (hq.trans g)
          · exact .inr ⟨g.1, g.2.1, g.2.2.1, g.2.2.2.after g1⟩
        · rw [k1, g1, hp.trig]; simp
    · rw [if_neg hf]
      simp only [wp_pure]
      exact ⟨hx, hq, hp.inv, hp.fullExit, hp.trig, hp.kind, hp.flags, hp.deferred, obs, g1, .stop g2 hf⟩

theorem reactImpl_wp {e : Event} {s : Sid} (h : Inv P.toChart noL none m) (hs : (m.heap s).isSome) (hou : OUBelow P.toChart s m) :
    wp (reactImpl P s e)
      (fun x m' => x ≠ .noReaction ∧ (x ≠ .discard → Quiet m m') ∧
        RPost P.toChart (fun c obs x c' => Search P.toChart F (.code P.toChart F m.fullExit) P.decides e s c obs x c') m m' x)
      (fun _ m' => RThrow P.toChart m m' ∧
        RCut (SearchUntil P.toChart F (.code P.toChart F m.fullExit) (.code P.toChart F m.fullExit) P.decides e s) m m') m :=
  reactF_wp hwf hok hF _ _ _ (Nat.lt_succ_self s) h hs hou

end

end SC
