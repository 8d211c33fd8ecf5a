import Verif.Send
/-!
# The public member functions
-/

namespace SC
open Spec Chart
variable {W α : Type} {P : Prog W} {m : Mach W} {F : Memory → Memory → Prop}

/-- The dispatch of `e` begins. -/
def Mach.trigger (m : Mach W) (e : Event) : Mach W := { m with trig := some e }

/-- Normal end of `send_event`: the search `Sent`, and `unconsumed_event` if all states forwarded. -/
inductive SendOk (P : Prog W) (F : Memory → Memory → Prop) (e : Event) (m : Mach W) : RR → Mach W → Prop
  | consumed {r m'} : Sent P F e m.leaves (m.trigger e) r m' → r ≠ .forward → SendOk P F e m r { m' with trig := m.trig }
  | unconsumed {m1 m'} : Sent P F e m.leaves (m.trigger e) .forward m1 → m1.trig = some e → UserStep m1 m' [.unconsumed] → F m1.mem m'.mem →
      m'.xlog = m1.xlog → SendOk P F e m .forward { m' with trig := m.trig }

/-- Exceptional end of `send_event`. -/
inductive SendFails (P : Prog W) (F : Memory → Memory → Prop) (e : Event) (m : Mach W) : Exc → Mach W → Prop
  /-- exception from `unconsumed_event`: nothing else happens -/
  | unconsumed {y m1 m'} : Stable P.toChart m' → Quiet m m' → Sent P F e m.leaves (m.trigger e) .forward m1 → m1.trig = some e →
      UserStep m1 m' [.unconsumed] → F m1.mem m'.mem → m'.xlog = m1.xlog ++ [y] → SendFails P F e m y { m' with trig := m.trig }
  /-- exception from a reaction: the machine is terminated -/
  | died {y m1 m'} : SendThrows P F e m.leaves (m.trigger e) y m1 → Inv P.toChart noL none m1 → TermPost P.toChart false m1 m' →
      m1.trig = some e → m'.xlog = m1.xlog → SendFails P F e m y { m' with trig := m.trig }

theorem TermPost.setTrig {C : Chart} {full : Bool} {m m' : Mach W} (h : TermPost C full m m') (t : Option Event) :
    Stable C { m' with trig := t } := h.stable.setTrig t

theorem Quiet.ofTrigger {e : Event} {m m' : Mach W} (h : Quiet (m.trigger e) m') : Quiet m m' :=
  ⟨h.act, h.slot, h.endIx, h.pOU, h.ico, h.evq, h.dq⟩

section
variable (hwf : P.toChart.WF) (hok : Contract P) (hF : UserMem P F)
include hwf hok hF

theorem sendEvent_wp (e : Event) (hm : Stable P.toChart m) :
    wp (sendEvent P e)
      (fun r m' => Stable P.toChart m' ∧ m'.trig = m.trig ∧ r ≠ .noReaction ∧ (r ≠ .discard → Quiet m m') ∧
        (r = .defer → Flagged m') ∧ SendOk P F e m r m')
      (fun y m' => Stable P.toChart m' ∧ m'.trig = m.trig ∧ SendFails P F e m y m') m := by
  unfold sendEvent
  simp only [wp_withTrig, wp_bind, wp_guardTerm, wp_get]
  have h0 : Stable P.toChart (m.trigger e) := hm.setTrig (some e)
  rw [if_neg (by rw [hm.pOU]; simp)]
  have := sendLoop_wp hwf hok hF e (m.endIx + 1) 0 (m.trigger e) (by show m.endIx - 0 < _; omega) (Nat.zero_le _) h0
  have hl : (m.trigger e).leaves.drop 0 = m.leaves := rfl
  rw [hl] at this
  refine wp_mono this ?_ ?_
  · rintro r m' ⟨h1, h2, h3, h4, h6, h5⟩
    by_cases hr : r = .forward
    · rw [if_pos hr]
      subst hr
      have hq : Quiet m m' := (h4 (by simp)).ofTrigger
      have hstep : ∀ {m''}, UserStep m' m'' [.unconsumed] → Stable P.toChart m'' ∧ Quiet m m'' := by
        intro m'' hu
        refine ⟨⟨h1.inv.user hu ?_, by rw [hu.core.pOU, h1.pOU], ?_, by rw [hu.core.fullExit, h1.fullExit],
          hu.flagRel.flags h1.inv h1.flags⟩, hq.trans hu.quiet⟩
        · intro o ho
          simp only [List.mem_singleton] at ho
          subst ho
          simp [lifeStep]
        · intro hi; rw [hu.core.ico] at hi; rw [hu.core.act]; exact h1.ico hi
      refine wp_mono (wp_keeps (wp_runUser_mem (Q := fun _ m'' => UserStep m' m'' [.unconsumed] ∧ F m'.mem m''.mem)
        (E := fun _ m'' => UserStep m' m'' [.unconsumed] ∧ F m'.mem m''.mem) (hF.unconsumed e) (by simp [Obs.hops]) (by simp [Obs.hops])
        (fun _ h1 h2 => ⟨h1, h2⟩) (fun _ _ h1 h2 => ⟨h1, h2⟩)) (keeps_runUser_exc _)) ?_ ?_
      · rintro _ m'' ⟨⟨hu, hfm⟩, hxl⟩
        obtain ⟨k1, k2⟩ := hstep hu
        exact ⟨k1.setTrig _, trivial, by simp, fun _ => ⟨k2.act, k2.slot, k2.endIx, k2.pOU, k2.ico, k2.evq, k2.dq⟩, fun h => (by cases h), .unconsumed h5 h2 hu hfm hxl⟩
      · rintro x m'' ⟨⟨hu, hfm⟩, hxl⟩
        obtain ⟨k1, k2⟩ := hstep hu
        exact ⟨k1.setTrig _, trivial, .unconsumed k1 k2 h5 h2 hu hfm hxl⟩
    · rw [if_neg hr]
      simp only [wp_pure]
      exact ⟨h1.setTrig _, trivial, h3, fun h => (by have := (h4 h).ofTrigger; exact ⟨this.act, this.slot, this.endIx, this.pOU, this.ico, this.evq, this.dq⟩), h6, .consumed h5 hr⟩
  · rintro y m' ⟨h1, h2, h3⟩
    refine terminateMachine_false_wp' hwf h1 ?_
    intro m'' hp hxl
    exact ⟨hp.setTrig _, trivial, .died h3 h1 hp (by rw [h2]; rfl) hxl⟩

/-- Member changes that do not matter for stability. -/
structure SameState (m m' : Mach W) : Prop where
  core : SameCore m m'
  trace : m'.trace = m.trace
  sh : m'.sh = m.sh
  dh : m'.dh = m.dh
  hlog : m'.hlog = m.hlog

omit hwf hok hF in
theorem Stable.same {C : Chart} {m m' : Mach W} (h : Stable C m) (hs : SameState m m') (hf : Flags m') : Stable C m' := by
  refine ⟨h.inv.congrT hs.core hs.trace ⟨?_, ?_⟩, by rw [hs.core.pOU, h.pOU], ?_, by rw [hs.core.fullExit, h.fullExit], hf⟩
  · rw [hs.sh]; exact h.inv.hist.sh
  · rw [hs.dh]; exact h.inv.hist.dh
  · rw [hs.core.ico, hs.core.act]; exact h.ico

omit hwf hok hF in
theorem sameState_of {m m' : Mach W} (h : m' = { m with evq := m'.evq, dq := m'.dq, world := m'.world, qlog := m'.qlog }) : SameState m m' := by
  rw [h]; exact ⟨by constructor <;> rfl, rfl, rfl, rfl, rfl⟩

/-- Normal end of the dispatch of one event. -/
structure DispatchOk (P : Prog W) (F : Memory → Memory → Prop) (e : Event) (m m' : Mach W) : Prop where
  ex : ∃ r m1, SendOk P F e m r m1 ∧ SameState m1 m' ∧ m'.xlog = m1.xlog ∧
    (r = .defer → m'.evq = m1.evq ∧ m'.dq = m1.dq ++ [e]) ∧ (r ≠ .defer → m'.evq = m1.evq ∧ m'.dq = m1.dq)
  eq : dispatch P e m = .ok () m'

/-- Reasons for an exceptional end. -/
inductive DispatchWhy (P : Prog W) (F : Memory → Memory → Prop) (e : Event) (m : Mach W) : Exc → Mach W → Prop
  | send {y m1 m'} : SendFails P F e m y m1 → SameState m1 m' → m'.xlog = m1.xlog → m'.evq = m1.evq → m'.dq = m1.dq → DispatchWhy P F e m y m'
  /-- no memory for the queue entry of a deferred event -/
  | noMemory {y m1 m'} : SendOk P F e m .defer m1 → Quiet m m1 → SameState m1 m' → m'.xlog = m1.xlog ++ [y] → m'.evq = m1.evq → m'.dq = m1.dq →
      (∃ w, (P.alloc (.deferNode e) w).2 = some y) → DispatchWhy P F e m y m'

/-- Exceptional end. -/
structure DispatchFails (P : Prog W) (F : Memory → Memory → Prop) (e : Event) (m : Mach W) (y : Exc) (m' : Mach W) : Prop where
  why : DispatchWhy P F e m y m'
  eq : dispatch P e m = .thrown y m'

omit hwf hok hF in
theorem wp_allocate' {Q : Unit → Mach W → Prop} {E : Exc → Mach W → Prop} (s : Site) :
    (∀ w, Q () { m with world := w }) → (∀ x w, (P.alloc s m.world).2 = some x → E x (({ m with world := w } : Mach W).raise x)) →
      wp (allocate P s) Q E m := by
  intro h1 h2
  unfold wp allocate
  cases h : P.alloc s m.world with
  | mk w x =>
    cases x with
    | none => exact h1 w
    | some x => exact h2 x w (by rw [h])

theorem dispatch_why (e : Event) (hm : Stable P.toChart m) :
    wp (dispatch P e)
      (fun _ m' => Stable P.toChart m' ∧ m'.trig = m.trig ∧ ∃ r m1, SendOk P F e m r m1 ∧ SameState m1 m' ∧ m'.xlog = m1.xlog ∧
        (r = .defer → m'.evq = m1.evq ∧ m'.dq = m1.dq ++ [e]) ∧ (r ≠ .defer → m'.evq = m1.evq ∧ m'.dq = m1.dq))
      (fun y m' => Stable P.toChart m' ∧ m'.trig = m.trig ∧ DispatchWhy P F e m y m') m := by
  unfold dispatch qop
  simp only [wp_bind, wp_onThrow, wp_modify]
  refine wp_mono (sendEvent_wp hwf hok hF e hm) ?_ ?_
  · rintro r m1 ⟨h1, h2, h3, h4, h6, h5⟩
    by_cases hr : r = .defer
    · rw [if_pos hr]
      subst hr
      simp only [wp_bind, wp_onThrow, wp_modify]
      refine wp_allocate' _ ?_ ?_
      · intro w
        have hs : SameState m1 { m1 with world := w, dq := m1.dq ++ [e], qlog := m1.qlog ++ [.defer e] } :=
          ⟨by constructor <;> rfl, rfl, rfl, rfl, rfl⟩
        exact ⟨h1.same hs (fun _ => h6 rfl), h2, _, m1, h5, hs, rfl, fun _ => ⟨rfl, rfl⟩, fun h => absurd rfl h⟩
      · intro x w hx
        have hs : SameState m1 (Mach.qop (({ m1 with world := w } : Mach W).raise x) (.lost e)) := ⟨by constructor <;> rfl, rfl, rfl, rfl, rfl⟩
        exact ⟨h1.same hs h1.flags, h2, .noMemory h5 (h4 (by simp)) hs rfl rfl rfl ⟨_, hx⟩⟩
    · rw [if_neg hr]
      simp only [wp_modify]
      have hs : SameState m1 (m1.qop (.done e)) := ⟨by constructor <;> rfl, rfl, rfl, rfl, rfl⟩
      exact ⟨h1.same hs h1.flags, h2, _, m1, h5, hs, rfl, fun h => absurd h hr, fun _ => ⟨rfl, rfl⟩⟩
  · rintro y m1 ⟨h1, h2, h3⟩
    have hs : SameState m1 (m1.qop (.done e)) := ⟨by constructor <;> rfl, rfl, rfl, rfl, rfl⟩
    exact ⟨h1.same hs h1.flags, h2, .send h3 hs rfl rfl rfl⟩

theorem dispatch_wp (e : Event) (hm : Stable P.toChart m) :
    wp (dispatch P e)
      (fun _ m' => Stable P.toChart m' ∧ m'.trig = m.trig ∧ DispatchOk P F e m m')
      (fun y m' => Stable P.toChart m' ∧ m'.trig = m.trig ∧ DispatchFails P F e m y m') m := by
  refine wp_mono (wp_eq (dispatch_why hwf hok hF e hm)) ?_ ?_
  · rintro _ m' ⟨⟨h1, h2, h3⟩, h4⟩
    exact ⟨h1, h2, h3, h4⟩
  · rintro y m' ⟨⟨h1, h2, h3⟩, h4⟩
    exact ⟨h1, h2, h3, h4⟩

/-- The queued events `es` are dispatched one after the other; the machine is stable each
time an event is taken from the queue. -/
inductive Runs (P : Prog W) (F : Memory → Memory → Prop) : List Event → Mach W → Mach W → Prop
  | nil {m : Mach W} : Stable P.toChart m → Runs P F [] m m
  | cons {e : Event} {q es : List Event} {m m1 m' : Mach W} : Stable P.toChart m → m.evq = e :: q →
      DispatchOk P F e { m with evq := q, qlog := m.qlog ++ [.pop e] } m1 → Runs P F es m1 m' → Runs P F (e :: es) m m'

theorem processQueued_wp : ∀ (k : Nat) (m : Mach W), Stable P.toChart m →
    wp (processQueued P k)
      (fun b m' => Stable P.toChart m' ∧ m'.trig = m.trig ∧ (b = true → m'.evq = []) ∧ ∃ es, es.length ≤ k ∧ Runs P F es m m')
      (fun y m' => Stable P.toChart m' ∧ m'.trig = m.trig ∧ ∃ es m1 e q, Runs P F es m m1 ∧ m1.evq = e :: q ∧
        DispatchFails P F e { m1 with evq := q, qlog := m1.qlog ++ [.pop e] } y m') m := by
  intro k
  induction k with
  | zero =>
    intro m hm
    unfold processQueued
    simp only [wp_bind, wp_get, wp_pure]
    exact ⟨hm, trivial, by simp, [], by simp, .nil hm⟩
  | succ k ih =>
    intro m hm
    unfold processQueued
    simp only [wp_bind, wp_get]
    have key : ∀ l, m.evq = l → wp (match l with
        | [] => (pure true : M W Bool)
        | e :: q => do
          M.modify fun m => { m with evq := q, qlog := m.qlog ++ [.pop e] }
          dispatch P e
          processQueued P k)
        (fun b m' => Stable P.toChart m' ∧ m'.trig = m.trig ∧ (b = true → m'.evq = []) ∧ ∃ es, es.length ≤ k + 1 ∧ Runs P F es m m')
        (fun y m' => Stable P.toChart m' ∧ m'.trig = m.trig ∧ ∃ es m1 e q, Runs P F es m m1 ∧ m1.evq = e :: q ∧
          DispatchFails P F e { m1 with evq := q, qlog := m1.qlog ++ [.pop e] } y m') m := by
      intro l hl
      cases l with
      | nil =>
        simp only [wp_pure]
        exact ⟨hm, trivial, fun _ => hl, [], by simp, .nil hm⟩
      | cons e q =>
        simp only [wp_bind, wp_modify]
        have h0 : Stable P.toChart { m with evq := q, qlog := m.qlog ++ [.pop e] } := hm.same ⟨by constructor <;> rfl, rfl, rfl, rfl, rfl⟩ hm.flags
        refine wp_mono (dispatch_wp hwf hok hF e h0) ?_ ?_
        · rintro _ m1 ⟨h1, h2, h3⟩
          refine wp_mono (ih m1 h1) ?_ ?_
          · rintro b m' ⟨k1, k2, k3, es, k4, k5⟩
            exact ⟨k1, by rw [k2, h2], k3, e :: es, by simp; omega, .cons hm hl h3 k5⟩
          · rintro y m' ⟨k1, k2, es, m2, e', q', k3, k4, k5⟩
            exact ⟨k1, by rw [k2, h2], e :: es, m2, e', q', .cons hm hl h3 k3, k4, k5⟩
        · rintro y m' ⟨h1, h2, h3⟩
          exact ⟨h1, h2, [], m, e, q, .nil hm, hl, h3⟩
    exact key _ rfl

/-- Normal end of `process_event`: `e` is dispatched first, then the queued events. -/
theorem processEvent_wp (e : Event) (k : Nat) (hm : Stable P.toChart m) :
    wp (processEvent P e k)
      (fun b m' => Stable P.toChart m' ∧ m'.trig = m.trig ∧ (b = true → m'.evq = []) ∧
        ∃ m1 es, DispatchOk P F e (m.qop (.recv e)) m1 ∧ Runs P F es m1 m')
      (fun y m' => Stable P.toChart m' ∧ m'.trig = m.trig ∧
        (DispatchFails P F e (m.qop (.recv e)) y m' ∨
          ∃ m0 es m1 e' q, DispatchOk P F e (m.qop (.recv e)) m0 ∧ Runs P F es m0 m1 ∧ m1.evq = e' :: q ∧
            DispatchFails P F e' { m1 with evq := q, qlog := m1.qlog ++ [.pop e'] } y m')) m := by
  unfold processEvent qop
  simp only [wp_bind, wp_modify]
  have h0 : Stable P.toChart (m.qop (.recv e)) := hm.same ⟨by constructor <;> rfl, rfl, rfl, rfl, rfl⟩ hm.flags
  refine wp_mono (dispatch_wp hwf hok hF e h0) ?_ ?_
  · rintro _ m1 ⟨h1, h2, h3⟩
    refine wp_mono (processQueued_wp hwf hok hF k m1 h1) ?_ ?_
    · rintro b m' ⟨k1, k2, k3, es, _, k5⟩
      exact ⟨k1, by rw [k2, h2]; rfl, k3, m1, es, h3, k5⟩
    · rintro y m' ⟨k1, k2, es, m2, e', q', k3, k4, k5⟩
      exact ⟨k1, by rw [k2, h2]; rfl, .inr ⟨m1, es, m2, e', q', h3, k3, k4, k5⟩⟩
  · rintro y m' ⟨h1, h2, h3⟩
    exact ⟨h1, by rw [h2]; rfl, .inl h3⟩

end
end SC
