import Verif.Api
/-!
# initiate, terminate, destruction; reachable machines
-/

namespace SC
open Spec Chart
variable {W α : Type} {P : Prog W} {m : Mach W} {F : Memory → Memory → Prop}

/-- `initiate()` and `terminate()` run without triggering event. -/
def Mach.untrigger (m : Mach W) : Mach W := { m with trig := none }

/-- The body `x` of `initiate()` or `terminate()` threw `e` and left the machine in `m'`. -/
structure BodyThrows (C : Chart) (x : M W RR) (m : Mach W) (e : Exc) (m' : Mach W) : Prop where
  eq : x m.untrigger = .thrown e m'
  tagged : Tagged m.untrigger m'
  inv : Inv C noL none m'
  /-- the machine is unstable or no state exists -/
  kind : m'.pOU ≠ none ∨ ∀ x, m'.act x = false
  xlog : m'.xlog = m.xlog ++ [e]
  torn : m.pOU = none → Torn C m m'

/-- Normal end of a guarded body; `Q` describes its own normal end. -/
inductive GuardOk (P : Prog W) (F : Memory → Memory → Prop) (x : M W RR) (Q : Mach W → Prop) (m : Mach W) : Mach W → Prop
  | ok {m'} : Q m' → m'.xlog = m.xlog → GuardOk P F x Q m { m' with trig := m.trig }
  /-- an exception was thrown and its event consumed by the outermost unstable state -/
  | caught {e m2 ev h m'} : BodyThrows P.toChart x m e m2 → P.translate e = some ev → m2.pOU = some h → Handled P F ev h m2 m' →
      GuardOk P F x Q m { m' with trig := m.trig }

/-- Exceptional end of a guarded body: the machine is terminated. -/
inductive GuardFails (P : Prog W) (F : Memory → Memory → Prop) (x : M W RR) (m : Mach W) : Exc → Mach W → Prop
  | plain {e m2 m'} : BodyThrows P.toChart x m e m2 → P.translate e = none → TermPost P.toChart false m2 m' → m'.xlog = m2.xlog →
      GuardFails P F x m e { m' with trig := m.trig }
  | rejected {e m2 ev y obs xs m3 m'} : BodyThrows P.toChart x m e m2 → P.translate e = some ev → Rejected P F none ev e m2 y obs xs →
      Silent (some ev) obs m2 m3 → Inv P.toChart noL none m3 → m3.trig = none → TermPost P.toChart false m3 m' →
      m3.xlog = m2.xlog ++ xs → m'.xlog = m3.xlog → GuardFails P F x m y { m' with trig := m.trig }

theorem keeps_terminateMachine_tag (full : Bool) : Keeps tagK (terminateMachine P full) := by
  have hK := tagPrims P
  unfold terminateMachine clearAll
  have h1 := hK.terminateState (full := full) (fun _ => keeps_fullExit_tag)
  keep
  all_goals first | exact h1 _ | exact Keeps.modify fun m => tagged_of rfl rfl

theorem keeps_terminateMachine_flag (full : Bool) : Keeps flagK (terminateMachine P full) := by
  have hK := flagPrims P
  unfold terminateMachine clearAll
  have h1 := hK.terminateState (full := full) (fun _ => keeps_fullExit_flag)
  keep
  all_goals first
    | exact h1 _
    | exact Keeps.modify fun m => flagRel_of rfl rfl
    | exact Keeps.modify fun m h => ⟨h.1, fun hd => absurd rfl hd⟩

theorem keeps_initialConstruct_tag : Keeps tagK (initialConstruct P) := (tagPrims P).build _ _

theorem memK_initialConstruct (hF : UserMem P F) : Keeps (memK P.toChart hF.pre) (initialConstruct P) := (memPrims hF).build _ _

/-- What `initiate()` does after termination if nothing throws: the initial state and its tree are entered. -/
structure Entered (P : Prog W) (F : Memory → Memory → Prop) (m m' : Mach W) : Prop where
  ex : ∃ l, m'.trace = m.trace ++ (enterObs l).map (fun o => (none, o)) ∧ Enters P.toChart F m.mem (.tree P.initial) l m'.mem ∧
    ∀ x, m'.act x = true ↔ x ∈ l

section
variable (hwf : P.toChart.WF) (hok : Contract P) (hF : UserMem P F)
include hwf hok hF

theorem guarded_wp {x : M W RR} {Q : Mach W → Prop} (hk : Keeps tagK x) (hk2 : Keeps excK x)
    (h : wp x (fun r m' => r = .discard ∧ Stable P.toChart m' ∧ Q m')
      (fun _ m' => Inv P.toChart noL none m' ∧ Flags m' ∧ (m'.pOU ≠ none ∨ ∀ s, m'.act s = false) ∧ (m.pOU = none → Torn P.toChart m.untrigger m')) m.untrigger) :
    wp (withTrig none (guardTerm P (translated P none x)))
      (fun _ m' => Stable P.toChart m' ∧ m'.trig = m.trig ∧ GuardOk P F x Q m m')
      (fun y m' => Stable P.toChart m' ∧ m'.trig = m.trig ∧ GuardFails P F x m y m') m := by
  simp only [wp_withTrig, wp_guardTerm, translated, wp_tryCatch]
  refine wp_mono (wp_keeps (wp_keeps (wp_eq h) (hk _)) (hk2 _)) ?_ ?_
  · rintro r m' ⟨⟨⟨⟨rfl, h1, h2⟩, _⟩, _⟩, hxl⟩
    exact ⟨h1.setTrig _, trivial, .ok h2 hxl⟩
  · rintro e m2 ⟨⟨⟨⟨h1, hfl, h2, h5⟩, h3⟩, h4⟩, hxl⟩
    have hb : BodyThrows P.toChart x m e m2 := ⟨h3, h4, h1, h2, hxl, h5⟩
    cases ht : P.translate e with
    | none =>
      simp only [wp_throw]
      refine terminateMachine_false_wp' hwf h1 ?_
      intro m' hp hx
      exact ⟨hp.setTrig _, trivial, .plain hb ht hp hx⟩
    | some ev =>
      simp only
      refine wp_mono (handleException_wp hwf hok hF (cur := none) (ev := ev) (x := e) h1 hfl ?_) ?_ ?_
      · intro hn
        rcases h2 with h2 | h2
        · exact absurd hn h2
        · exact .inl h2
      · rintro r m' ⟨_, k1, k2, h, k3, k4⟩
        refine ⟨k1.setTrig _, trivial, .caught hb ht ?_ k4⟩
        rcases k3 with k3 | k3
        · exact k3
        · cases k3.2
      · rintro y m3 ⟨k1, k2, obs, xs, k3, k5, k4⟩
        have k2' : m3.trig = none := by rw [k2, h4.1]
        refine terminateMachine_false_wp' hwf k1 ?_
        intro m' hp hx
        exact ⟨hp.setTrig _, trivial, .rejected hb ht k4 k3 k1 k2' hp k5 hx⟩

/-- Body of `terminate()`. -/
abbrev termBody (P : Prog W) : M W RR := do
  terminateMachine P true
  pure RR.discard

/-- Body of the second part of `initiate()`. -/
abbrev initBody (P : Prog W) : M W RR := do
  initialConstruct P
  pure RR.discard

theorem terminate_wp (hm : Stable P.toChart m) :
    wp (terminate P)
      (fun _ m' => Stable P.toChart m' ∧ m'.trig = m.trig ∧ GuardOk P F (termBody P) (TermPost P.toChart true m.untrigger) m m')
      (fun y m' => Stable P.toChart m' ∧ m'.trig = m.trig ∧ GuardFails P F (termBody P) m y m') m := by
  unfold terminate
  simp only [wp_bind, wp_pure]
  refine guarded_wp hwf hok hF ?_ ?_ ?_
  · exact Keeps.bind (keeps_terminateMachine_tag _) (fun _ => Keeps.pure _)
  · exact Keeps.bind (keeps_terminateMachine_exc _) (fun _ => Keeps.pure _)
  · simp only [wp_bind, wp_pure]
    refine wp_mono (wp_keeps (terminateMachine_wp hwf true (hm.setTrig none).inv) (keeps_terminateMachine_flag _ _)) ?_ ?_
    · rintro _ m' ⟨hp, _⟩
      exact ⟨trivial, hp.stable, hp⟩
    · rintro _ m' ⟨⟨hp, hne, hg, _⟩, hk⟩
      exact ⟨hp.inv, hk.flags (hm.setTrig none).inv hm.flags, hp.unstable, fun hn => (hg hn).torn hwf (hm.setTrig none).inv hp.sub hne hn⟩

omit hok hF in
/-- The calls of an interrupted `terminate()`. -/
theorem BodyThrows.term_cut (hm : Stable P.toChart m) {e : Exc} {m' : Mach W} (h : BodyThrows P.toChart (termBody P) m e m') :
    RCut (fun c obs => ExitsUntil P.toChart (allExits P.toChart c.act m.outermost) obs) m.untrigger m' := by
  have hw := terminateMachine_wp hwf true (hm.setTrig none).inv
  have he := h.eq
  simp only [termBody] at he
  have := wp_bind (x := terminateMachine P true) (f := fun _ => (pure RR.discard : M W RR)) (Q := fun _ _ => True)
    (E := fun _ m' => ∃ tr, m'.trace = m.untrigger.trace ++ tr ∧ ExitCut P.toChart m.untrigger.trig (allExits P.toChart m.untrigger.act m.untrigger.outermost) tr)
    (m := m.untrigger)
  have hw2 := this.2 (wp_mono hw (fun _ _ _ => trivial) (fun _ _ h => h.2.2.2))
  unfold wp at hw2
  rw [he] at hw2
  obtain ⟨tr, k1, k2⟩ := hw2
  obtain ⟨obs, k3, k4⟩ := k2.until
  exact ⟨obs, by rw [k1, k3], k4⟩

/-- The calls of an interrupted initial entry. -/
theorem BodyThrows.init_cut (hm : Stable P.toChart m) (hd : ∀ x, m.act x = false) {e : Exc} {m' : Mach W} (h : BodyThrows P.toChart (initBody P) m e m') :
    RCut (fun c obs => EntersUntil P.toChart F c.mem (.tree P.initial) obs) m.untrigger m' := by
  have h0 := hm.setTrig none
  have hw := initialConstruct_wp (L := noL) hwf hok hF.ctorMem m.untrigger
    ⟨h0.inv, fun p hp => (by cases hp), fun c hc => (by
        have := hd c
        unfold Mach.act at this
        rw [show m.untrigger.heap = m.heap from rfl, this] at hc
        cases hc), fun _ => h0.pOU⟩
  have he := h.eq
  simp only [initBody] at he
  have := wp_bind (x := initialConstruct P) (f := fun _ => (pure RR.discard : M W RR)) (Q := fun _ _ => True)
    (E := fun _ m' => RCut (fun c obs => EntersUntil P.toChart F c.mem (.tree P.initial) obs) m.untrigger m') (m := m.untrigger)
  have hw2 := this.2 (wp_mono hw (fun _ _ _ => trivial) (fun _ _ h => h.2.until))
  unfold wp at hw2
  rw [he] at hw2
  exact hw2

theorem construct_wp (k : Nat) (hm : Stable P.toChart m) (hd : ∀ x, m.act x = false) :
    wp (construct P k)
      (fun b m' => Stable P.toChart m' ∧ m'.trig = m.trig ∧ (b = true → m'.evq = []) ∧
        ∃ m1 es, GuardOk P F (initBody P) (Entered P F m.untrigger) m m1 ∧ Runs P F es m1 m')
      (fun y m' => Stable P.toChart m' ∧ m'.trig = m.trig ∧
        (GuardFails P F (initBody P) m y m' ∨ ∃ m0 es m1 e q, GuardOk P F (initBody P) (Entered P F m.untrigger) m m0 ∧ Runs P F es m0 m1 ∧
          m1.evq = e :: q ∧ DispatchFails P F e { m1 with evq := q, qlog := m1.qlog ++ [.pop e] } y m')) m := by
  unfold construct
  simp only [wp_bind]
  have h0 := hm.setTrig none
  have hcrit : critB P.toChart none [0] m.untrigger := by
    refine .inr ⟨⟨0, by simp, by simp [Chart.regions]⟩, hm.pOU⟩
  have hg : wp (withTrig none (guardTerm P (translated P none (initBody P))))
      (fun _ m' => Stable P.toChart m' ∧ m'.trig = m.trig ∧ GuardOk P F (initBody P) (Entered P F m.untrigger) m m')
      (fun y m' => Stable P.toChart m' ∧ m'.trig = m.trig ∧ GuardFails P F (initBody P) m y m') m := by
    refine guarded_wp hwf hok hF ?_ ?_ ?_
    · exact Keeps.bind keeps_initialConstruct_tag (fun _ => Keeps.pure _)
    · exact Keeps.bind keeps_initialConstruct_exc (fun _ => Keeps.pure _)
    · simp only [wp_bind, wp_pure]
      refine wp_mono (wp_keeps (initialConstruct_wp (L := noL) hwf hok hF.ctorMem m.untrigger
        ⟨h0.inv, fun p hp => (by cases hp), ?_, fun _ => h0.pOU⟩) ((flagPrims P).build _ _ _)) ?_ ?_
      · intro c hc
        have := hd c
        unfold Mach.act at this
        rw [show m.untrigger.heap = m.heap from rfl, this] at hc
        cases hc
      · rintro _ m' ⟨⟨l, hp⟩, hk⟩
        refine ⟨trivial, ⟨hp.inv, hp.crit hcrit, ?_, by rw [hp.fullExit]; exact hm.fullExit, hk.flags h0.inv hm.flags⟩, l, ?_, hp.mem, ?_⟩
        · intro hi; rw [hp.ico] at hi; cases hi
        · rw [hp.trace, enters_eq]; rfl
        · intro x
          rw [hp.act]
          constructor
          · rintro (h | h)
            · have := hd x
              rw [show m.untrigger.act x = m.act x from rfl, this] at h; cases h
            · exact h
          · exact .inr
      · rintro e m' ⟨⟨hp, _⟩, hk⟩
        exact ⟨hp.inv, hk.flags h0.inv hm.flags, hp.crit hcrit, fun hn => torn_init h0.inv hd hp hcrit⟩
  refine wp_mono hg ?_ ?_
  · rintro _ m1 ⟨h1, h2, h3⟩
    refine wp_mono (processQueued_wp hwf hok hF k m1 h1) ?_ ?_
    · rintro b m' ⟨k1, k2, k3, es, _, k5⟩
      exact ⟨k1, by rw [k2, h2], k3, m1, es, h3, k5⟩
    · rintro y m' ⟨k1, k2, es, m2, e', q', k3, k4, k5⟩
      exact ⟨k1, by rw [k2, h2], .inr ⟨m1, es, m2, e', q', h3, k3, k4, k5⟩⟩
  · rintro y m' ⟨h1, h2, h3⟩
    exact ⟨h1, h2, .inl h3⟩

end
end SC
