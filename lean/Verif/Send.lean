import Verif.React
import Verif.Trig
import Verif.Raise
/-!
# Dispatch of one event, with translation of exceptions
-/

namespace SC
open Spec Chart
variable {W α : Type} {P : Prog W} {m : Mach W} {F : Memory → Memory → Prop}

/-- A machine ready for the next event. -/
structure Stable (C : Chart) (m : Mach W) : Prop where
  inv : Inv C noL none m
  pOU : m.pOU = none
  ico : m.ico = true → ∀ x, m.act x = false
  fullExit : m.fullExit = true
  flags : Flags m

theorem Stable.setTrig {C : Chart} {m : Mach W} (h : Stable C m) (t : Option Event) : Stable C { m with trig := t } :=
  ⟨h.inv.setFlags m.ico m.fullExit t, h.pOU, h.ico, h.fullExit, h.flags⟩

theorem TermPost.stable {C : Chart} {full : Bool} {m m' : Mach W} (h : TermPost C full m m') : Stable C m' :=
  ⟨h.inv, h.inv.pOU_dead h.dead, fun _ => h.dead, h.fullExit, fun hd => absurd h.dq hd⟩

/-- The leaf list seen through the invariant. -/
theorem Inv.leaves_eq {C : Chart} {L : Sid → Nat} {pend : Option Sid} (h : Inv C L pend m) :
    m.leaves = (List.range m.endIx).map fun i => (m.slot i).getD 0 := by
  unfold Mach.leaves
  have : ∀ (l : List Nat), (∀ i ∈ l, i < m.endIx) → l.filterMap m.slot = l.map fun i => (m.slot i).getD 0 := by
    intro l
    induction l with
    | nil => intro _; rfl
    | cons i is ih =>
      intro hl
      obtain ⟨s, _, h1, _⟩ := h.slot_in (hl i (by simp))
      rw [List.filterMap_cons, h1, List.map_cons, ih (fun j hj => hl j (by simp [hj])), h1]; rfl
  exact this _ (by simp)

theorem Inv.leaves_drop {C : Chart} {L : Sid → Nat} {pend : Option Sid} (h : Inv C L pend m) {i : Nat} {s : Sid} (hi : i < m.endIx)
    (hs : m.slot i = some s) : m.leaves.drop i = s :: m.leaves.drop (i + 1) := by
  rw [h.leaves_eq, List.drop_eq_getElem_cons (by simpa using hi)]
  simp [hs]

theorem Quiet.leaves {m m' : Mach W} (h : Quiet m m') : m'.leaves = m.leaves := by
  unfold Mach.leaves; rw [h.slot, h.endIx]

/-- The state to which an exception event goes: the outermost unstable state if there is one, otherwise the state `cur`. -/
def Handler (cur : Option Sid) (m : Mach W) (h : Sid) : Prop := m.pOU = some h ∨ (m.pOU = none ∧ cur = some h)

/-- The reaction to the exception event `ev` starts. -/
def Mach.handling (m : Mach W) (ev : Event) : Mach W := { m with trig := some ev, fullExit := false }

/-- The exception event `ev` was dispatched to `h` and consumed, without calling any `exit()`. -/
structure Handled (P : Prog W) (F : Memory → Memory → Prop) (ev : Event) (h : Sid) (m m' : Mach W) : Prop where
  live : m.act h = true
  spec : ∃ obs, m'.trace = m.trace ++ obs.map (fun o => (some ev, o)) ∧
    Search P.toChart F (.code P.toChart F false) P.decides ev h m.conf obs .discard m'.conf
  xlog : m'.xlog = m.xlog
  /-- an unstable machine is restored only by destroying something -/
  razes : m.pOU ≠ none → Razes m m'

/-- Why the handling of exception `x` by the exception event `ev` ended with exception `y`, after observations `obs`;
`xs` are the exceptions raised. -/
inductive Rejected (P : Prog W) (F : Memory → Memory → Prop) (cur : Option Sid) (ev : Event) (x : Exc) (m : Mach W) : Exc → List Obs → List Exc → Prop
  /-- there was no state to handle it -/
  | dead : (∀ s, m.act s = false) → Rejected P F cur ev x m x [] []
  /-- the reaction did not consume it or left the machine unstable -/
  | refused {h r m' obs} : Handler cur m h → m.act h = true → reactImpl P h ev (m.handling ev) = .ok r m' →
      Search P.toChart F (.code P.toChart F false) P.decides ev h m.conf obs r m'.conf → (r ≠ .discard ∨ (m'.pOU ≠ none ∧ m'.act = m.act)) → Rejected P F cur ev x m x obs []
  /-- the reaction threw -/
  | threw {h y m' obs} : Handler cur m h → m.act h = true → reactImpl P h ev (m.handling ev) = .thrown y m' →
      SearchUntil P.toChart F (.code P.toChart F false) (.code P.toChart F false) P.decides ev h m.conf obs → Rejected P F cur ev x m y obs [y]

/-- Only observations with event `ev`, no `exit()`, no `unconsumed_event()`. -/
structure Silent (ev : Option Event) (obs : List Obs) (m m' : Mach W) : Prop where
  trace : m'.trace = m.trace ++ obs.map (fun o => (ev, o))
  noExit : ∀ o ∈ obs, o.isExit = false
  noUnconsumed : Obs.unconsumed ∉ obs

theorem Tagged.obs {m m' : Mach W} {obs : List Obs} {t : Option Event} (h : Tagged m m') (h1 : m'.trace = m.trace ++ obs.map (fun o => (t, o))) : Obs.unconsumed ∉ obs := by
  obtain ⟨_, obs', h2, h3⟩ := h
  rw [h1] at h2
  have := congrArg (List.map (·.2)) (List.append_cancel_left h2)
  simp only [List.map_map] at this
  rw [show ((fun x : Option Event × Obs => x.2) ∘ fun o => (t, o)) = id from rfl, show ((fun x : Option Event × Obs => x.2) ∘ fun o => (m.trig, o)) = id from rfl,
    List.map_id, List.map_id] at this
  rw [this]; exact h3

theorem silent_of {m m' : Mach W} {obs : List Obs} (h1 : m'.trace = m.trace ++ obs.map (fun o => (m.trig, o))) (h2 : NoExit m m') (h3 : Tagged m m') : Silent m.trig obs m m' := by
  obtain ⟨_, obs', ho', hn⟩ := h2
  have : obs' = obs.map (fun o => (m.trig, o)) := by rw [h1] at ho'; exact (List.append_cancel_left ho').symm
  refine ⟨h1, ?_, h3.obs h1⟩
  intro o h
  exact hn (m.trig, o) (by rw [this]; exact List.mem_map.2 ⟨o, h, rfl⟩)

section
variable (hwf : P.toChart.WF) (hok : Contract P) (hF : UserMem P F)
include hwf hok hF

theorem handleException_wp {cur : Option Sid} {ev : Event} {x : Exc} (h : Inv P.toChart noL none m) (hfl : Flags m)
    (hc : m.pOU = none → (∀ x, m.act x = false) ∨ ((m.ico = true → ∀ x, m.act x = false) ∧ ∃ s, cur = some s ∧ m.act s = true)) :
    wp (handleException P cur ev x)
      (fun r m' => r = .discard ∧ Stable P.toChart m' ∧ m'.trig = m.trig ∧ ∃ h, Handler cur m h ∧ Handled P F ev h m m')
      (fun y m' => Inv P.toChart noL none m' ∧ m'.trig = m.trig ∧ ∃ obs xs, Silent (some ev) obs m m' ∧ m'.xlog = m.xlog ++ xs ∧ Rejected P F cur ev x m y obs xs) m := by
  unfold handleException
  simp only [wp_bind, wp_get]
  by_cases ht : m.terminated = true
  · rw [if_pos ht]
    simp only [wp_throw]
    refine ⟨h, trivial, [], [], ⟨by simp, by simp, by simp⟩, by simp, .dead (h.dead_of_outer hwf ?_)⟩
    unfold Mach.terminated at ht
    cases ho : m.outermost with
    | none => rfl
    | some s => rw [ho] at ht; cases ht
  · rw [if_neg ht]
    have hlive : ¬ ∀ x, m.act x = false := by
      intro hd
      apply ht
      unfold Mach.terminated
      rw [h.outer_dead hd]; rfl
    have hh : ∃ s, m.handler cur = some s ∧ m.act s = true ∧ OUBelow P.toChart s m ∧
        (m.pOU = none → m.ico = true → ∀ x, m.act x = false) ∧ Handler cur m s := by
      cases hou : m.pOU with
      | some u =>
        refine ⟨u, by simp [Mach.handler, hou], (h.ou_live hou).1, ?_, fun h => (by cases h), .inl hou⟩
        intro v hv; rw [hou] at hv; cases hv; exact .refl
      | none =>
        rcases hc hou with hd | ⟨hi, s, hs, hl⟩
        · exact absurd hd hlive
        · exact ⟨s, by simp [Mach.handler, hou, hs], hl, fun v hv => (by rw [hou] at hv; cases hv), fun _ => hi, .inr ⟨hou, hs⟩⟩
    obtain ⟨s, hs, hl, hb, hi, hH⟩ := hh
    rw [hs]
    simp only [wp_withTrig, wp_bind, wp_modify]
    have h0 : Inv P.toChart noL none (m.handling ev) := h.setFlags m.ico false (some ev)
    have hw := wp_keeps (wp_keeps (wp_keeps (wp_eq (reactImpl_wp hwf hok hF h0 (e := ev) (s := s) hl hb)) (keeps_reactImpl_tag s ev _))
      (keepsAt_reactImpl_noExit s ev rfl)) (keeps_reactImpl_exc s ev _)
    refine wp_mono hw ?_ ?_
    · rintro r m' ⟨⟨⟨⟨⟨_, _, hp⟩, he⟩, hk⟩, hn⟩, hxl⟩
      simp only [wp_bind, wp_modify, wp_get]
      by_cases hr : r ≠ .discard ∨ m'.pOU ≠ none
      · rw [if_pos hr]
        simp only [wp_throw]
        obtain ⟨obs, g1, g2⟩ := hp.spec
        refine ⟨hp.inv.setFlags m'.ico true m.trig, trivial, obs, [], ⟨g1, (silent_of g1 hn hk).noExit, hk.obs g1⟩, ?_, .refused hH hl he g2 ?_⟩
        · show m'.xlog = _
          rw [List.append_nil]; exact hxl
        rcases hr with hr | hr
        · exact .inl hr
        · refine .inr ⟨hr, ?_⟩
          rcases hp.kind with hq | hq
          · exact hq.act
          · exact absurd hq.2.1 hr
      · rw [if_neg hr]
        simp only [wp_pure]
        have hr1 : r = .discard := Decidable.byContradiction fun hne => hr (.inl hne)
        have hr2 : m'.pOU = none := Decidable.byContradiction fun hne => hr (.inr hne)
        subst hr1
        refine ⟨trivial, ⟨hp.inv.setFlags m'.ico true m.trig, hr2, ?_, rfl, hp.flags hfl⟩, trivial, s, hH, hl, ?_, ?_, ?_⟩
        · intro hico
          rcases hp.kind with hq | hq
          · have h1 : m.pOU = none := by rw [← hr2]; exact hq.pOU.symm
            have h2 : m.ico = true := by rw [← hico]; exact hq.ico.symm
            have h3 := hi h1 h2
            intro y
            have : m'.act = m.act := hq.act
            show m'.act y = false
            rw [this]; exact h3 y
          · rw [show m'.ico = true from hico] at hq; cases hq.2.2.1
        · obtain ⟨obs, g1, g2⟩ := hp.spec
          exact ⟨obs, g1, g2⟩
        · exact hxl
        · intro hne
          rcases hp.kind with hq | hq
          · exact absurd (hq.pOU.symm.trans hr2) hne
          · exact hq.2.2.2
    · rintro y m' ⟨⟨⟨⟨⟨hp, obs, g1, g2⟩, he⟩, hk⟩, hn⟩, hxl⟩
      exact ⟨hp.inv.setFlags m'.ico m'.fullExit m.trig, trivial, obs, [y], ⟨g1, (silent_of g1 hn hk).noExit, hk.obs g1⟩, hxl, .threw hH hl he g2⟩

/-- All innermost states before the failing one forwarded `e`; the search from `s` threw `x` after the observations `o2`, leaving the
machine in `m2`. -/
structure Raises (P : Prog W) (F : Memory → Memory → Prop) (e : Event) (l : List Sid) (m : Mach W) (s : Sid) (x : Exc) (m2 : Mach W) : Prop where
  ex : ∃ l1 l2 o1 m1, l = l1 ++ s :: l2 ∧ Quiet m m1 ∧ m1.trace = m.trace ++ o1.map (fun o => (m.trig, o)) ∧
    Sweep P.toChart F (.code P.toChart F true) P.decides e l1 m.conf o1 .forward m1.conf ∧ reactImpl P s e m1 = .thrown x m2 ∧
    Tagged m1 m2 ∧ m1.trig = m.trig ∧ m.act s = true ∧
    ∃ o2, m2.trace = m1.trace ++ o2.map (fun o => (m.trig, o)) ∧
      SearchUntil P.toChart F (.code P.toChart F true) (.code P.toChart F true) P.decides e s m1.conf o2
  inv : Inv P.toChart noL none m2
  /-- nothing was entered or exited, or the machine is unstable, or no state exists -/
  kind : Quiet m m2 ∨ m2.pOU ≠ none ∨ ∀ x, m2.act x = false
  xlog : m2.xlog = m.xlog ++ [x]
  torn : m.pOU = none → Shaken P.toChart m m2

/-- Normal end of the dispatch of `e` to the innermost states `l`. -/
inductive Sent (P : Prog W) (F : Memory → Memory → Prop) (e : Event) (l : List Sid) (m : Mach W) : RR → Mach W → Prop
  | swept {obs r m'} : m'.trace = m.trace ++ obs.map (fun o => (m.trig, o)) →
      Sweep P.toChart F (.code P.toChart F true) P.decides e l m.conf obs r m'.conf → m'.xlog = m.xlog → Sent P F e l m r m'
  | caught {s x m2 ev h m'} : Raises P F e l m s x m2 → P.translate x = some ev → Handler (some s) m2 h →
      Handled P F ev h m2 m' → Sent P F e l m .discard m'

/-- Exceptional end. -/
inductive SendThrows (P : Prog W) (F : Memory → Memory → Prop) (e : Event) (l : List Sid) (m : Mach W) : Exc → Mach W → Prop
  | plain {s x m'} : Raises P F e l m s x m' → P.translate x = none → SendThrows P F e l m x m'
  | rejected {s x m2 ev y obs xs m'} : Raises P F e l m s x m2 → P.translate x = some ev → Rejected P F (some s) ev x m2 y obs xs →
      Silent (some ev) obs m2 m' → m'.xlog = m2.xlog ++ xs → SendThrows P F e l m y m'

omit hwf hok hF in
theorem Raises.cons {e : Event} {a : Sid} {l : List Sid} {m1 : Mach W} {o : List Obs} {s : Sid} {x : Exc} {m2 : Mach W}
    (hq : Quiet m m1) (hxl : m1.xlog = m.xlog) (ht : m1.trig = m.trig) (htr : m1.trace = m.trace ++ o.map (fun o => (m.trig, o)))
    (hs : Search P.toChart F (.code P.toChart F true) P.decides e a m.conf o .forward m1.conf) (h : Raises P F e l m1 s x m2) :
    Raises P F e (a :: l) m s x m2 := by
  obtain ⟨l1, l2, o1, m1', h1, h2, h3, h4, h5, h6, h7, h8, o2, h9, h10⟩ := h.ex
  refine ⟨⟨a :: l1, l2, o ++ o1, m1', by rw [h1]; rfl, hq.trans h2, ?_, .next hs h4, h5, h6, by rw [h7, ht], by rw [← hq.act]; exact h8, o2, by rw [h9, ht], h10⟩, h.inv, h.kind.imp (fun h => hq.trans h) id, by rw [h.xlog, hxl],
    fun hp => (h.torn (by rw [hq.pOU, hp])).after hq.act (noEnter_of htr (hs.noEnter rfl))⟩
  rw [h3, htr, ht]; simp

theorem sendLoop_wp (e : Event) : ∀ (f i : Nat) (m : Mach W), m.endIx - i < f → i ≤ m.endIx → Stable P.toChart m →
    wp (sendLoop P e f i)
      (fun r m' => Stable P.toChart m' ∧ m'.trig = m.trig ∧ r ≠ .noReaction ∧ (r ≠ .discard → Quiet m m') ∧
        (r = .defer → Flagged m') ∧ Sent P F e (m.leaves.drop i) m r m')
      (fun y m' => Inv P.toChart noL none m' ∧ m'.trig = m.trig ∧ SendThrows P F e (m.leaves.drop i) m y m') m := by
  intro f
  induction f with
  | zero => intro i m hf; omega
  | succ f ih =>
    intro i m hf hi hm
    unfold sendLoop
    simp only [wp_bind, wp_get]
    by_cases he : i = m.endIx
    · rw [if_pos he]
      simp only [wp_pure]
      have : m.leaves.drop i = [] := by rw [hm.inv.leaves_eq]; simp; omega
      rw [this]
      exact ⟨hm, trivial, by simp, fun _ => .refl _, fun h => (by cases h), .swept (obs := []) (by simp) .none rfl⟩
    · rw [if_neg he]
      obtain ⟨s, o, h1, h2, h3, h4⟩ := hm.inv.slot_in (i := i) (by omega)
      have hdrop := hm.inv.leaves_drop (i := i) (by omega) h1
      rw [h1]
      have hs : (m.heap s).isSome := by rw [h2]; rfl
      have hou : OUBelow P.toChart s m := by intro u hu; rw [hm.pOU] at hu; cases hu
      simp only [wp_bind, translated, wp_tryCatch]
      have hw := wp_keeps (wp_keeps (wp_eq (reactImpl_wp hwf hok hF hm.inv (e := e) (s := s) hs hou)) (keeps_reactImpl_tag s e _))
        (keeps_reactImpl_exc s e _)
      rw [hm.fullExit] at hw
      refine wp_mono hw ?_ ?_
      · rintro r m' ⟨⟨⟨⟨hr, hq, hp⟩, _⟩, _⟩, hxl⟩
        replace hxl : m'.xlog = m.xlog := hxl
        obtain ⟨obs, g1, g2⟩ := hp.spec
        have hst : Stable P.toChart m' := by
          refine ⟨hp.inv, ?_, ?_, by rw [hp.fullExit, hm.fullExit], hp.flags hm.flags⟩
          · rcases hp.kind with hq | hq
            · rw [hq.pOU, hm.pOU]
            · exact hq.2.1
          · intro hico
            rcases hp.kind with hq | hq
            · rw [hq.ico] at hico; rw [hq.act]; exact hm.ico hico
            · rw [hq.2.2.1] at hico; cases hico
        by_cases hf' : r = .forward
        · rw [if_pos hf']
          subst hf'
          have hq := hq (by simp)
          have := ih (i + 1) m' (by rw [hq.endIx]; omega) (by rw [hq.endIx]; omega) hst
          rw [hq.leaves] at this
          rw [hdrop]
          refine wp_mono this ?_ ?_
          · rintro r m'' ⟨k1, k2, k3, k4, k6, k5⟩
            refine ⟨k1, by rw [k2, hp.trig], k3, fun h => hq.trans (k4 h), k6, ?_⟩
            cases k5 with
            | swept a b c =>
              refine .swept (obs := obs ++ _) ?_ (.next g2 b) (by rw [c, hxl])
              rw [a, g1, hp.trig]; simp
            | caught a b c d => exact .caught (a.cons hq hxl hp.trig g1 g2) b c d
          · rintro y m'' ⟨k1, k2, k3⟩
            refine ⟨k1, by rw [k2, hp.trig], ?_⟩
            cases k3 with
            | plain a b => exact .plain (a.cons hq hxl hp.trig g1 g2) b
            | rejected a b c d f => exact .rejected (a.cons hq hxl hp.trig g1 g2) b c d f
        · rw [if_neg hf']
          simp only [wp_pure]
          refine ⟨hst, hp.trig, hr, hq, hp.deferred, ?_⟩
          rw [hdrop]
          exact .swept g1 (.stop g2 hf') hxl
      · rintro x m2 ⟨⟨⟨⟨hp, o2, hcut, hun⟩, heq⟩, hk⟩, hxl⟩
        have hra : Raises P F e (m.leaves.drop i) m s x m2 := by
          rw [hdrop]
          exact ⟨⟨[], _, [], m, rfl, .refl _, by simp, .none, heq, hk, rfl, hs, o2, hcut, hun⟩, hp.inv, hp.kind, hxl, hp.torn⟩
        cases htr : P.translate x with
        | none =>
          simp only [wp_throw]
          exact ⟨hp.inv, hp.trig, .plain hra htr⟩
        | some ev =>
          simp only
          have hc : m2.pOU = none → (∀ x, m2.act x = false) ∨
              ((m2.ico = true → ∀ x, m2.act x = false) ∧ ∃ s', (some s : Option Sid) = some s' ∧ m2.act s' = true) := by
            intro hn
            rcases hp.kind with hq | hq | hq
            · right
              refine ⟨?_, s, rfl, ?_⟩
              · intro hico
                rw [hq.ico] at hico; rw [hq.act]; exact hm.ico hico
              · rw [hq.act]; exact hs
            · exact absurd hn hq
            · exact .inl hq
          refine wp_mono (handleException_wp hwf hok hF (cur := some s) (ev := ev) (x := x) hp.inv (hp.flags hm.flags) hc) ?_ ?_
          · rintro r m' ⟨rfl, k1, k2, h, k3, k4⟩
            rw [if_neg (by simp)]
            simp only [wp_pure]
            exact ⟨k1, by rw [k2, hp.trig], by simp, by simp, by simp, .caught hra htr k3 k4⟩
          · rintro y m' ⟨k1, k2, obs, xs, k3, k5, k4⟩
            exact ⟨k1, by rw [k2, hp.trig], .rejected hra htr k4 k3 k5⟩

end
end SC
