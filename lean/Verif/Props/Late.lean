import Verif.Props.Handling
/-!
# Properties C45 and C60: where exception events go with relaxed transition context

They go where they go in the default configuration, unless a transition was interrupted between exits: it has left some states, called its action, and then the exit of
another state threw. This cannot happen if all actions are members of contexts that are allowed in the default configuration.
-/

namespace SC.Spec
open SC Chart
variable {C : Chart} {D : Sid → Nat → Event → Decision → Prop} {translate : Exc → Option Event}

/-- The action of a transition from `s` to `d` is a member of the innermost common context of the two, or of a context outside (`none`: the machine). -/
def Fits (C : Chart) (s : Sid) (d : Target) (a : Option Nat) : Prop :=
  ∀ k q, CommonCtx C s d.st k → a.bind C.actCtx = some q → ∃ p, k = some p ∧ Below C q p

/-- All actions of transitions are members of the innermost common context or of a context outside it, as they have to be without relaxed transition context
(simple_state.hpp 775-777). -/
structure Aligned (C : Chart) (D : Sid → Nat → Event → Decision → Prop) : Prop where
  declared : ∀ s r d a, r ∈ C.reactions s → r.kind = .transition d a → Fits C s d a
  react : ∀ s id e d a, D s id e (.transit d a) → Fits C s d a

/-- After an action that comes after a destruction there is no exit. -/
def Early (obs : List Obs) : Prop := ∀ p q a, obs = p ++ .act a :: q → (∃ y, .destroy y ∈ p) → ∀ z, .exit z ∉ q ∧ .exitFail z ∉ q

theorem Early.not_late {obs : List Obs} (h : Early obs) : ¬ LateExit obs := by
  rintro ⟨p, q, a, h1, h2, ⟨z, h3⟩, _⟩
  rcases h3 with h3 | h3
  · exact (h p q a h1 h2 z).1 h3
  · exact (h p q a h1 h2 z).2 h3

theorem Early.after {o1 o2 : List Obs} (hq : ∀ o ∈ o1, quietObs o = true) (h : Early o2) : Early (o1 ++ o2) := by
  intro p q a h1 ⟨y, h2⟩
  rcases List.append_eq_append_iff.1 h1 with ⟨c, rfl, hc⟩ | ⟨c, rfl, hc⟩
  · refine h c q a hc ⟨y, ?_⟩
    rcases List.mem_append.1 h2 with h2 | h2
    · have := hq _ h2; simp [quietObs] at this
    · exact h2
  · have := hq _ (List.mem_append_left _ h2)
    simp [quietObs] at this

theorem Early.silent {obs : List Obs} (h : ∀ a, .act a ∉ obs) : Early obs := by
  rintro p q a rfl _
  exact absurd (by simp) (h a)

theorem Early.intro {x r : List Obs} {a : Option Nat} (hx : ∀ b, .act b ∉ x) (hr : ∀ z, .exit z ∉ r ∧ .exitFail z ∉ r) : Early (x ++ acts a ++ r) := by
  intro p q b h1 _
  have key : q <:+ acts a ++ r → ∀ z, .exit z ∉ q ∧ .exitFail z ∉ q := by
    rintro ⟨w, hw⟩ z
    have hz : ∀ o, o ∈ q → o ∈ acts a ++ r := fun o ho => by rw [← hw]; exact List.mem_append_right _ ho
    constructor
    · intro hm
      rcases List.mem_append.1 (hz _ hm) with h | h
      · cases a <;> simp [acts] at h
      · exact (hr z).1 h
    · intro hm
      rcases List.mem_append.1 (hz _ hm) with h | h
      · cases a <;> simp [acts] at h
      · exact (hr z).2 h
  refine key ?_
  rw [List.append_assoc] at h1
  rcases List.append_eq_append_iff.1 h1 with ⟨c, _, hc⟩ | ⟨c, hc, hc'⟩
  · exact ⟨c ++ [.act b], by rw [hc]; simp⟩
  · cases c with
    | nil => exact ⟨[.act b], by simpa using hc'⟩
    | cons o c =>
      simp only [List.cons_append, List.cons.injEq] at hc'
      exact absurd (by rw [hc, ← hc'.1]; simp) (hx b)

theorem act_exitObs (full : Bool) (l : List Sid) (b : Nat) : Obs.act b ∉ exitObs full l := by
  unfold exitObs
  intro h
  obtain ⟨x, _, h⟩ := List.mem_flatMap.1 h
  split at h <;> simp at h

theorem ExitsUntil.silent {l : List Sid} {obs : List Obs} (h : ExitsUntil C l obs) (b : Nat) : Obs.act b ∉ obs := by
  obtain ⟨l1, y, l2, o, l3, _, ho, rfl, _⟩ := h
  rw [List.mem_append, not_or]
  refine ⟨act_exitObs _ _ _, ?_⟩
  rcases ho with rfl | rfl <;> simp

theorem Fits.early {full : Bool} {s : Sid} {d : Target} {a : Option Nat} {c : Conf} {obs : List Obs} (hf : Fits C s d a) (h : (Breaks.meant C full).trans s d a c obs) : Early obs := by
  obtain ⟨k, t, xs, ys, l, o, c', ht, h⟩ := h
  have hys : ys = [] := ht.exited.outside fun q hq => by
    obtain ⟨p, hk, hb⟩ := hf k q ht.common hq
    exact ⟨p, by rw [ht.top.1, hk], hb⟩
  subst hys
  cases h with
  | exit _ h => exact .silent h.silent
  | action _ =>
    have := Early.intro (x := exitObs full xs) (r := []) (a := a) (act_exitObs full xs) (by simp)
    rwa [List.append_nil] at this
  | late _ h =>
    obtain ⟨l1, y, l2, _, _, h1, _⟩ := h
    cases l1 <;> cases h1
  | entry _ hn _ =>
    rw [show exitObs full [] = [] from rfl, List.append_nil]
    refine .intro (act_exitObs full xs) fun z => ?_
    cases hn <;> simp [enterObs]

theorem Local.quiet {e : Event} {s : Sid} {l : List Reaction} {c c' : Conf} {obs : List Obs} {res : RR} {F : Memory → Memory → Prop} {T : Moves} (h : Local F T D s e l c obs res c') :
    res = .forward → ∀ o ∈ obs, quietObs o = true := by
  induction h with
  | none => simp
  | skip _ _ _ ih => exact ih
  | @fire r _ _ _ _ _ _ hf =>
    intro hr
    generalize r.kind = k at hf
    cases hf <;> cases hr
    simp [quietObs]

theorem Passes.quiet {e : Event} {s k : Sid} {c c' : Conf} {obs : List Obs} {full : Bool} (h : Passes C Forget (.meant C full) D e s c obs k c') : ∀ o ∈ obs, quietObs o = true := by
  induction h with
  | here => simp
  | out h _ _ ih =>
    intro o ho
    rcases List.mem_append.1 ho with ho | ho
    · exact h.quiet rfl o ho
    · exact ih o ho

theorem SearchUntil.early {e : Event} {s : Sid} {c : Conf} {obs : List Obs} (hal : Aligned C D) (h : SearchUntil C Forget (.meant C true) (.meant C true) D e s c obs) : Early obs := by
  obtain ⟨o1, k, c1, o2, rfl, h1, l1, r, l2, hl, _, _, h2⟩ := h
  refine .after h1.quiet ?_
  have hr : r ∈ C.reactions k := by rw [hl]; simp
  have hterm : ∀ {c : Conf} {obs : List Obs}, (Breaks.meant C true).term k c obs → Early obs := by
    rintro c obs ⟨xs, o, c', _, _, h⟩
    exact .silent h.silent
  generalize hk : r.kind = kd at h2
  cases h2 with
  | transition h => exact (hal.declared k r _ _ hr hk).early h
  | inState =>
    exact Early.intro (x := []) (r := []) (a := some _) (by simp) (by simp)
  | termination h => exact hterm h
  | react => exact .silent (by simp)
  | transit _ hd h => exact .after (o1 := [_]) (by simp [quietObs]) ((hal.react _ _ _ _ _ hd).early h)
  | terminate _ _ h => exact .after (o1 := [_]) (by simp [quietObs]) (hterm h)

theorem Broken.not_late {e : Event} {l : List Sid} {s : Sid} {c c1 : Conf} {obs : List Obs} (hal : Aligned C D) (h : Broken C D e l c s obs c1) : ¬ LateExit obs := by
  obtain ⟨l1, l2, o0, c0, o1, _, rfl, _, _, h1, h2⟩ := h.ex
  exact ((h2.early hal).after h1).not_late

/-- Within the observations `tr`, which start when the states `act` exist: an event was dispatched, an exception `x` was thrown while the innermost state `s` was visited,
and the exception event was dispatched to the outermost unstable state or, if no state was unstable, to `s`. Only if the interrupted work shows `L` it was
dispatched to some unstable state. There was no dispatch if no state was left. -/
structure Aimed (C : Chart) (D : Sid → Nat → Event → Decision → Prop) (translate : Exc → Option Event) (L : List Obs → Prop) (act : Sid → Bool) (x : Exc)
    (tr : List (Option Event × Obs)) : Prop where
  ex : ∃ (pre post : List (Option Event × Obs)) (e1 ev : Event) (l : List Sid) (s : Sid) (obs1 obs2 : List Obs) (c0 c1 : Conf),
    tr = pre ++ (tag (some e1) obs1 ++ tag (some ev) obs2) ++ post ∧ c0.act = (pre.map (·.2)).foldl aliveStep act ∧ c1.act = obs1.foldl aliveStep c0.act ∧
    Innermost C c0.act l ∧ s ∈ l ∧ translate x = some ev ∧
    ((∃ u, c1.act u = true ∧ Dispatched C D ev u c1 obs2 ∧
      (OutermostUnstable C c0.act obs1 c1.act u ∨ ((∀ z, ¬ Unstable C c0.act obs1 c1.act z) ∧ u = s) ∨ (L obs1 ∧ Unstable C c0.act obs1 c1.act u))) ∨
     ((∀ z, c1.act z = false) ∧ obs2 = []))

/-- Relaxed transition context, and a transition was interrupted while it left states after its action. -/
def Late (C : Chart) (obs : List Obs) : Prop := C.relaxed = true ∧ LateExit obs

theorem Routed.aimed {act : Sid → Bool} {x : Exc} {tr : List (Option Event × Obs)} (h : Routed C D translate act x tr) :
    Aimed C D translate (fun o => Late C o ∧ ¬ Aligned C D) act x tr := by
  obtain ⟨pre, post, e1, ev, l, s, obs1, obs2, c0, c1', k1, k2, k3, k4, k5, c1, k6, k7⟩ := h.ex
  obtain ⟨l1, l2, _, _, _, hl, _⟩ := k4.ex
  refine ⟨pre, post, e1, ev, l, s, obs1, obs2, c0, c1, k1, k2, k6, k3, by rw [hl]; simp, k5, ?_⟩
  rcases k7 with ⟨u, g1, g2, _⟩ | g
  · refine .inl ⟨u, g1.1, g2, ?_⟩
    rcases g1.2 with g | g
    · by_cases hc : C.relaxed = false ∨ ¬ LateExit obs1
      · exact .inl ⟨g.1, g.2 hc⟩
      · have hc1 : C.relaxed = true := by
          cases hr : C.relaxed with
          | true => rfl
          | false => exact absurd (.inl hr) hc
        have hc2 : LateExit obs1 := Classical.byContradiction fun h => hc (.inr h)
        exact .inr (.inr ⟨⟨⟨hc1, hc2⟩, fun hal => k4.not_late hal hc2⟩, g.1⟩)
    · exact .inr (.inl ⟨g.1, (Option.some.inj g.2).symm⟩)
  · exact .inr g

theorem Aimed.mono {L L' : List Obs → Prop} {act : Sid → Bool} {x : Exc} {tr : List (Option Event × Obs)} (h : Aimed C D translate L act x tr) (hL : ∀ o, L o → L' o) :
    Aimed C D translate L' act x tr := by
  obtain ⟨pre, post, e1, ev, l, s, obs1, obs2, c0, c1, k1, k2, k3, k4, k5, k6, k7⟩ := h.ex
  refine ⟨pre, post, e1, ev, l, s, obs1, obs2, c0, c1, k1, k2, k3, k4, k5, k6, ?_⟩
  rcases k7 with ⟨u, g1, g2, g3⟩ | g
  · exact .inl ⟨u, g1, g2, g3.imp id (.imp id fun g => ⟨hL _ g.1, g.2⟩)⟩
  · exact .inr g

end SC.Spec

namespace SC
open Spec Chart
variable {W : Type} {P : Prog W} {m m' : Mach W}

section
variable (hwf : P.toChart.WF) (hok : Contract P)
include hwf hok

/-- **C45.** Every exception raised during a `process_event()` that returns was translated, and the exception event was dispatched to the outermost unstable state or, if no state was
unstable, to the innermost state being visited. Only with relaxed transition context, if a transition was interrupted while it left states after its action, having left others before, it was
dispatched to some unstable state. Partial: that one need not be the outermost (`Ex.C45_not_outermost`). -/
theorem C45_process_event_returns_partial {e : Event} {k : Nat} {b : Bool} (h : Reach P m) (hr : processEvent P e k m = .ok b m') :
    ∃ (tr : List (Option Event × Obs)) (xs : List Exc), m'.trace = m.trace ++ tr ∧ m'.xlog = m.xlog ++ xs ∧ ∀ x ∈ xs, Aimed P.toChart P.decides P.translate (Late P.toChart) m.act x tr := by
  obtain ⟨tr, xs, h1, h2, h3⟩ := C18_process_event_returns hwf hok h hr
  exact ⟨tr, xs, h1, h2, fun x hx => (h3 x hx).aimed.mono fun _ h => h.1⟩

/-- **C45.** The same for `process_event()` that throws: for the exceptions raised before the dispatch of the last event, and for the first one raised then, if it was raised in a reaction and
translated. -/
theorem C45_process_event_partial {e : Event} {k : Nat} {y : Exc} (h : Reach P m) (hr : processEvent P e k m = .thrown y m') :
    ∃ (tr : List (Option Event × Obs)) (xs xs' : List Exc), m'.trace = m.trace ++ tr ∧ m'.xlog = m.xlog ++ (xs ++ xs') ∧
      (∀ x ∈ xs, Aimed P.toChart P.decides P.translate (Late P.toChart) m.act x tr) ∧
      ((∃ x, xs'.head? = some x ∧ (P.translate x = none ∨ Aimed P.toChart P.decides P.translate (Late P.toChart) m.act x tr)) ∧ (xs' = [y] ∨ ∃ x, xs' = [x, y]) ∨
       ∃ (e' : Event) (l : List Sid) (c c' : Conf) (t1 t2 : List (Option Event × Obs)), tr = t1 ++ t2 ∧ Harmless P.toChart P.decides e' l c y xs' t2 c') := by
  obtain ⟨tr, xs, xs', h1, h2, h3, h4⟩ := C18_process_event hwf hok h hr
  refine ⟨tr, xs, xs', h1, h2, fun x hx => (h3 x hx).aimed.mono fun _ h => h.1, ?_⟩
  rcases h4 with ⟨⟨x, h4, h5⟩, h6⟩ | h4
  · exact .inl ⟨⟨x, h4, h5.imp id fun h => h.aimed.mono fun _ h => h.1⟩, h6⟩
  · exact .inr h4

/-- **C60.** If all actions are members of the innermost common context of their transition or of a context outside it, then also with relaxed transition context every exception event is dispatched to
the outermost unstable state or, if no state is unstable, to the innermost state being visited. -/
theorem C60_process_event_returns (hal : Aligned P.toChart P.decides) {e : Event} {k : Nat} {b : Bool} (h : Reach P m) (hr : processEvent P e k m = .ok b m') :
    ∃ (tr : List (Option Event × Obs)) (xs : List Exc), m'.trace = m.trace ++ tr ∧ m'.xlog = m.xlog ++ xs ∧ ∀ x ∈ xs, Aimed P.toChart P.decides P.translate (fun _ => False) m.act x tr := by
  obtain ⟨tr, xs, h1, h2, h3⟩ := C18_process_event_returns hwf hok h hr
  exact ⟨tr, xs, h1, h2, fun x hx => (h3 x hx).aimed.mono fun _ h => h.2 hal⟩

/-- **C60.** The same for `process_event()` that throws. -/
theorem C60_process_event (hal : Aligned P.toChart P.decides) {e : Event} {k : Nat} {y : Exc} (h : Reach P m) (hr : processEvent P e k m = .thrown y m') :
    ∃ (tr : List (Option Event × Obs)) (xs xs' : List Exc), m'.trace = m.trace ++ tr ∧ m'.xlog = m.xlog ++ (xs ++ xs') ∧
      (∀ x ∈ xs, Aimed P.toChart P.decides P.translate (fun _ => False) m.act x tr) ∧
      ((∃ x, xs'.head? = some x ∧ (P.translate x = none ∨ Aimed P.toChart P.decides P.translate (fun _ => False) m.act x tr)) ∧ (xs' = [y] ∨ ∃ x, xs' = [x, y]) ∨
       ∃ (e' : Event) (l : List Sid) (c c' : Conf) (t1 t2 : List (Option Event × Obs)), tr = t1 ++ t2 ∧ Harmless P.toChart P.decides e' l c y xs' t2 c') := by
  obtain ⟨tr, xs, xs', h1, h2, h3, h4⟩ := C18_process_event hwf hok h hr
  refine ⟨tr, xs, xs', h1, h2, fun x hx => (h3 x hx).aimed.mono fun _ h => h.2 hal, ?_⟩
  rcases h4 with ⟨⟨x, h4, h5⟩, h6⟩ | h4
  · exact .inl ⟨⟨x, h4, h5.imp id fun h => h.aimed.mono fun _ h => h.2 hal⟩, h6⟩
  · exact .inr h4

end

end SC

namespace SC.Ex
open Spec

/-- The example program with relaxed transition context. The action 7 of the transition of C (2) to D (3) is a member of B (1), their innermost common context, all others of the machine. -/
def alignedProg : Prog Nat := { prog with
  relaxed := true
  actCtx := fun a => if a = 7 then some 1 else none }

theorem alignedProg_wf : alignedProg.toChart.WF := Chart.wf_of_check _ (by decide)

theorem alignedProg_aligned : Aligned alignedProg.toChart alignedProg.decides := by
  have key : ∀ s d, alignedProg.parent s = some 1 → alignedProg.parent d.st = some 1 → ∀ a, Fits alignedProg.toChart s d a := by
    intro s d hs hd a k q hk hq
    obtain ⟨p, hp, hb⟩ := hk.inner 1 ⟨1, hs, .refl⟩ ⟨1, hd, .refl⟩
    refine ⟨p, hp, ?_⟩
    cases a with
    | none => cases hq
    | some a =>
      have hq' : (if a = 7 then some 1 else none) = some q := hq
      split at hq'
      · cases hq'; exact hb
      · cases hq'
  have free : ∀ s d a, (a ≠ some 7) → Fits alignedProg.toChart s d a := by
    intro s d a ha k q _ hq
    cases a with
    | none => cases hq
    | some a =>
      have hq' : (if a = 7 then some 1 else none) = some q := hq
      split at hq'
      · next h => exact absurd (by rw [h]) ha
      · cases hq'
  constructor
  · intro s r d a hr hk
    by_cases ha : a = some 7
    · subst ha
      have hr' : r ∈ chart.reactions s := hr
      unfold chart at hr'
      simp only at hr'
      split at hr' <;> simp only [List.mem_cons, List.not_mem_nil, or_false] at hr'
      all_goals
        first
          | (subst hr'; cases hk)
          | (rcases hr' with rfl | rfl <;> cases hk <;> exact key _ _ rfl rfl _)
          | (rcases hr' with rfl | rfl | rfl | rfl | rfl <;> cases hk)
    · exact free s d a ha
  · rintro s id e d a ⟨v, w, h, _⟩
    refine free s d a ?_
    rintro rfl
    have h' : (match e.val with
      | 0 => Decision.discard
      | 1 => .forward
      | 2 => .defer
      | 3 => if s = 2 then .transit ⟨.plain, 3⟩ none else .discard
      | _ => .terminate) = .transit d (some 7) := h
    split at h' <;> try cases h'
    split at h' <;> cases h'

theorem alignedProg_contract : Contract alignedProg := by
  constructor
  · intro s v w _; rfl
  · intro s r e v w d a h
    have h' : (match e.val with
      | 0 => Decision.discard
      | 1 => .forward
      | 2 => .defer
      | 3 => if s = 2 then .transit ⟨.plain, 3⟩ none else .discard
      | _ => .terminate) = .transit d a := h
    split at h'
    · cases h'
    · cases h'
    · cases h'
    · split at h'
      · next hs =>
        subst hs
        cases h'
        decide
      · cases h'
    · cases h'

/-- The hypotheses of C60, and an exception that is handled: the constructor of D throws after the action 7 of B, and A handles the event. -/
example : ∃ m m' : Mach Nat, alignedProg.relaxed = true ∧ alignedProg.actCtx 7 = some 1 ∧ Reach alignedProg m ∧ (∃ b, processEvent alignedProg ⟨1, 0⟩ 0 m = .ok b m') ∧ m'.xlog = m.xlog ++ [100] ∧
    m'.trace = m.trace ++ (tag (some ⟨1, 0⟩) [.exit 2, .destroy 2, .act 7, .enterFail 3] ++ tag (some ⟨9, 100⟩) [.destroy 6, .destroy 5, .destroy 4, .destroy 1, .destroy 0, .act 1, .enter 8]) := by
  obtain ⟨m, h1, h2⟩ := scenario_ex (P := alignedProg) [(0, .initiate 0)] 1 (fun m => shows true
    (tag (some ⟨1, 0⟩) [.exit 2, .destroy 2, .act 7, .enterFail 3] ++ tag (some ⟨9, 100⟩) [.destroy 6, .destroy 5, .destroy 4, .destroy 1, .destroy 0, .act 1, .enter 8]) [100] m
    (processEvent alignedProg ⟨1, 0⟩ 0 m)) (by decide +kernel)
  obtain ⟨m', h3, h4, ⟨_, h5⟩ | ⟨h5, _⟩⟩ := of_shows h2
  · exact ⟨m, m', rfl, rfl, h1, h5, h4, h3⟩
  · cases h5

/-- The example of `C45_not_outermost` is not aligned: action 6 of the transition from C to I is a member of B. -/
example : ¬ Aligned relaxedProg.toChart relaxedProg.decides := by
  intro h
  have h1 := h.declared 2 ⟨some 13, .transition ⟨.plain, 8⟩ (some 6)⟩ ⟨.plain, 8⟩ (some 6) (by decide) rfl
  have h2 : CommonCtx relaxedProg.toChart 2 8 none := ⟨fun p hp => by (cases hp), fun x _ ⟨p, hp, _⟩ => by (cases hp)⟩
  obtain ⟨p, hp, _⟩ := h1 none 1 h2 rfl
  cases hp

end SC.Ex
