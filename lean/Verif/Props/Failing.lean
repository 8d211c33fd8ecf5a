import Verif.Props.Ends
/-!
# Property C35 (and the last part of C15): which exception propagates

`Mach.xlog` records the exceptions raised by user code and by allocations, in order.
-/

namespace SC.Spec
open SC Chart
variable {C : Chart} {D : Sid → Nat → Event → Decision → Prop} {translate : Exc → Option Event} {e : Event} {l : List Sid} {c c' : Conf} {y : Exc}
  {xs : List Exc} {tr : List (Option Event × Obs)}

/-- How the exceptions `xs` raised since some point led to the propagation of `y`: `y` is the only one and is not translated; or it is the only one, is translated
and its event `ev`, dispatched to state `h`, was not consumed, or consumed leaving the machine unstable, or there was no state left to react; or `y` was raised
by the reaction to the event translated from the first one. `c1` is the configuration in which the exception event is dispatched, `obs` what is observed from there
until the reaction ends. -/
inductive Why (C : Chart) (D : Sid → Nat → Event → Decision → Prop) (translate : Exc → Option Event) (c1 : Conf) : List Exc → Exc → List Obs → Prop
  | untranslated {y : Exc} : translate y = none → Why C D translate c1 [y] y []
  | noState {y : Exc} : translate y ≠ none → (∀ s, c1.act s = false) → Why C D translate c1 [y] y []
  | notConsumed {y : Exc} {ev h r obs c2} : translate y = some ev → c1.act h = true → Search C Forget (.meant C false) D ev h c1 obs r c2 → r ≠ .discard → Why C D translate c1 [y] y obs
  | unstable {y : Exc} {ev h obs c2} : translate y = some ev → c1.act h = true → Search C Forget (.meant C false) D ev h c1 obs .discard c2 → c2.act = c1.act →
      Why C D translate c1 [y] y obs
  | replaced {x y : Exc} {h obs} : translate x ≠ none → c1.act h = true → Why C D translate c1 [x, y] y obs

theorem Why.of_refusal {ev : Event} {x : Exc} {c1 : Conf} {obs : List Obs} (hx : translate x = some ev) {O : Sid → Prop} (hO : ∀ h, O h → c1.act h = true) (h : Refusal C D O ev x c1 y xs obs) :
    Why C D translate c1 (x :: xs) y obs := by
  cases h with
  | dead h => exact .noState (by simp [hx]) h
  | @refused s r _ c2 h1 h2 h3 =>
    by_cases hr : r = .discard
    · subst hr
      exact .unstable hx (hO _ h1) h2 (h3.resolve_left (by simp))
    · exact .notConsumed hx (hO _ h1) h2 hr
  | threw h1 => exact .replaced (by simp [hx]) (hO _ h1)

/-- The propagated exception is the last one raised. -/
theorem Why.last {c1 : Conf} {obs : List Obs} (h : Why C D translate c1 xs y obs) : xs.getLast? = some y ∧ xs.length ≤ 2 := by
  cases h <;> simp

/-- The propagated exception is the original one unless the exception event's own reaction raised another one. -/
theorem Why.original {c1 : Conf} {obs : List Obs} (h : Why C D translate c1 xs y obs) : xs.head? = some y ∨ ∃ x, xs = [x, y] ∧ translate x ≠ none := by
  cases h with
  | replaced h _ => exact .inr ⟨_, rfl, h⟩
  | _ => exact .inl rfl

/-- All observations up to some point, then the exception event's dispatch, then the destruction of all states. -/
structure Dies (C : Chart) (D : Sid → Nat → Event → Decision → Prop) (translate : Exc → Option Event) (c : Conf) (y : Exc) (xs : List Exc) (obs : List Obs) (c' : Conf) : Prop where
  ex : ∃ o1 o2 o3 c1, obs = o1 ++ o2 ++ o3 ∧ c1.act = o1.foldl aliveStep c.act ∧ Why C D translate c1 xs y o2 ∧ (∀ o ∈ o2, o.isExit = false) ∧
    DestroysAll C (o2.foldl aliveStep c1.act) o3
  gone : Gone c'

theorem map_tag (t : Option Event) (obs : List Obs) : (tag t obs).map (·.2) = obs := by unfold tag; rw [map_snd]

theorem Fatal.dies (h : Fatal C D translate e l c y xs tr c') : Dies C D translate c y xs (tr.map (·.2)) c' := by
  cases h with
  | @died s o1 c1 o2 _ h1 h2 h3 h4 =>
    exact ⟨⟨o1, [], o2, c1, by rw [map_tag]; simp, h1.act, .untranslated h2, by simp, h3⟩, h4⟩
  | @rejected s o1 c1 o2 o3 x xs ev _ h1 h2 h3 h4 _ h5 h6 =>
    exact ⟨⟨o1, o2, o3, c1, by simp only [List.map_append, map_tag], h1.act, .of_refusal h2 (fun _ h => h.1) h3, h4, h5⟩, h6⟩

theorem Aborted.dies {B : Conf → List Obs → Prop} (h : Aborted C D translate B c y xs tr c') : Dies C D translate c y xs (tr.map (·.2)) c' := by
  cases h with
  | @died o1 o2 c1 _ _ h1 h2 h3 h4 =>
    exact ⟨⟨o1, [], o2, c1, by rw [map_tag]; simp, h1, .untranslated h2, by simp, h3⟩, h4⟩
  | @rejected o1 o2 o3 c1 _ x xs ev _ h1 h2 h3 h4 _ h5 h6 =>
    exact ⟨⟨o1, o2, o3, c1, by simp only [List.map_append, map_tag], h1, .of_refusal h2 (fun _ h => h.1) h3, h4, h5⟩, h6⟩

/-- The exceptions `xs` were all handled: each was translated to an event that a state existing at that time consumed. -/
def AllHandled (C : Chart) (D : Sid → Nat → Event → Decision → Prop) (translate : Exc → Option Event) (xs : List Exc) : Prop :=
  ∀ x ∈ xs, ∃ ev h c1 obs c2, translate x = some ev ∧ c1.act h = true ∧ Search C Forget (.meant C false) D ev h c1 obs .discard c2

theorem Episode.handled (h : Episode C D translate e l c xs tr c') : AllHandled C D translate xs ∧ xs.length ≤ 1 := by
  cases h with
  | reacted _ _ _ => exact ⟨by simp [AllHandled], by simp⟩
  | unconsumed _ _ _ _ => exact ⟨by simp [AllHandled], by simp⟩
  | recovered _ h1 h2 h3 _ _ =>
    refine ⟨?_, by simp⟩
    intro x hx
    simp only [List.mem_singleton] at hx
    subst hx
    exact ⟨_, _, _, _, _, h1, h2.1, h3⟩

theorem AllHandled.append {xs ys : List Exc} (h1 : AllHandled C D translate xs) (h2 : AllHandled C D translate ys) : AllHandled C D translate (xs ++ ys) :=
  fun x hx => (List.mem_append.1 hx).elim (h1 x) (h2 x)

theorem Episodes.handled {es : List Event} (h : Episodes C D translate es c xs tr c') : AllHandled C D translate xs ∧ xs.length ≤ es.length := by
  induction h with
  | nil => exact ⟨by simp [AllHandled], by simp⟩
  | cons _ h _ ih =>
    refine ⟨h.handled.1.append ih.1, ?_⟩
    have := h.handled.2
    have := ih.2
    simp only [List.length_append, List.length_cons]
    omega

theorem Recovered.handled {B : Conf → List Obs → Prop} (h : Recovered C D translate B c xs tr c') : AllHandled C D translate xs ∧ xs.length ≤ 1 := by
  cases h with
  | intro _ _ h1 h2 h3 _ _ =>
    refine ⟨?_, by simp⟩
    intro x hx
    simp only [List.mem_singleton] at hx
    subst hx
    exact ⟨_, _, _, _, _, h1, h2.1, h3⟩

end SC.Spec

namespace SC
open Spec Chart
variable {W : Type} {P : Prog W} {m m' : Mach W}

section
variable (hwf : P.toChart.WF) (hok : Contract P)
include hwf hok

/-- **C35.** `process_event()` that throws `y`: all exceptions raised before the dispatch of the last event were handled. The exceptions `xs'` raised during the dispatch of the last event
explain `y`: `y` is the only one, or it was raised by the reaction to the event translated from the only other one. Unless `y` comes from `unconsumed_event` or from the allocation for the
deferral of the event, all states are destroyed after the reaction to the exception event and the machine is terminated. -/
theorem C35_process_event {e : Event} {k : Nat} {y : Exc} (h : Reach P m) (hr : processEvent P e k m = .thrown y m') :
    ∃ (xs xs' : List Exc) (e' : Event) (m0 : Mach W) (obs obs' : List Obs), m'.xlog = m.xlog ++ (xs ++ xs') ∧ AllHandled P.toChart P.decides P.translate xs ∧
      m'.trace.map (·.2) = m.trace.map (·.2) ++ obs ++ obs' ∧
      ((m'.terminated = true ∧ Dies P.toChart P.decides P.translate m0.conf y xs' obs' m'.conf) ∨
       (xs' = [y] ∧ ∃ tr', obs' = tr'.map (·.2) ∧ Harmless P.toChart P.decides e' m0.leaves m0.conf y xs' tr' m'.conf)) := by
  obtain ⟨es, e', m0, xs, tr, xs', tr', h1, h2, h3, h4, _⟩ := C15_process_event hwf hok h hr
  refine ⟨xs, xs', e', m0, tr.map (·.2), tr'.map (·.2), h3, h1.handled.1, by rw [h2]; simp [List.append_assoc], ?_⟩
  rcases h4 with ⟨h4, h5, _⟩ | ⟨h4, _⟩
  · exact .inl ⟨h5, h4.dies⟩
  · have key : ∀ c', Harmless P.toChart P.decides e' m0.leaves m0.conf y xs' tr' c' → xs' = [y] := by
      intro c' h
      cases h <;> rfl
    exact .inr ⟨key _ h4, tr', rfl, h4⟩

/-- **C35.** `process_event()` that returns: every exception raised was translated to an event which was consumed. -/
theorem C35_process_event_returns {e : Event} {k : Nat} {b : Bool} (h : Reach P m) (hr : processEvent P e k m = .ok b m') :
    ∃ xs, m'.xlog = m.xlog ++ xs ∧ AllHandled P.toChart P.decides P.translate xs := by
  obtain ⟨es, xs1, tr1, c1, xs2, tr2, _, h2, h3, h4, _⟩ := process_event_returns hwf hok h hr
  exact ⟨_, h2, h3.handled.1.append h4.handled.1⟩

/-- **C35.** `terminate()` that throws `y`. -/
theorem C35_terminate {y : Exc} (h : Reach P m) (hr : terminate P m = .thrown y m') :
    ∃ xs obs, m'.xlog = m.xlog ++ xs ∧ m'.trace.map (·.2) = m.trace.map (·.2) ++ obs ∧ m'.terminated = true ∧ Dies P.toChart P.decides P.translate m.conf y xs obs m'.conf := by
  obtain ⟨⟨xs, tr, h1, h2, h3⟩, h4, _⟩ := C15_terminate hwf hok h hr
  exact ⟨xs, _, h2, by rw [h1, List.map_append], h4, h3.dies⟩

/-- **C35.** `terminate()` that returns: if an exception was raised, it was translated to an event which was consumed. -/
theorem C35_terminate_returns (h : Reach P m) (hr : terminate P m = .ok () m') :
    ∃ xs, m'.xlog = m.xlog ++ xs ∧ AllHandled P.toChart P.decides P.translate xs ∧ xs.length ≤ 1 := by
  rcases C13_terminate hwf hok h hr with ⟨_, _, _, _, _, _, _, h⟩ | ⟨xs, _, _, h1, h2⟩
  · exact ⟨[], by simp [h], by simp [AllHandled], by simp⟩
  · exact ⟨xs, h1, h2.handled⟩

omit hwf hok in
theorem Spec.Ended.handled {c c' : Conf} {xs : List Exc} {tr : List (Option Event × Obs)} (h : Ended P.toChart P.decides P.translate c xs tr c') :
    AllHandled P.toChart P.decides P.translate xs := by
  cases h with
  | exited _ _ => simp [AllHandled]
  | recovered h _ => exact h.handled.1

omit hwf hok in
theorem Spec.Begun.handled {c c' : Conf} {xs : List Exc} {tr : List (Option Event × Obs)} (h : Begun P.toChart P.decides P.translate c xs tr c') :
    AllHandled P.toChart P.decides P.translate xs := by
  cases h with
  | entered _ _ => simp [AllHandled]
  | recovered h => exact h.handled.1

/-- **C35.** `initiate()` that throws `y`: from the termination of the old configuration, the initial entry, or the dispatch of an event posted meanwhile. -/
theorem C35_initiate {k : Nat} {y : Exc} (h : Reach P m) (hl : (Call.initiate k).legal P m) (hr : initiate P k m = .thrown y m') :
    ∃ (xs xs' : List Exc) (c0 : Conf) (obs obs' : List Obs), m'.xlog = m.xlog ++ (xs ++ xs') ∧ AllHandled P.toChart P.decides P.translate xs ∧
      m'.trace.map (·.2) = m.trace.map (·.2) ++ obs ++ obs' ∧
      ((m'.terminated = true ∧ Dies P.toChart P.decides P.translate c0 y xs' obs' m'.conf) ∨
       (xs' = [y] ∧ ∃ (e' : Event) (l : List Sid) (tr' : List (Option Event × Obs)), obs' = tr'.map (·.2) ∧ Harmless P.toChart P.decides e' l c0 y xs' tr' m'.conf)) := by
  rcases C15_initiate hwf hok h hl hr with ⟨⟨xs, tr, h1, h2, h3⟩, h4, _⟩ | ⟨xs0, tr0, c0, h0, ⟨⟨xs, tr, h1, h2, h3⟩, h4, _⟩ |
    ⟨xs1, tr1, c1, es, e', m0, xs, tr, xs', tr', h1, h2, h3, h4, h5, _⟩⟩
  · exact ⟨[], xs, m.conf, [], _, by simpa using h2, by simp [AllHandled], by rw [h1]; simp, .inl ⟨h4, h3.dies⟩⟩
  · exact ⟨xs0, xs, c0, _, _, h2, h0.handled, by rw [h1, List.map_append, List.map_append, List.append_assoc], .inl ⟨h4, h3.dies⟩⟩
  · refine ⟨xs0 ++ (xs1 ++ xs), xs', m0.conf, (tr0 ++ (tr1 ++ tr)).map (·.2), tr'.map (·.2), by rw [h4]; simp only [List.append_assoc],
      h0.handled.append (h1.handled.append h2.handled.1), by rw [h3]; simp only [List.append_assoc, List.map_append], ?_⟩
    rcases h5 with ⟨h5, h6, _⟩ | ⟨h5, _⟩
    · exact .inl ⟨h6, h5.dies⟩
    · have key : ∀ c', Harmless P.toChart P.decides e' m0.leaves m0.conf y xs' tr' c' → xs' = [y] := by
        intro c' h
        cases h <;> rfl
      exact .inr ⟨key _ h5, e', _, tr', rfl, h5⟩

/-- **C35.** `initiate()` that returns. -/
theorem C35_initiate_returns {k : Nat} {b : Bool} (h : Reach P m) (hl : (Call.initiate k).legal P m) (hr : initiate P k m = .ok b m') :
    ∃ xs, m'.xlog = m.xlog ++ xs ∧ AllHandled P.toChart P.decides P.translate xs := by
  obtain ⟨xs0, tr0, c0, xs1, tr1, c1, es, xs2, tr2, _, h1, h2, h3, h4, _⟩ := initiate_returns hwf hok h hl hr
  exact ⟨_, h1, h2.handled.append (h3.handled.append h4.handled.1)⟩

end
end SC

namespace SC.Ex
open Spec Chart

/-- `process_event(e)` of the example, run in world `w`, throws `y`, raising `xs` and ending in a terminated machine. -/
def dies (e : Event) (y : Exc) (xs : List Exc) (m : Mach Nat) : Bool :=
  match processEvent prog e 0 m with
  | .thrown z m' => decide (z = y) && m'.terminated && decide (m'.xlog = m.xlog ++ xs)
  | _ => false

theorem of_dies {e : Event} {y : Exc} {xs : List Exc} {m : Mach Nat} (h : dies e y xs m = true) :
    ∃ m', processEvent prog e 0 m = .thrown y m' ∧ m'.terminated = true ∧ m'.xlog = m.xlog ++ xs := by
  unfold dies at h
  cases h3 : processEvent prog e 0 m with
  | thrown z m' =>
    rw [h3] at h
    simp only [Bool.and_eq_true, decide_eq_true_eq] at h
    obtain ⟨⟨rfl, h1⟩, h2⟩ := h
    exact ⟨m', rfl, h1, h2⟩
  | ok _ _ => rw [h3] at h; cases h
  | fault _ => rw [h3] at h; cases h

/-- The action of a transition throws 109. The exception event makes A (0) transit to I (8), and the action of that transition throws 103: 103 propagates. -/
example : ∃ m m' : Mach Nat, Reach prog m ∧ processEvent prog ⟨1, 0⟩ 0 m = .thrown 103 m' ∧ m'.terminated = true ∧ m'.xlog = m.xlog ++ [109, 103] := by
  obtain ⟨m, h1, h2⟩ := scenario_ex (P := prog) [(0, .initiate 0)] 3 (dies ⟨1, 0⟩ 103 [109, 103]) (by decide +kernel)
  obtain ⟨m', h⟩ := of_dies h2
  exact ⟨m, m', h1, h⟩

/-- The action of an in-state reaction of I (8) throws 105. The exception event is forwarded: 105 propagates. -/
example : ∃ m m' : Mach Nat, Reach prog m ∧ processEvent prog ⟨12, 0⟩ 0 m = .thrown 105 m' ∧ m'.terminated = true ∧ m'.xlog = m.xlog ++ [105] := by
  obtain ⟨m, h1, h2⟩ := scenario_ex (P := prog) [(0, .initiate 0), (0, .process ⟨5, 0⟩ 5)] 3 (dies ⟨12, 0⟩ 105 [105]) (by decide +kernel)
  obtain ⟨m', h⟩ := of_dies h2
  exact ⟨m, m', h1, h⟩

/-- An exception is raised and handled. -/
example : ∃ m m' : Mach Nat, Reach prog m ∧ processEvent prog ⟨1, 0⟩ 0 m = .ok true m' ∧ m'.xlog = m.xlog ++ [100] := by
  obtain ⟨m, h1, h2⟩ := scenario_ex (P := prog) [(0, .initiate 0)] 1 (fun m => match processEvent prog ⟨1, 0⟩ 0 m with
    | .ok b m' => b && decide (m'.xlog = m.xlog ++ [100])
    | _ => false) (by decide +kernel)
  cases h3 : processEvent prog ⟨1, 0⟩ 0 m with
  | ok b m' =>
    rw [h3] at h2
    simp only [Bool.and_eq_true, decide_eq_true_eq] at h2
    obtain ⟨rfl, h5⟩ := h2
    exact ⟨m, m', h1, h3, h5⟩
  | thrown _ _ => rw [h3] at h2; cases h2
  | fault _ => rw [h3] at h2; cases h2

/-- `exit()` throws during `terminate()`; 5 is not translated. -/
example : ∃ m m' : Mach Nat, Reach prog m ∧ terminate prog m = .thrown 5 m' ∧ m'.xlog = m.xlog ++ [5] := by
  obtain ⟨m, h1, h2⟩ := scenario_ex (P := prog) [(0, .initiate 0)] 6 (fun m => match terminate prog m with
    | .thrown z m' => decide (z = 5) && decide (m'.xlog = m.xlog ++ [5])
    | _ => false) (by decide +kernel)
  cases h3 : terminate prog m with
  | thrown z m' =>
    rw [h3] at h2
    simp only [Bool.and_eq_true, decide_eq_true_eq] at h2
    obtain ⟨rfl, h5⟩ := h2
    exact ⟨m, m', h1, h3, h5⟩
  | ok _ _ => rw [h3] at h2; cases h2
  | fault _ => rw [h3] at h2; cases h2

end SC.Ex
