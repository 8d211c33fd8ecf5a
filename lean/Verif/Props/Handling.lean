import Verif.Props.Failing
/-!
# Properties C18, C39: where exception events go, and what was done before the exception
-/

namespace SC.Spec
open SC Chart
variable {C : Chart} {D : Sid → Nat → Event → Decision → Prop} {translate : Exc → Option Event} {e : Event} {l : List Sid} {c c' : Conf} {y : Exc}
  {xs : List Exc} {tr : List (Option Event × Obs)}

/-! ## The search moves outward -/

/-- The state whose `react` member is called. -/
def _root_.SC.Obs.reacting? : Obs → Option Sid
  | .react s _ => some s
  | _ => none

/-- The states whose `react` members are called. -/
def asked (obs : List Obs) : List Sid := obs.filterMap Obs.reacting?

/-- The states whose `react` members are called are `h` or outer states of `h`, from inner to outer, each at most once. -/
structure Outward (C : Chart) (h : Sid) (obs : List Obs) : Prop where
  outer : ∀ s ∈ asked obs, Below C s h
  order : (asked obs).Pairwise fun x y => Outer C y x

theorem asked_append (a b : List Obs) : asked (a ++ b) = asked a ++ asked b := by unfold asked; rw [List.filterMap_append]

theorem asked_nil {obs : List Obs} (h : ∀ o ∈ obs, ∀ s id, o ≠ .react s id) : asked obs = [] := by
  unfold asked
  rw [List.filterMap_eq_nil_iff]
  intro o ho
  have := h o ho
  cases o <;> first | rfl | exact absurd rfl (this _ _)

theorem asked_exitObs (full : Bool) (l : List Sid) : asked (exitObs full l) = [] := by
  refine asked_nil fun o ho s id => ?_
  unfold exitObs at ho
  obtain ⟨x, _, ho⟩ := List.mem_flatMap.1 ho
  cases full <;> simp at ho
  · subst ho; simp
  · rcases ho with rfl | rfl <;> simp

theorem asked_acts (a : Option Nat) : asked (acts a) = [] := by cases a <;> rfl

theorem asked_enterObs (l : List Sid) : asked (enterObs l) = [] := by
  refine asked_nil fun o ho s id => ?_
  simp only [enterObs, List.mem_map] at ho
  obtain ⟨x, _, rfl⟩ := ho
  simp

theorem asked_destroy (l : List Sid) : asked (l.map Obs.destroy) = [] := by
  refine asked_nil fun o ho s id => ?_
  simp only [List.mem_map] at ho
  obtain ⟨x, _, rfl⟩ := ho
  simp

theorem asked_notEntered {z : Sid} {t : List Obs} (h : NotEntered z t) : asked t = [] := by cases h <;> rfl

theorem asked_exitsUntil {l : List Sid} {obs : List Obs} (h : ExitsUntil C l obs) : asked obs = [] := by
  obtain ⟨l1, z, l2, o, l3, _, ho, rfl, _⟩ := h
  rw [asked_append, asked_exitObs, List.nil_append]
  refine asked_nil fun p hp s id => ?_
  rcases List.mem_cons.1 hp with rfl | hp
  · rcases ho with rfl | rfl <;> simp
  · obtain ⟨x, _, rfl⟩ := List.mem_map.1 hp
    simp

theorem asked_trans {full : Bool} {s : Sid} {d : Target} {a : Option Nat} {obs : List Obs} (h : (Moves.meant C full).trans s d a c obs c') : asked obs = [] := by
  obtain ⟨k, t, xs, ys, l, h⟩ := h
  rw [h.seen]
  simp [asked_append, asked_exitObs, asked_acts, asked_enterObs]

theorem asked_term {full : Bool} {s : Sid} {obs : List Obs} (h : (Moves.meant C full).term s c obs c') : asked obs = [] := by
  obtain ⟨xs, h⟩ := h
  rw [h.seen, asked_exitObs]

theorem asked_transUntil {full : Bool} {s : Sid} {d : Target} {a : Option Nat} {obs : List Obs} (h : (Breaks.meant C full).trans s d a c obs) : asked obs = [] := by
  obtain ⟨k, t, xs, ys, l, o, c', _, h⟩ := h
  cases h with
  | exit _ h => exact asked_exitsUntil h
  | action _ => simp [asked_append, asked_exitObs, asked_acts]
  | late _ h => simp [asked_append, asked_exitObs, asked_acts, asked_exitsUntil h]
  | entry _ h _ => simp [asked_append, asked_exitObs, asked_acts, asked_enterObs, asked_destroy, asked_notEntered h]

theorem asked_termUntil {full : Bool} {s : Sid} {obs : List Obs} (h : (Breaks.meant C full).term s c obs) : asked obs = [] := by
  obtain ⟨xs, o, c', _, _, h⟩ := h
  exact asked_exitsUntil h

theorem Local.asked {full : Bool} {F : Memory → Memory → Prop} {s : Sid} {rs : List Reaction} {obs : List Obs} {r : RR} (h : Local F (.meant C full) D s e rs c obs r c') :
    asked obs = [] ∨ asked obs = [s] := by
  induction h with
  | none => exact .inl rfl
  | skip _ _ _ ih => exact ih
  | @fire r _ _ _ _ _ _ h =>
    generalize r.kind = k at h
    cases h with
    | transition h => exact .inl (asked_trans h)
    | inState _ => exact .inl (asked_acts _)
    | termination h => exact .inl (asked_term h)
    | deferral => exact .inl rfl
    | discard _ _ => exact .inr rfl
    | forward _ _ => exact .inr rfl
    | defer _ _ => exact .inr rfl
    | transit _ _ h => exact .inr (congrArg (s :: ·) (asked_trans h))
    | terminate _ _ h => exact .inr (congrArg (s :: ·) (asked_term h))

theorem LocalUntil.asked {full : Bool} {F : Memory → Memory → Prop} {s : Sid} {rs : List Reaction} {obs : List Obs} (h : LocalUntil F (.meant C full) D s e rs c obs) :
    asked obs = [] ∨ asked obs = [s] := by
  obtain ⟨_, r, _, _, _, _, h⟩ := h
  generalize r.kind = k at h
  cases h with
  | transition h => exact .inl (asked_transUntil h)
  | inState => exact .inl rfl
  | termination h => exact .inl (asked_termUntil h)
  | react => exact .inr rfl
  | transit _ _ h => exact .inr (congrArg (s :: ·) (asked_transUntil h))
  | terminate _ _ h => exact .inr (congrArg (s :: ·) (asked_termUntil h))

theorem Outward.of_asked {h : Sid} {obs : List Obs} (ha : asked obs = [] ∨ asked obs = [h]) : Outward C h obs := by
  rcases ha with ha | ha <;> refine ⟨?_, ?_⟩ <;> rw [ha] <;> simp
  exact .refl

theorem Outward.out {h p : Sid} {o1 o2 : List Obs} (hp : C.parent h = some p) (h1 : asked o1 = [] ∨ asked o1 = [h]) (h2 : Outward C p o2) : Outward C h (o1 ++ o2) := by
  constructor
  · intro s hs
    rw [asked_append] at hs
    rcases List.mem_append.1 hs with hs | hs
    · rcases h1 with h1 | h1 <;> rw [h1] at hs
      · cases hs
      · rw [List.mem_singleton.1 hs]; exact .refl
    · exact .step hp (h2.outer s hs)
  · rw [asked_append, List.pairwise_append]
    refine ⟨?_, h2.order, ?_⟩
    · rcases h1 with h1 | h1 <;> rw [h1] <;> simp
    · intro x hx z hz
      rcases h1 with h1 | h1 <;> rw [h1] at hx
      · cases hx
      · rw [List.mem_singleton.1 hx]
        exact ⟨p, hp, h2.outer z hz⟩

theorem Search.outward {full : Bool} {F : Memory → Memory → Prop} {s : Sid} {obs : List Obs} {r : RR} (h : Search C F (.meant C full) D e s c obs r c') : Outward C s obs := by
  induction h with
  | stop h _ => exact .of_asked (Local.asked h)
  | top h _ => exact .of_asked (Local.asked h)
  | out h hp _ ih => exact ih.out hp (Local.asked h)

theorem SearchUntil.outward {full : Bool} {F : Memory → Memory → Prop} {s : Sid} {obs : List Obs} (h : SearchUntil C F (.meant C full) (.meant C full) D e s c obs) : Outward C s obs := by
  obtain ⟨o1, k, c1, o2, rfl, h1, h2⟩ := h
  induction h1 with
  | here => exact .of_asked (LocalUntil.asked h2)
  | out h hp _ ih =>
    rw [List.append_assoc]
    exact (ih h2).out hp (Local.asked h)

/-! ## C18 -/

/-- The event `ev` is dispatched to `h` in configuration `c`: completely, or until an exception is thrown. -/
def Dispatched (C : Chart) (D : Sid → Nat → Event → Decision → Prop) (ev : Event) (h : Sid) (c : Conf) (obs : List Obs) : Prop :=
  (∃ r c', Search C Forget (.meant C false) D ev h c obs r c') ∨ SearchUntil C Forget (.meant C false) (.meant C false) D ev h c obs

theorem Dispatched.outward {ev : Event} {h : Sid} {obs : List Obs} (hd : Dispatched C D ev h c obs) : Outward C h obs := by
  rcases hd with ⟨r, c', hd⟩ | hd
  · exact hd.outward
  · exact hd.outward

/-- An exception was thrown after the observations `obs1`, made since the states `act` existed. The exception event `ev` is offered to a state `h` that `O` relates to the states that
exist then. The search for a reaction starts in `h` and moves outward. There is no offer if no state exists. -/
structure Offers (C : Chart) (D : Sid → Nat → Event → Decision → Prop) (ev : Event) (O : (Sid → Bool) → Sid → Prop) (act : Sid → Bool) (obs1 obs2 : List Obs) : Prop where
  ex : ∃ c1 : Conf, c1.act = obs1.foldl aliveStep act ∧
    ((∃ h, O c1.act h ∧ Dispatched C D ev h c1 obs2 ∧ Outward C h obs2) ∨ ((∀ s, c1.act s = false) ∧ obs2 = []))

theorem Refusal.offers {ev : Event} {x : Exc} {c1 : Conf} {O : (Sid → Bool) → Sid → Prop} {act : Sid → Bool} {obs1 obs2 : List Obs} (ha : c1.act = obs1.foldl aliveStep act)
    (h : Refusal C D (O c1.act) ev x c1 y xs obs2) : Offers C D ev O act obs1 obs2 := by
  cases h with
  | dead h => exact ⟨c1, ha, .inr ⟨h, rfl⟩⟩
  | refused h1 h2 _ => exact ⟨c1, ha, .inl ⟨_, h1, .inl ⟨_, _, h2⟩, h2.outward⟩⟩
  | threw h1 h2 => exact ⟨c1, ha, .inl ⟨_, h1, .inr h2, h2.outward⟩⟩

/-- Within the observations `tr`, which start when the states `act` exist: event `e` was dispatched, the innermost states before `s` (in the order in which they are visited) forwarded it, an exception `x` was
thrown while `s` was visited, and the event translated from it was offered to the right state (`SentTo`): if a state was unstable then, to the outermost unstable one (with relaxed transition
context, if a late exit was interrupted, to some unstable one, see C45), otherwise to `s`. -/
structure Routed (C : Chart) (D : Sid → Nat → Event → Decision → Prop) (translate : Exc → Option Event) (act : Sid → Bool) (x : Exc) (tr : List (Option Event × Obs)) : Prop where
  ex : ∃ (pre post : List (Option Event × Obs)) (e ev : Event) (l : List Sid) (s : Sid) (obs1 obs2 : List Obs) (c0 c1 : Conf),
    tr = pre ++ (tag (some e) obs1 ++ tag (some ev) obs2) ++ post ∧ c0.act = (pre.map (·.2)).foldl aliveStep act ∧ Innermost C c0.act l ∧
    Broken C D e l c0 s obs1 c1 ∧ translate x = some ev ∧ Offers C D ev (SentTo C (some s) c0.act obs1) c0.act obs1 obs2

theorem Routed.append {act : Sid → Bool} {x : Exc} {t1 t2 : List (Option Event × Obs)} (h : Routed C D translate ((t1.map (·.2)).foldl aliveStep act) x t2) (t3 : List (Option Event × Obs)) :
    Routed C D translate act x (t1 ++ t2 ++ t3) := by
  obtain ⟨pre, post, e, ev, l, s, obs1, obs2, c0, c1, rfl, h1, h2, h3, h4, h5⟩ := h
  refine ⟨t1 ++ pre, post ++ t3, e, ev, l, s, obs1, obs2, c0, c1, by simp [List.append_assoc], ?_, h2, h3, h4, h5⟩
  rw [h1, List.map_append, List.foldl_append]

theorem Episode.routed (hl : Innermost C c.act l) (h : Episode C D translate e l c xs tr c') : ∀ x ∈ xs, Routed C D translate c.act x tr := by
  cases h with
  | reacted _ _ _ => simp
  | unconsumed _ _ _ _ => simp
  | @recovered s obs1 c1 x ev h obs2 c' h1 h2 h3 h4 _ =>
    intro z hz
    rw [List.mem_singleton.1 hz]
    exact ⟨[], [], e, ev, l, s, obs1, obs2, c, c1, by simp, rfl, hl, h1, h2, c1, h1.act, .inl ⟨h, h3, .inl ⟨_, _, h4⟩, h4.outward⟩⟩

/-! The observations of a completed dispatch lead to the states that exist afterwards. -/

theorem alive_quiet {obs : List Obs} : ∀ (act : Sid → Bool), (∀ o ∈ obs, quietObs o = true) → obs.foldl aliveStep act = act := by
  induction obs with
  | nil => intros; rfl
  | cons o os ih =>
    intro act h
    have ho := h o (by simp)
    rw [List.foldl_cons, ih _ fun o ho => h o (by simp [ho])]
    cases o <;> first | rfl | (simp [quietObs] at ho)

theorem alive_enterObs : ∀ (l : List Sid) (act : Sid → Bool) (x : Sid), (enterObs l).foldl aliveStep act x = (act x || l.contains x) := by
  intro l
  induction l with
  | nil => intro act x; simp [enterObs]
  | cons z l ih =>
    intro act x
    show (enterObs l).foldl aliveStep (aliveStep act (.enter z)) x = _
    rw [ih]
    simp only [aliveStep, List.contains_cons]
    by_cases h : x = z
    · simp [h]
    · have : (x == z) = false := by simpa using h
      simp [h, this]

theorem Transition.alive {full : Bool} {s t : Sid} {d : Target} {a : Option Nat} {k : Option Sid} {xs ys l : List Sid} {obs : List Obs} (h : Transition C full s d a k t xs ys l c obs c') :
    c'.act = obs.foldl aliveStep c.act := by
  funext x
  rw [h.seen, List.foldl_append, List.foldl_append, List.foldl_append, alive_enterObs, alive_exitObs, alive_quiet _ (fun o ho => by cases a <;> simp [acts] at ho; subst ho; rfl),
    alive_exitObs, Bool.eq_iff_iff, h.after]
  simp only [Bool.or_eq_true, Bool.and_eq_true, Bool.not_eq_true', List.contains_eq_mem, decide_eq_false_iff_not, decide_eq_true_eq, h.exited.first.mem, h.exited.rest.mem]
  constructor
  · rintro (⟨h1, h2⟩ | h1)
    · exact .inl ⟨⟨h1, fun h => h2 h.1.2⟩, fun h => h2 h.1.2⟩
    · exact .inr h1
  · rintro (⟨⟨h1, h2⟩, h3⟩ | h1)
    · refine .inl ⟨h1, fun hb => ?_⟩
      by_cases hx : Before C a x
      · exact h2 ⟨⟨h1, hb⟩, hx⟩
      · exact h3 ⟨⟨h1, hb⟩, hx⟩
    · exact .inr h1

theorem Termination.alive {full : Bool} {s : Sid} {xs : List Sid} {obs : List Obs} (h : Termination C full s xs c obs c') : c'.act = obs.foldl aliveStep c.act := by
  funext x
  rw [h.seen, alive_exitObs, Bool.eq_iff_iff, h.after]
  simp only [Bool.and_eq_true, Bool.not_eq_true', List.contains_eq_mem, decide_eq_false_iff_not, h.exited.mem]

theorem Reacts.alive {full : Bool} {obs : List Obs} (h : Reacts C full c obs c') : c'.act = obs.foldl aliveStep c.act := by
  cases h with
  | quiet h _ => exact (alive_quiet _ h).symm
  | transition h _ _ h1 => rw [h1.alive, List.foldl_append, alive_quiet _ h]
  | termination h _ _ h1 => rw [h1.alive, List.foldl_append, alive_quiet _ h]

theorem Episode.alive (h : Episode C D translate e l c xs tr c') : c'.act = (tr.map (·.2)).foldl aliveStep c.act := by
  cases h with
  | reacted _ _ h => rw [map_tag]; exact h.alive
  | unconsumed _ _ h _ =>
    rw [map_tag, alive_quiet]
    intro o ho
    rcases List.mem_append.1 ho with ho | ho
    · exact h o ho
    · rw [List.mem_singleton.1 ho]; rfl
  | recovered h1 _ _ _ h2 _ => rw [h2.alive, h1.act, List.map_append, map_tag, map_tag, List.foldl_append]

theorem Episodes.alive {es : List Event} (h : Episodes C D translate es c xs tr c') : c'.act = (tr.map (·.2)).foldl aliveStep c.act := by
  induction h with
  | nil => rfl
  | cons _ h _ ih => rw [ih, h.alive, List.map_append, List.foldl_append]

theorem Episodes.routed {es : List Event} (h : Episodes C D translate es c xs tr c') : ∀ x ∈ xs, Routed C D translate c.act x tr := by
  induction h with
  | nil => simp
  | @cons e es l c xs tr c1 xs' tr' c' hl h1 _ ih =>
    intro x hx
    rcases List.mem_append.1 hx with hx | hx
    · have := Routed.append (t1 := []) (h1.routed hl x hx) tr'
      simpa using this
    · have h2 := ih x hx
      rw [h1.alive] at h2
      have := h2.append []
      simpa using this

/-- The first exception raised by a failing dispatch was not translated, or the exception event was offered to the right state. -/
theorem Fatal.routed (hl : Innermost C c.act l) (h : Fatal C D translate e l c y xs tr c') : ∃ x, xs.head? = some x ∧ (translate x = none ∨ Routed C D translate c.act x tr) := by
  cases h with
  | died _ h _ _ => exact ⟨_, rfl, .inl h⟩
  | @rejected s obs1 c1 obs2 obs3 x xs ev c' h1 h2 h3 _ _ _ _ =>
    exact ⟨x, rfl, .inr ⟨[], tag (some e) obs3, e, ev, l, s, obs1, obs2, c, c1, by simp, rfl, hl, h1, h2, h3.offers h1.act⟩⟩

/-- As `Routed`, for `initiate()` and `terminate()` (`B`: what an interrupted one does), where no state is visited and no
transition executed, so the event goes to the outermost unstable state in all configurations. -/
structure RoutedBody (C : Chart) (D : Sid → Nat → Event → Decision → Prop) (translate : Exc → Option Event) (B : Conf → List Obs → Prop) (c : Conf) (x : Exc) (tr : List (Option Event × Obs)) : Prop where
  ex : ∃ (post : List (Option Event × Obs)) (ev : Event) (obs1 obs2 : List Obs), tr = tag none obs1 ++ tag (some ev) obs2 ++ post ∧ B c obs1 ∧
    translate x = some ev ∧ Offers C D ev (OfferedTo C none c.act obs1) c.act obs1 obs2

theorem Recovered.routed {B : Conf → List Obs → Prop} (h : Recovered C D translate B c xs tr c') : ∃ x, xs = [x] ∧ RoutedBody C D translate B c x tr := by
  cases h with
  | @intro obs1 obs2 c1 c' x ev h h0 h1 h2 h3 h4 _ => exact ⟨x, rfl, [], ev, obs1, obs2, by simp, h0, h2, c1, h1, .inl ⟨h, h3, .inl ⟨_, _, h4⟩, h4.outward⟩⟩

theorem Recovered.alive {B : Conf → List Obs → Prop} (h : Recovered C D translate B c xs tr c') : c'.act = (tr.map (·.2)).foldl aliveStep c.act := by
  cases h with
  | intro _ h1 _ _ _ h2 _ => rw [h2.alive, h1, List.map_append, map_tag, map_tag, List.foldl_append]

theorem Aborted.routed {B : Conf → List Obs → Prop} (h : Aborted C D translate B c y xs tr c') : ∃ x, xs.head? = some x ∧ (translate x = none ∨ RoutedBody C D translate B c x tr) := by
  cases h with
  | died _ _ h _ _ => exact ⟨_, rfl, .inl h⟩
  | @rejected obs1 obs2 obs3 c1 c' x xs ev h0 h1 h2 h3 _ _ _ _ => exact ⟨x, rfl, .inr ⟨tag none obs3, ev, obs1, obs2, rfl, h0, h2, h3.offers h1⟩⟩

end SC.Spec

namespace SC
open Spec Chart
variable {W : Type} {P : Prog W} {m m' : Mach W}

section
variable (hwf : P.toChart.WF) (hok : Contract P)
include hwf hok

/-- **C18.** Every exception raised during a `process_event()` that returns was translated, and the exception event was offered to the right state. -/
theorem C18_process_event_returns {e : Event} {k : Nat} {b : Bool} (h : Reach P m) (hr : processEvent P e k m = .ok b m') :
    ∃ (tr : List (Option Event × Obs)) (xs : List Exc), m'.trace = m.trace ++ tr ∧ m'.xlog = m.xlog ++ xs ∧ ∀ x ∈ xs, Routed P.toChart P.decides P.translate m.act x tr := by
  obtain ⟨es, xs1, tr1, c1, xs2, tr2, h1, h2, h3, h4, _⟩ := process_event_returns hwf hok h hr
  refine ⟨_, _, h1, h2, ?_⟩
  have hl : Innermost P.toChart m.conf.act m.leaves := (h.stable hwf hok).1.innermost.1
  intro x hx
  rcases List.mem_append.1 hx with hx | hx
  · exact Routed.append (t1 := []) (h3.routed hl x hx) tr2
  · have h5 := h4.routed x hx
    rw [h3.alive] at h5
    have h6 := h5.append []
    rw [List.append_nil] at h6; exact h6

/-- **C18.** `process_event()` that throws: the exceptions raised before the dispatch of the last event are treated as above. During the dispatch of the last event one exception was raised from
outside a reaction (`Harmless`), or the first one was not translated or treated as above. -/
theorem C18_process_event {e : Event} {k : Nat} {y : Exc} (h : Reach P m) (hr : processEvent P e k m = .thrown y m') :
    ∃ (tr : List (Option Event × Obs)) (xs xs' : List Exc), m'.trace = m.trace ++ tr ∧ m'.xlog = m.xlog ++ (xs ++ xs') ∧
      (∀ x ∈ xs, Routed P.toChart P.decides P.translate m.act x tr) ∧
      ((∃ x, xs'.head? = some x ∧ (P.translate x = none ∨ Routed P.toChart P.decides P.translate m.act x tr)) ∧ (xs' = [y] ∨ ∃ x, xs' = [x, y]) ∨
       ∃ (e' : Event) (l : List Sid) (c c' : Conf) (t1 t2 : List (Option Event × Obs)), tr = t1 ++ t2 ∧ Harmless P.toChart P.decides e' l c y xs' t2 c') := by
  obtain ⟨es, e', m1, m0, xs, tr, xs', tr', h1, h2, hx, hv, h4, _, h6, hx', h7, _⟩ := process_event_throws hwf hok h hr
  refine ⟨tr ++ tr', xs, xs', by rw [h6, h2, List.append_assoc], by rw [hx', hx, List.append_assoc], ?_, ?_⟩
  · intro x hx
    exact Routed.append (t1 := []) (h1.routed x hx) tr'
  · rcases h7 with ⟨h7, _⟩ | ⟨h7, _⟩
    · left
      have hl : Innermost P.toChart m0.conf.act m0.leaves := by
        have := h4.same
        rw [show m0.conf.act = m0.act from rfl, this.core.act, this.leaves]
        exact (hv.stable hwf hok).1.innermost.1
      obtain ⟨x, h8, h9⟩ := h7.routed hl
      refine ⟨⟨x, h8, h9.imp id fun h9 => ?_⟩, ?_⟩
      · rw [h4.same.conf, h1.alive] at h9
        have h10 := h9.append []
        rw [List.append_nil] at h10; exact h10
      · have key : ∀ {c c' tr}, Fatal P.toChart P.decides P.translate e' m0.leaves c y xs' tr c' → xs' = [y] ∨ ∃ x, xs' = [x, y] := by
          intro c c' tr h
          cases h with
          | died _ _ _ _ => exact .inl rfl
          | rejected _ _ h _ _ _ _ =>
            cases h with
            | dead _ => exact .inl rfl
            | refused _ _ _ => exact .inl rfl
            | threw _ _ => exact .inr ⟨_, rfl⟩
        exact key h7
    · exact .inr ⟨e', _, _, _, tr, tr', rfl, h7⟩

/-- **C18.** `terminate()` that returns although an exception was raised. -/
theorem C18_terminate_returns (h : Reach P m) (hr : terminate P m = .ok () m') :
    m'.xlog = m.xlog ∨ ∃ x tr, m'.xlog = m.xlog ++ [x] ∧ m'.trace = m.trace ++ tr ∧ RoutedBody P.toChart P.decides P.translate (EndsUntil P.toChart) m.conf x tr := by
  rcases C13_terminate hwf hok h hr with ⟨_, _, _, _, _, _, _, h⟩ | ⟨xs, tr, h1, h2, h3⟩
  · exact .inl h
  · obtain ⟨x, rfl, h4⟩ := h3.routed
    exact .inr ⟨x, tr, h2, h1, h4⟩

/-- **C18.** `terminate()` that throws. -/
theorem C18_terminate {y : Exc} (h : Reach P m) (hr : terminate P m = .thrown y m') :
    ∃ xs tr x, m'.xlog = m.xlog ++ xs ∧ m'.trace = m.trace ++ tr ∧ xs.head? = some x ∧
      (P.translate x = none ∨ RoutedBody P.toChart P.decides P.translate (EndsUntil P.toChart) m.conf x tr) := by
  obtain ⟨⟨xs, tr, h1, h2, h3⟩, _⟩ := C15_terminate hwf hok h hr
  obtain ⟨x, h4, h5⟩ := h3.routed
  exact ⟨xs, tr, x, h2, h1, h4, h5⟩

/-- How `terminate()`, called by `initiate()`, ended: without exception, or it was interrupted by an exception whose event was offered to the right state and handled. -/
def Terminal (P : Prog W) (c : Conf) (xs : List Exc) (tr : List (Option Event × Obs)) : Prop :=
  (xs = [] ∧ ∃ ys, tr = tag none (ys.flatMap fun x => [.exit x, .destroy x]) ∧ ExitList P.toChart (fun x => c.act x = true) ys) ∨
    ∃ x, xs = [x] ∧ RoutedBody P.toChart P.decides P.translate (EndsUntil P.toChart) c x tr

/-- How the initial entry from `c`, which has no state, ended: the initial states were entered, or the entry was interrupted by an exception whose event was offered
to the right state and handled. -/
structure Initial (P : Prog W) (c : Conf) (xs : List Exc) (tr : List (Option Event × Obs)) (act : Sid → Bool) : Prop where
  empty : ∀ s, c.act s = false
  ex : (xs = [] ∧ ∃ l, Starts P.toChart c.mem l ∧ tr = tag none (enterObs l)) ∨
    ∃ x, xs = [x] ∧ RoutedBody P.toChart P.decides P.translate (StartsUntil P.toChart) c x tr
  alive : act = (tr.map (·.2)).foldl aliveStep fun _ => false

omit hwf hok in
theorem Spec.Ended.terminal {c c' : Conf} {xs : List Exc} {tr : List (Option Event × Obs)} (h : Ended P.toChart P.decides P.translate c xs tr c') : Terminal P c xs tr := by
  cases h with
  | exited h _ => exact .inl ⟨rfl, _, rfl, h⟩
  | recovered h _ =>
    obtain ⟨x, rfl, h8⟩ := h.routed
    exact .inr ⟨x, rfl, h8⟩

omit hwf hok in
theorem Spec.Begun.initial {c c' : Conf} {xs : List Exc} {tr : List (Option Event × Obs)} (h : Begun P.toChart P.decides P.translate c xs tr c') (hd : ∀ s, c.act s = false) :
    Initial P c xs tr c'.act := by
  cases h with
  | @entered l _ h1 h2 =>
    refine ⟨hd, .inl ⟨rfl, l, h1, rfl⟩, ?_⟩
    funext x
    rw [map_tag, alive_enterObs, Bool.eq_iff_iff, h2]
    simp
  | recovered h =>
    have ha : c'.act = (tr.map (·.2)).foldl aliveStep fun _ => false := by
      have : c.act = fun _ => false := funext hd
      rw [← this]
      exact h.alive
    obtain ⟨x, rfl, h8⟩ := h.routed
    exact ⟨hd, .inr ⟨x, rfl, h8⟩, ha⟩

/-- **C18.** `initiate()` that returns. The events posted meanwhile are dispatched after the initial entry. -/
theorem C18_initiate_returns {k : Nat} {b : Bool} (h : Reach P m) (hl : (Call.initiate k).legal P m) (hr : initiate P k m = .ok b m') :
    ∃ (tr0 tr1 tr2 : List (Option Event × Obs)) (xs0 xs1 xs2 : List Exc) (c : Conf) (act : Sid → Bool), m'.trace = m.trace ++ (tr0 ++ (tr1 ++ tr2)) ∧
      m'.xlog = m.xlog ++ (xs0 ++ (xs1 ++ xs2)) ∧ Terminal P m.conf xs0 tr0 ∧
      Initial P c xs1 tr1 act ∧ ∀ x ∈ xs2, Routed P.toChart P.decides P.translate act x tr2 := by
  obtain ⟨xs0, tr0, c0, xs1, tr1, c1, es, xs2, tr2, h1, h2, h3, h4, h5, _⟩ := initiate_returns hwf hok h hl hr
  exact ⟨tr0, tr1, tr2, xs0, xs1, xs2, c0, c1.act, h1, h2, h3.terminal, h4.initial h3.dead, h5.routed⟩

/-- **C18.** `initiate()` that throws: from the termination of the old configuration, from the initial entry, or from the dispatch of an event posted meanwhile. -/
theorem C18_initiate {k : Nat} {y : Exc} (h : Reach P m) (hl : (Call.initiate k).legal P m) (hr : initiate P k m = .thrown y m') :
    (∃ xs tr x, m'.xlog = m.xlog ++ xs ∧ m'.trace = m.trace ++ tr ∧ xs.head? = some x ∧
      (P.translate x = none ∨ RoutedBody P.toChart P.decides P.translate (EndsUntil P.toChart) m.conf x tr)) ∨
    (∃ xs0 tr0 xs tr x c, m'.xlog = m.xlog ++ (xs0 ++ xs) ∧ m'.trace = m.trace ++ (tr0 ++ tr) ∧ Terminal P m.conf xs0 tr0 ∧ xs.head? = some x ∧ (∀ s, c.act s = false) ∧
      (P.translate x = none ∨ RoutedBody P.toChart P.decides P.translate (StartsUntil P.toChart) c x tr)) ∨
    ∃ (tr0 tr1 tr2 : List (Option Event × Obs)) (xs0 xs1 xs2 xs' : List Exc) (c : Conf) (act : Sid → Bool), m'.trace = m.trace ++ (tr0 ++ (tr1 ++ tr2)) ∧
      m'.xlog = m.xlog ++ (xs0 ++ (xs1 ++ (xs2 ++ xs'))) ∧ Terminal P m.conf xs0 tr0 ∧
      Initial P c xs1 tr1 act ∧ (∀ x ∈ xs2, Routed P.toChart P.decides P.translate act x tr2) ∧
      ((∃ x, xs'.head? = some x ∧ (P.translate x = none ∨ Routed P.toChart P.decides P.translate act x tr2)) ∨
       ∃ (e' : Event) (l : List Sid) (c c' : Conf) (t1 t2 : List (Option Event × Obs)), tr2 = t1 ++ t2 ∧ Harmless P.toChart P.decides e' l c y xs' t2 c') := by
  rcases C15_initiate hwf hok h hl hr with ⟨⟨xs, tr, h1, h2, h3⟩, _⟩ | ⟨xs0, tr0, c0, h0, ⟨⟨xs, tr, h1, h2, h3⟩, _⟩ |
    ⟨xs1, tr1, c1, es, e', m0, xs, tr, xs', tr', h1, h2, h3, h4, h5, hl⟩⟩
  · obtain ⟨x, h5, h6⟩ := h3.routed
    exact .inl ⟨xs, tr, x, h2, h1, h5, h6⟩
  · obtain ⟨x, h5, h6⟩ := h3.routed
    exact .inr (.inl ⟨xs0, tr0, xs, tr, x, c0, h2, h1, h0.terminal, h5, h0.dead, h6⟩)
  · refine .inr (.inr ⟨tr0, tr1, tr ++ tr', xs0, xs1, xs, xs', c0, c1.act, h3, h4, h0.terminal, h1.initial h0.dead, ?_, ?_⟩)
    · intro x hx
      exact Routed.append (t1 := []) (h2.routed x hx) tr'
    · rcases h5 with ⟨h5, _⟩ | ⟨h5, _⟩
      · left
        obtain ⟨x, h8, h9⟩ := h5.routed hl
        refine ⟨x, h8, h9.imp id fun h9 => ?_⟩
        rw [h2.alive] at h9
        have h10 := h9.append []
        rw [List.append_nil] at h10; exact h10
      · exact .inr ⟨e', _, _, _, tr, tr', rfl, h5⟩

end
end SC

/-! ## C39 -/

namespace SC.Spec
open SC Chart
variable {C : Chart} {D : Sid → Nat → Event → Decision → Prop} {translate : Exc → Option Event} {e : Event} {l : List Sid} {c c' : Conf} {y : Exc}
  {xs : List Exc} {tr : List (Option Event × Obs)}

/-- Within the observations `tr`, which start when the states `act` exist, the dispatch of an event `e` was interrupted: the innermost states before `s` forwarded it (`o0`),
the search from `s` went outward to a state `k` (`o1`) whose reaction made the calls of an uninterrupted reaction up to the failing one (`o2`). -/
structure Interrupted (C : Chart) (D : Sid → Nat → Event → Decision → Prop) (act : Sid → Bool) (tr : List (Option Event × Obs)) : Prop where
  ex : ∃ (pre post : List (Option Event × Obs)) (e : Event) (l1 : List Sid) (s : Sid) (l2 : List Sid) (o0 o1 o2 : List Obs) (c0 cs ck : Conf) (k : Sid),
    tr = pre ++ tag (some e) (o0 ++ (o1 ++ o2)) ++ post ∧ c0.act = (pre.map (·.2)).foldl aliveStep act ∧ Innermost C c0.act (l1 ++ s :: l2) ∧
    Sweep C Forget (.meant C true) D e l1 c0 o0 .forward cs ∧ Passes C Forget (.meant C true) D e s cs o1 k ck ∧
    LocalUntil Forget (.meant C true) D k e (C.reactions k) ck o2

theorem Broken.interrupted {s : Sid} {obs : List Obs} {c1 : Conf} (hl : Innermost C c.act l) (h : Broken C D e l c s obs c1) {act : Sid → Bool} {pre : List (Option Event × Obs)}
    (ha : c.act = (pre.map (·.2)).foldl aliveStep act) (post : List (Option Event × Obs)) : Interrupted C D act (pre ++ tag (some e) obs ++ post) := by
  obtain ⟨l1, l2, o0, cs, o1, rfl, rfl, h1, _, _, o2, k, ck, o3, rfl, h2, h3⟩ := h.ex
  exact ⟨pre, post, e, l1, s, l2, o0, o2, o3, c, cs, ck, k, rfl, ha, hl, h1, h2, h3⟩

theorem Routed.interrupted {act : Sid → Bool} {x : Exc} (h : Routed C D translate act x tr) : Interrupted C D act tr := by
  obtain ⟨pre, post, e, ev, l, s, obs1, obs2, c0, c1, rfl, h1, h2, h3, _, _⟩ := h
  have := h3.interrupted h2 h1 (tag (some ev) obs2 ++ post)
  simpa only [List.append_assoc] using this

theorem Fatal.interrupted (hl : Innermost C c.act l) (h : Fatal C D translate e l c y xs tr c') {act : Sid → Bool} {pre : List (Option Event × Obs)}
    (ha : c.act = (pre.map (·.2)).foldl aliveStep act) : Interrupted C D act (pre ++ tr) := by
  cases h with
  | @died s obs1 c1 obs2 c' h _ _ _ =>
    have := h.interrupted hl ha (tag (some e) obs2)
    simpa only [tag, List.map_append, List.append_assoc] using this
  | @rejected s obs1 c1 obs2 obs3 x xs ev c' h _ _ _ _ _ _ =>
    have := h.interrupted hl ha (tag (some ev) obs2 ++ tag (some e) obs3)
    simpa only [List.append_assoc] using this

/-- If a second exception was raised, it interrupted the dispatch of the exception event in the same way (`exit()` is not called then). -/
theorem Fatal.second (h : Fatal C D translate e l c y xs tr c') : xs = [y] ∨ ∃ x ev, xs = [x, y] ∧ translate x = some ev ∧
    ∃ (t1 t2 : List (Option Event × Obs)) (obs : List Obs) (k : Sid) (c1 : Conf), tr = t1 ++ tag (some ev) obs ++ t2 ∧
      SearchUntil C Forget (.meant C false) (.meant C false) D ev k c1 obs := by
  cases h with
  | died _ _ _ _ => exact .inl rfl
  | rejected _ hx h _ _ _ _ =>
    cases h with
    | dead _ => exact .inl rfl
    | refused _ _ _ => exact .inl rfl
    | threw _ h => exact .inr ⟨_, _, rfl, hx, _, _, _, _, _, rfl, h⟩

end SC.Spec

namespace SC
open Spec Chart
variable {W : Type} {P : Prog W} {m m' : Mach W}

section
variable (hwf : P.toChart.WF) (hok : Contract P)
include hwf hok

/-- **C39.** Every exception raised during a `process_event()` that returns interrupted a reaction. -/
theorem C39_process_event_returns {e : Event} {k : Nat} {b : Bool} (h : Reach P m) (hr : processEvent P e k m = .ok b m') :
    ∃ (tr : List (Option Event × Obs)) (xs : List Exc), m'.trace = m.trace ++ tr ∧ m'.xlog = m.xlog ++ xs ∧ (xs ≠ [] → Interrupted P.toChart P.decides m.act tr) := by
  obtain ⟨tr, xs, h1, h2, h3⟩ := C18_process_event_returns hwf hok h hr
  refine ⟨tr, xs, h1, h2, fun hne => ?_⟩
  obtain ⟨x, hx⟩ := List.exists_mem_of_ne_nil xs hne
  exact (h3 x hx).interrupted

/-- **C39.** `process_event()` that throws: the dispatch of one event `e'` failed. Unless the exception came from outside a reaction, the first exception raised then interrupted
the reaction to `e'`, and the second one, if any, the reaction to the exception event. -/
theorem C39_process_event {e : Event} {k : Nat} {y : Exc} (h : Reach P m) (hr : processEvent P e k m = .thrown y m') :
    ∃ (tr tr' : List (Option Event × Obs)) (xs xs' : List Exc), m'.trace = m.trace ++ (tr ++ tr') ∧ m'.xlog = m.xlog ++ (xs ++ xs') ∧
      (∀ x ∈ xs, Interrupted P.toChart P.decides m.act tr) ∧
      ((Interrupted P.toChart P.decides m.act (tr ++ tr') ∧ (xs' = [y] ∨ ∃ x ev, xs' = [x, y] ∧ P.translate x = some ev ∧
        ∃ (t1 t2 : List (Option Event × Obs)) (obs : List Obs) (k : Sid) (c1 : Conf), tr' = t1 ++ tag (some ev) obs ++ t2 ∧
          SearchUntil P.toChart Forget (.meant P.toChart false) (.meant P.toChart false) P.decides ev k c1 obs)) ∨
       ∃ (e' : Event) (l : List Sid) (c c' : Conf), Harmless P.toChart P.decides e' l c y xs' tr' c') := by
  obtain ⟨es, e', m1, m0, xs, tr, xs', tr', h1, h2, hx, hv, h4, _, h6, hx', h7, _⟩ := process_event_throws hwf hok h hr
  refine ⟨tr, tr', xs, xs', by rw [h6, h2, List.append_assoc], by rw [hx', hx, List.append_assoc], fun x hx => (h1.routed x hx).interrupted, ?_⟩
  rcases h7 with ⟨h7, _⟩ | ⟨h7, _⟩
  · left
    have hl : Innermost P.toChart m0.conf.act m0.leaves := by
      have := h4.same
      rw [show m0.conf.act = m0.act from rfl, this.core.act, this.leaves]
      exact (hv.stable hwf hok).1.innermost.1
    exact ⟨h7.interrupted hl (by rw [h4.same.conf]; exact h1.alive), h7.second⟩
  · exact .inr ⟨e', _, _, _, h7⟩

/-- **C39.** `terminate()` during which an exception was raised made the calls of an uninterrupted `terminate()` up to a failing exit. -/
theorem C39_terminate {r : Res W Unit} (h : Reach P m) (hr : terminate P m = r) (hm : r = .ok () m' ∨ ∃ y, r = .thrown y m') (hx : m'.xlog ≠ m.xlog) :
    ∃ (obs : List Obs) (post : List (Option Event × Obs)), m'.trace = m.trace ++ (tag none obs ++ post) ∧ EndsUntil P.toChart m.conf obs := by
  rcases hm with rfl | ⟨y, rfl⟩
  · rcases C13_terminate hwf hok h hr with ⟨_, _, _, _, _, _, _, h⟩ | ⟨xs, tr, h1, h2, h3⟩
    · exact absurd h hx
    · cases h3 with
      | intro h0 _ _ _ _ _ _ => exact ⟨_, _, h1, h0⟩
  · obtain ⟨⟨xs, tr, h1, h2, h3⟩, _⟩ := C15_terminate hwf hok h hr
    have key : ∀ {c'}, Aborted P.toChart P.decides P.translate (EndsUntil P.toChart) m.conf y xs tr c' → ∃ (obs : List Obs) (post : List (Option Event × Obs)), tr = tag none obs ++ post ∧
        EndsUntil P.toChart m.conf obs := by
      intro c' h
      cases h with
      | @died obs1 obs2 _ _ h0 _ _ _ _ => exact ⟨obs1, tag none obs2, by simp [tag], h0⟩
      | rejected h0 _ _ _ _ _ _ _ => exact ⟨_, _, by rw [List.append_assoc], h0⟩
    obtain ⟨obs, post, rfl, h4⟩ := key h3
    exact ⟨obs, post, h1, h4⟩

omit hwf hok in
theorem Spec.Aborted.begin {B : Conf → List Obs → Prop} {c c' : Conf} {y : Exc} {xs : List Exc} {tr : List (Option Event × Obs)}
    (h : Aborted P.toChart P.decides P.translate B c y xs tr c') : ∃ (obs : List Obs) (post : List (Option Event × Obs)), tr = tag none obs ++ post ∧ B c obs ∧ xs ≠ [] := by
  cases h with
  | @died obs1 obs2 _ _ h0 _ _ _ _ => exact ⟨obs1, tag none obs2, by simp [tag], h0, by simp⟩
  | rejected h0 _ _ _ _ _ _ _ => exact ⟨_, _, by rw [List.append_assoc], h0, by simp⟩

/-- The termination of `c` and its observations `tr`: complete, or interrupted by an exception (`xs`). -/
def Quits (P : Prog W) (c : Conf) (xs : List Exc) (tr : List (Option Event × Obs)) : Prop :=
  (xs = [] ∧ ∃ ys, tr = tag none (ys.flatMap fun x => [.exit x, .destroy x]) ∧ ExitList P.toChart (fun x => c.act x = true) ys) ∨
    (xs ≠ [] ∧ ∃ (obs : List Obs) (post : List (Option Event × Obs)), tr = tag none obs ++ post ∧ EndsUntil P.toChart c obs)

/-- **C39.** `initiate()` terminated the old configuration: completely, or made the calls of that up to a failing one (`Quits`). If this did not throw, it made the calls of the
initial entry, all of them or, if an exception was raised, up to a failing one. -/
theorem C39_initiate {k : Nat} (h : Reach P m) (hl : (Call.initiate k).legal P m) (hm : (∃ b, initiate P k m = .ok b m') ∨ ∃ y, initiate P k m = .thrown y m') :
    (∃ xs tr, m'.trace = m.trace ++ tr ∧ m'.xlog = m.xlog ++ xs ∧ xs ≠ [] ∧ Quits P m.conf xs tr ∧ (∃ y, initiate P k m = .thrown y m') ∧ ∀ x, m'.act x = false) ∨
    ∃ (xs0 : List Exc) (tr0 : List (Option Event × Obs)) (c : Conf) (xs : List Exc) (obs : List Obs) (post : List (Option Event × Obs)),
      m'.trace = m.trace ++ (tr0 ++ (tag none obs ++ post)) ∧ m'.xlog = m.xlog ++ (xs0 ++ xs) ∧ Quits P m.conf xs0 tr0 ∧ (∀ x, c.act x = false) ∧
      ((∃ l, Starts P.toChart c.mem l ∧ obs = enterObs l) ∨ (xs ≠ [] ∧ StartsUntil P.toChart c obs)) ∧
      (xs0 = [] → NoMemory c.mem) := by
  have kE : ∀ {c c' xs tr}, Ended P.toChart P.decides P.translate c xs tr c' → Quits P c xs tr ∧ (xs = [] → NoMemory c'.mem) := by
    intro c c' xs tr h
    cases h with
    | exited h hg => exact ⟨.inl ⟨rfl, _, rfl, h⟩, fun _ => ⟨hg.sh, hg.dh⟩⟩
    | recovered h _ =>
      cases h with
      | intro h0 _ _ _ _ _ _ => exact ⟨.inr ⟨by simp, _, _, rfl, h0⟩, fun h => by cases h⟩
  have kB : ∀ {c c' xs tr}, Begun P.toChart P.decides P.translate c xs tr c' → ∃ (obs : List Obs) (post : List (Option Event × Obs)), tr = tag none obs ++ post ∧
      ((∃ l, Starts P.toChart c.mem l ∧ obs = enterObs l) ∨ (xs ≠ [] ∧ StartsUntil P.toChart c obs)) := by
    intro c c' xs tr h
    cases h with
    | entered h _ => exact ⟨_, [], by rw [List.append_nil], .inl ⟨_, h, rfl⟩⟩
    | recovered h =>
      cases h with
      | intro h0 _ _ _ _ _ _ => exact ⟨_, _, rfl, .inr ⟨by simp, h0⟩⟩
  rcases hm with ⟨b, hr⟩ | ⟨y, hr⟩
  · obtain ⟨xs0, tr0, c0, xs1, tr1, c1, es, xs2, tr2, h1, h2, h3, h4, h5, _⟩ := initiate_returns hwf hok h hl hr
    obtain ⟨obs, post, rfl, h6⟩ := kB h4
    exact .inr ⟨xs0, tr0, c0, xs1 ++ xs2, obs, post ++ tr2, by rw [h1]; simp only [List.append_assoc], h2, (kE h3).1, h3.dead,
      h6.imp_right fun h => ⟨by simp [h.1], h.2⟩, (kE h3).2⟩
  · rcases C15_initiate hwf hok h hl hr with ⟨⟨xs, tr, h1, h2, h3⟩, ht, _⟩ | ⟨xs0, tr0, c0, h0, ⟨⟨xs, tr, h1, h2, h3⟩, _⟩ |
      ⟨xs1, tr1, c1, es, e', m0, xs, tr, xs', tr', h1, h2, h3, h4, h5, _⟩⟩
    · obtain ⟨obs, post, rfl, h4, h5⟩ := h3.begin
      refine .inl ⟨xs, _, h1, h2, h5, .inr ⟨h5, obs, post, rfl, h4⟩, ⟨y, hr⟩, ?_⟩
      exact (((Reach.throws h hl (c := .initiate k) hr).stable hwf hok).1.terminated_iff hwf).1 ht
    · obtain ⟨obs, post, rfl, h4, h5⟩ := h3.begin
      exact .inr ⟨xs0, tr0, c0, xs, obs, post, h1, h2, (kE h0).1, h0.dead, .inr ⟨h5, h4⟩, (kE h0).2⟩
    · obtain ⟨obs, post, rfl, h6⟩ := kB h1
      exact .inr ⟨xs0, tr0, c0, xs1 ++ (xs ++ xs'), obs, post ++ (tr ++ tr'), by rw [h3]; simp only [List.append_assoc], h4, (kE h0).1, h0.dead,
        h6.imp_right fun h => ⟨by simp [h.1], h.2⟩, (kE h0).2⟩

end

end SC

namespace SC.Ex
open Spec Chart

/-- The run `r` from `m` returned (`ok`) or threw, with these observations and exceptions. -/
def shows {α : Type} (ok : Bool) (tr : List (Option Event × Obs)) (xs : List Exc) (m : Mach Nat) : Res Nat α → Bool
  | .ok _ m' => ok && decide (m'.trace = m.trace ++ tr) && decide (m'.xlog = m.xlog ++ xs)
  | .thrown _ m' => !ok && decide (m'.trace = m.trace ++ tr) && decide (m'.xlog = m.xlog ++ xs)
  | .fault _ => false

theorem of_shows {α : Type} {ok : Bool} {tr : List (Option Event × Obs)} {xs : List Exc} {m : Mach Nat} {r : Res Nat α} (h : shows ok tr xs m r = true) :
    ∃ m', m'.trace = m.trace ++ tr ∧ m'.xlog = m.xlog ++ xs ∧ ((ok = true ∧ ∃ a, r = .ok a m') ∨ (ok = false ∧ ∃ y, r = .thrown y m')) := by
  cases r with
  | ok a m' =>
    simp only [shows, Bool.and_eq_true, decide_eq_true_eq] at h
    exact ⟨m', h.1.2, h.2, .inl ⟨h.1.1, a, rfl⟩⟩
  | thrown y m' =>
    simp only [shows, Bool.and_eq_true, decide_eq_true_eq, Bool.not_eq_true'] at h
    exact ⟨m', h.1.2, h.2, .inr ⟨h.1.1, y, rfl⟩⟩
  | fault _ => cases h

/-- The constructor of D (3) throws 100 in the transition from C (2): B (1) is unstable. The exception event is offered to B and handled by A (0), whose transition
to I (8) destroys the states without calling `exit()`. -/
example : ∃ m m' : Mach Nat, Reach prog m ∧ (∃ b, processEvent prog ⟨1, 0⟩ 0 m = .ok b m') ∧ m'.xlog = m.xlog ++ [100] ∧
    m'.trace = m.trace ++ (tag (some ⟨1, 0⟩) [.exit 2, .destroy 2, .act 7, .enterFail 3] ++
      tag (some ⟨9, 100⟩) [.destroy 6, .destroy 5, .destroy 4, .destroy 1, .destroy 0, .act 1, .enter 8]) := by
  obtain ⟨m, h1, h2⟩ := scenario_ex (P := prog) [(0, .initiate 0)] 1 (fun m => shows true (tag (some ⟨1, 0⟩) [.exit 2, .destroy 2, .act 7, .enterFail 3] ++
      tag (some ⟨9, 100⟩) [.destroy 6, .destroy 5, .destroy 4, .destroy 1, .destroy 0, .act 1, .enter 8]) [100] m (processEvent prog ⟨1, 0⟩ 0 m)) (by decide +kernel)
  obtain ⟨m', h3, h4, ⟨_, h5⟩ | ⟨h5, _⟩⟩ := of_shows h2
  · exact ⟨m, m', h1, h5, h4, h3⟩
  · cases h5

/-- The action of an in-state reaction of I (8) throws 105: no state is unstable, the exception event is offered to I, which forwards it. -/
example : ∃ m m' : Mach Nat, Reach prog m ∧ (∃ y, processEvent prog ⟨12, 0⟩ 0 m = .thrown y m') ∧ m'.xlog = m.xlog ++ [105] ∧
    m'.trace = m.trace ++ tag (some ⟨12, 0⟩) [.act 3, .destroy 8] := by
  obtain ⟨m, h1, h2⟩ := scenario_ex (P := prog) [(0, .initiate 0), (0, .process ⟨5, 0⟩ 5)] 3 (fun m => shows false (tag (some ⟨12, 0⟩) [.act 3, .destroy 8]) [105] m
    (processEvent prog ⟨12, 0⟩ 0 m)) (by decide +kernel)
  obtain ⟨m', h3, h4, ⟨h5, _⟩ | ⟨_, h5⟩⟩ := of_shows h2
  · cases h5
  · exact ⟨m, m', h1, h5, h4, h3⟩

/-- `exit()` of C (2) throws 101 during `terminate()`: B (1) is destroyed with it, A (0) is unstable and handles the exception event. -/
example : ∃ m m' : Mach Nat, Reach prog m ∧ (∃ a, terminate prog m = .ok a m') ∧ m'.xlog = m.xlog ++ [101] ∧
    m'.trace = m.trace ++ (tag none [.exit 6, .destroy 6, .exit 5, .destroy 5, .exit 4, .destroy 4, .exitFail 2, .destroy 2, .destroy 1] ++
      tag (some ⟨9, 101⟩) [.destroy 0, .act 1, .enter 8]) := by
  obtain ⟨m, h1, h2⟩ := scenario_ex (P := prog) [(0, .initiate 0)] 2 (fun m => shows true
    (tag none [.exit 6, .destroy 6, .exit 5, .destroy 5, .exit 4, .destroy 4, .exitFail 2, .destroy 2, .destroy 1] ++
      tag (some ⟨9, 101⟩) [.destroy 0, .act 1, .enter 8]) [101] m (terminate prog m)) (by decide +kernel)
  obtain ⟨m', h3, h4, ⟨_, h5⟩ | ⟨h5, _⟩⟩ := of_shows h2
  · exact ⟨m, m', h1, h5, h4, h3⟩
  · cases h5

/-- The constructor of E (4) throws 7 during `initiate()`: not translated, all states are destroyed. -/
example : ∃ m m' : Mach Nat, Reach prog m ∧ m.terminated = true ∧ (∃ y, initiate prog 0 m = .thrown y m') ∧ m'.xlog = m.xlog ++ [7] ∧
    m'.trace = m.trace ++ tag none [.enter 0, .enter 1, .enter 2, .enterFail 4, .destroy 2, .destroy 1, .destroy 0] := by
  obtain ⟨m, h1, h2⟩ := scenario_ex (P := prog) [] 7 (fun m => m.terminated && shows false (tag none [.enter 0, .enter 1, .enter 2, .enterFail 4, .destroy 2, .destroy 1, .destroy 0]) [7] m
    (initiate prog 0 m)) (by decide +kernel)
  rw [Bool.and_eq_true] at h2
  obtain ⟨m', h3, h4, ⟨h5, _⟩ | ⟨_, h5⟩⟩ := of_shows h2.2
  · cases h5
  · exact ⟨m, m', h1, h2.1, h5, h4, h3⟩

/-! With relaxed transition context the exception event can miss the outermost unstable state. -/

/-- The example program with relaxed transition context. The action 6 of the transition of C (2) to I (8) is a member of B (1). Both A (0) and B react to exception events: A with a
transition to I, B with one to itself. In environment 2 `exit()` of G (6) throws. -/
def relaxedProg : Prog Nat := { prog with
  relaxed := true
  actCtx := fun a => if a = 6 then some 1 else none
  reactions := fun s => match s with
    | 1 => [⟨some 9, .transition ⟨.plain, 1⟩ none⟩]
    | 2 => [⟨some 13, .transition ⟨.plain, 8⟩ (some 6)⟩]
    | s => chart.reactions s
  exit := fun s _ w => { world := w, throws := if w = 2 ∧ s = 6 then some 101 else none } }

theorem relaxed_wf : relaxedProg.toChart.WF := Chart.wf_of_check _ (by decide)

theorem relaxed_contract : Contract relaxedProg := by
  constructor
  · intro s v w _; rfl
  · intro s r e v w d a h
    have h' : (match e.val with
      | 0 => Decision.discard
      | 1 => .forward
      | 2 => .defer
      | 3 => if s = 2 then .transit ⟨.plain, 3⟩ none else .discard
      | _ => .terminate) = .transit d a := h
    split at h'
    · cases h'
    · cases h'
    · cases h'
    · split at h'
      · next hs =>
        subst hs
        cases h'
        decide
      · cases h'
    · cases h'

/-- Everything goes well: the states inside B are exited, then the action runs, then the other states are exited. -/
example : ∃ m m' : Mach Nat, Reach relaxedProg m ∧ (∃ b, processEvent relaxedProg ⟨13, 0⟩ 0 m = .ok b m') ∧ m'.xlog = m.xlog ++ [] ∧
    m'.trace = m.trace ++ tag (some ⟨13, 0⟩) [.exit 2, .destroy 2, .act 6, .exit 6, .destroy 6, .exit 5, .destroy 5, .exit 4, .destroy 4, .exit 1, .destroy 1, .exit 0, .destroy 0, .enter 8] := by
  obtain ⟨m, h1, h2⟩ := scenario_ex (P := relaxedProg) [(0, .initiate 0)] 0 (fun m => shows true
    (tag (some ⟨13, 0⟩) [.exit 2, .destroy 2, .act 6, .exit 6, .destroy 6, .exit 5, .destroy 5, .exit 4, .destroy 4, .exit 1, .destroy 1, .exit 0, .destroy 0, .enter 8]) [] m
    (processEvent relaxedProg ⟨13, 0⟩ 0 m)) (by decide +kernel)
  obtain ⟨m', h3, h4, ⟨_, h5⟩ | ⟨h5, _⟩⟩ := of_shows h2
  · exact ⟨m, m', h1, h5, h4, h3⟩
  · cases h5

/-- `exit()` of G (6) throws after the action: G, F and E are destroyed, so A (0) is unstable, and so is B (1), which C left before. A is the outermost unstable state, but the exception
event is offered to B: B is left and entered again, and then the machine counts as stable although the second region of A is empty. -/
theorem C45_not_outermost : ∃ m m' : Mach Nat, Reach relaxedProg m ∧ (∃ b, processEvent relaxedProg ⟨13, 0⟩ 0 m = .ok b m') ∧ m'.xlog = m.xlog ++ [101] ∧
    m'.trace = m.trace ++ (tag (some ⟨13, 0⟩) [.exit 2, .destroy 2, .act 6, .exitFail 6, .destroy 6, .destroy 5, .destroy 4] ++
      tag (some ⟨9, 101⟩) [.destroy 1, .enter 1, .enter 2]) ∧
    OutermostUnstable relaxedProg.toChart m.act [.exit 2, .destroy 2, .act 6, .exitFail 6, .destroy 6, .destroy 5, .destroy 4]
      ([Obs.exit 2, .destroy 2, .act 6, .exitFail 6, .destroy 6, .destroy 5, .destroy 4].foldl aliveStep m.act) 0 ∧
    relaxedProg.reactions 0 = [⟨some 5, .transition ⟨.plain, 8⟩ none⟩, ⟨some 9, .transition ⟨.plain, 8⟩ (some 1)⟩] := by
  obtain ⟨m, h1, h2⟩ := scenario_ex (P := relaxedProg) [(0, .initiate 0)] 2 (fun m => shows true
    (tag (some ⟨13, 0⟩) [.exit 2, .destroy 2, .act 6, .exitFail 6, .destroy 6, .destroy 5, .destroy 4] ++ tag (some ⟨9, 101⟩) [.destroy 1, .enter 1, .enter 2]) [101] m
    (processEvent relaxedProg ⟨13, 0⟩ 0 m) && decide ((List.range 9).filter m.act = [0, 1, 2, 4, 5, 6])) (by decide +kernel)
  rw [Bool.and_eq_true, decide_eq_true_eq] at h2
  obtain ⟨m', h3, h4, ⟨_, h5⟩ | ⟨h5, _⟩⟩ := of_shows h2.1
  · have hact : ∀ x, m.act x = true ↔ x ∈ [0, 1, 2, 4, 5, 6] := by
      intro x
      rw [← h2.2, List.mem_filter, List.mem_range]
      exact ⟨fun h => ⟨(h1.stable relaxed_wf relaxed_contract).1.inv.live_bound h, h⟩, fun h => h.2⟩
    refine ⟨m, m', h1, h5, h4, h3, ⟨⟨?_, 1, by decide, ?_, .inr ⟨4, rfl, rfl, (hact 4).2 (by simp)⟩⟩, ?_⟩, rfl⟩
    · simp [aliveStep, (hact 0).2]
    · intro y hy hy1
      simp only [List.foldl_cons, List.foldl_nil, aliveStep]
      have hpos : relaxedProg.pos y = 1 → y = 4 := by
        intro h
        have : (match y with | 4 => 1 | _ => 0) = 1 := h
        split at this
        · rfl
        · cases this
      rw [hpos hy1]; simp
    · rintro x ⟨hx, _⟩
      have hx' : m.act x = true ∧ x ≠ 2 ∧ x ≠ 6 ∧ x ≠ 5 ∧ x ≠ 4 := by
        simp only [List.foldl_cons, List.foldl_nil, aliveStep] at hx
        grind
      have := (hact x).1 hx'.1
      have h01 : x = 0 ∨ x = 1 := by grind
      rcases h01 with rfl | rfl
      · exact .refl
      · exact .step (show relaxedProg.parent 1 = some 0 from rfl) .refl
  · cases h5

end SC.Ex
