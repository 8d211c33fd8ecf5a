import Verif.Props.Recall
import Verif.Props.Cut
/-!
# What the event-processing calls do, episode by episode

Common ground of the property theorems about events: the observations of a call are cut into
one episode per event.
-/

namespace SC.Spec
open SC Chart
variable {C : Chart}

/-- Observations made while `e` is the triggering event. -/
def tag (e : Option Event) (obs : List Obs) : List (Option Event × Obs) := obs.map fun o => (e, o)

/-- The search for a reaction to `e` in the innermost states `l` failed with an exception: the states before `s` forwarded `e`
(observations `o0`), the search from `s` was interrupted (`o1`), which left the configuration `c1`. At most one exit was not recorded completely. -/
structure Broken (C : Chart) (D : Sid → Nat → Event → Decision → Prop) (e : Event) (l : List Sid) (c : Conf)
    (s : Sid) (obs : List Obs) (c1 : Conf) : Prop where
  ex : ∃ l1 l2 o0 c0 o1, l = l1 ++ s :: l2 ∧ obs = o0 ++ o1 ∧ Sweep C Forget (.meant C true) D e l1 c o0 .forward c0 ∧
    c0.act = c.act ∧ (∀ o ∈ o0, quietObs o = true) ∧ SearchUntil C Forget (.meant C true) (.meant C true) D e s c0 o1
  act : c1.act = obs.foldl aliveStep c.act
  mem : Exact C c.mem → Exact C c1.mem ∧ LogsBut 1 c.mem.log obs c1.mem.log
  /-- `unconsumed_event` was not called -/
  once : Obs.unconsumed ∉ obs
  /-- no event was deferred -/
  keeps : ∀ x, Obs.defer x ∉ obs
  /-- no state exists without its outer state, and there are never two states in a region -/
  forest : Forest C c1.act

/-- The reaction that made the observations `obs2` mends the machine: if it was unstable (after `obs1`), the reaction destroys some state, so it
executes a transition or a termination. -/
def Mends (C : Chart) (act0 : Sid → Bool) (obs1 : List Obs) (act1 : Sid → Bool) (obs2 : List Obs) : Prop :=
  (∃ x, Unstable C act0 obs1 act1 x) → ∃ y, Obs.destroy y ∈ obs2

/-- The dispatch of event `e` in configuration `c` with the innermost states `l`, ending normally.
`xs` (index): the exceptions raised on the way. -/
inductive Episode (C : Chart) (D : Sid → Nat → Event → Decision → Prop) (translate : Exc → Option Event) (e : Event) (l : List Sid) (c : Conf) :
    List Exc → List (Option Event × Obs) → Conf → Prop
  /-- consumed or deferred -/
  | reacted {obs r c'} : Sweep C Forget (.meant C true) D e l c obs r c' → r ≠ .forward → Reacts C true c obs c' →
      Episode C D translate e l c [] (tag (some e) obs) c'
  /-- forwarded by all states -/
  | unconsumed {obs c1 h} : Sweep C Forget (.meant C true) D e l c obs .forward c1 → c1.act = c.act → (∀ o ∈ obs, quietObs o = true) →
      MemRun C Forget c.mem (obs ++ [.unconsumed]) h → Episode C D translate e l c [] (tag (some e) (obs ++ [.unconsumed])) ⟨c.act, h⟩
  /-- an exception `x` was thrown; the exception event `ev` was offered to `h` and consumed. No `exit()` is called from then on. -/
  | recovered {s obs1 c1 x ev h obs2 c'} : Broken C D e l c s obs1 c1 → translate x = some ev → SentTo C (some s) c.act obs1 c1.act h →
      Search C Forget (.meant C false) D ev h c1 obs2 .discard c' → Reacts C false c1 obs2 c' → Mends C c.act obs1 c1.act obs2 →
      Episode C D translate e l c [x] (tag (some e) obs1 ++ tag (some ev) obs2) c'

/-- The dispatch of several events, one after the other. -/
inductive Episodes (C : Chart) (D : Sid → Nat → Event → Decision → Prop) (translate : Exc → Option Event) :
    List Event → Conf → List Exc → List (Option Event × Obs) → Conf → Prop
  | nil {c} : Episodes C D translate [] c [] [] c
  | cons {e es l c xs tr c1 xs' tr' c'} : Innermost C c.act l → Episode C D translate e l c xs tr c1 → Episodes C D translate es c1 xs' tr' c' →
      Episodes C D translate (e :: es) c (xs ++ xs') (tr ++ tr') c'

/-- All states are destroyed without calling `exit()`, in exit order. -/
def DestroysAll (C : Chart) (act : Sid → Bool) (obs : List Obs) : Prop :=
  ∃ xs, obs = xs.map .destroy ∧ ExitList C (fun x => act x = true) xs

/-- Nothing exists and nothing is remembered. -/
structure Gone (c : Conf) : Prop where
  act : ∀ s, c.act s = false
  sh : ∀ p i, c.mem.sh p i = none
  dh : ∀ p i, c.mem.dh p i = none

/-- Why the exception event `ev` for exception `x` was not handled in configuration `c`, which exception results
and which exceptions were raised meanwhile. `O`: the state to which the event is offered first. -/
inductive Refusal (C : Chart) (D : Sid → Nat → Event → Decision → Prop) (O : Sid → Prop) (ev : Event) (x : Exc) (c : Conf) : Exc → List Exc → List Obs → Prop
  /-- no state exists -/
  | dead : (∀ s, c.act s = false) → Refusal C D O ev x c x [] []
  /-- the event was forwarded or deferred, or reacted to without restoring a stable machine -/
  | refused {h r obs c'} : O h → Search C Forget (.meant C false) D ev h c obs r c' → (r ≠ .discard ∨ c'.act = c.act) → Refusal C D O ev x c x [] obs
  /-- the search for a reaction was interrupted by `y` -/
  | threw {h y obs} : O h → SearchUntil C Forget (.meant C false) (.meant C false) D ev h c obs → Refusal C D O ev x c y [y] obs

/-- The dispatch of `e` ended with exception `y` from outside a reaction: nothing else happens. -/
inductive Harmless (C : Chart) (D : Sid → Nat → Event → Decision → Prop) (e : Event) (l : List Sid) (c : Conf) (y : Exc) :
    List Exc → List (Option Event × Obs) → Conf → Prop
  /-- from `unconsumed_event`, after all states forwarded -/
  | unconsumed {obs c1 h} : Sweep C Forget (.meant C true) D e l c obs .forward c1 → c1.act = c.act → (∀ o ∈ obs, quietObs o = true) →
      MemRun C Forget c.mem (obs ++ [.unconsumed]) h → Harmless C D e l c y [y] (tag (some e) (obs ++ [.unconsumed])) ⟨c.act, h⟩
  /-- from the memory allocation for the deferral of `e` -/
  | noMemory {obs c'} : Sweep C Forget (.meant C true) D e l c obs .defer c' → c'.act = c.act → (∀ o ∈ obs, quietObs o = true) →
      Harmless C D e l c y [y] (tag (some e) obs) c'

/-- The dispatch of `e` ended with exception `y` from a reaction: all states are destroyed. -/
inductive Fatal (C : Chart) (D : Sid → Nat → Event → Decision → Prop) (translate : Exc → Option Event) (e : Event) (l : List Sid) (c : Conf) (y : Exc) :
    List Exc → List (Option Event × Obs) → Conf → Prop
  /-- not translated -/
  | died {s obs1 c1 obs2 c'} : Broken C D e l c s obs1 c1 → translate y = none → DestroysAll C c1.act obs2 → Gone c' →
      Fatal C D translate e l c y [y] (tag (some e) (obs1 ++ obs2)) c'
  /-- translated; the exception event was not handled -/
  | rejected {s obs1 c1 obs2 obs3 x xs ev c'} : Broken C D e l c s obs1 c1 → translate x = some ev → Refusal C D (SentTo C (some s) c.act obs1 c1.act) ev x c1 y xs obs2 → (∀ o ∈ obs2, o.isExit = false) →
      Obs.unconsumed ∉ obs2 → DestroysAll C (obs2.foldl aliveStep c1.act) obs3 → Gone c' →
      Fatal C D translate e l c y (x :: xs) (tag (some e) obs1 ++ tag (some ev) obs2 ++ tag (some e) obs3) c'

end SC.Spec

namespace SC
open Spec Chart
variable {W : Type} {P : Prog W} {m m' : Mach W}

theorem Inv.memOK {C : Chart} {L : Sid → Nat} {pend : Option Sid} (hwf : C.WF) (h : Inv C L pend m) : MemOK C m.mem := by
  refine ⟨fun p i c hc => ?_, fun p i c hc => ?_⟩
  · cases hs : m.sh (p, i) with
    | none => simp [Mach.mem, hs] at hc
    | some f =>
      obtain ⟨c', rfl, h1, h2, h3⟩ := h.hist.sh hs
      simp only [Mach.mem, hs, Option.some.injEq] at hc
      subst hc
      exact ⟨h1, h2, h3⟩
  · cases hs : m.dh (p, i) with
    | none => simp [Mach.mem, hs] at hc
    | some f =>
      obtain ⟨c', rfl, h1, h2, _, _, h3⟩ := h.hist.dh hs
      simp only [Mach.mem, hs, Option.some.injEq] at hc
      subst hc
      have hpath := pathBelow_path hwf h1 (c := some p) ((mem_ctxList hwf h1).2 (.inr ⟨p, rfl, h2⟩))
      exact ⟨h1, _, hpath.head, h3, hpath.head_below⟩

theorem Inv.act_after {C : Chart} {L L' : Sid → Nat} {pend pend' : Option Sid} (h : Inv C L pend m) (h' : Inv C L' pend' m')
    {obs : List (Option Event × Obs)} (ht : m'.trace = m.trace ++ obs) : m'.act = (obs.map (·.2)).foldl aliveStep m.act := by
  have h1 := life_act h.tr
  have h2 := life_act h'.tr
  simp only at h1 h2
  rw [h2, h1, ht, List.map_append]
  unfold alive
  rw [List.foldl_append]

theorem Inv.destroysAll {C : Chart} {L : Sid → Nat} {pend : Option Sid} (hwf : C.WF) (h : Inv C L pend m) :
    ExitList C (fun x => m.act x = true) (allExits C m.act m.outermost) := by
  have hf : Forest C m.act := h.forest
  cases ho : m.outermost with
  | none =>
    have hd : ∀ x, m.act x = false := h.dead_of_outer hwf ho
    exact ⟨fun x => by simp [allExits, hd], by simp [allExits], by simp [allExits]⟩
  | some s =>
    obtain ⟨hs, hp⟩ := h.outer.1 ho
    have hx := hf.exitList hwf (s := s) hs
    refine ⟨fun x => ?_, hx.nodup, hx.order⟩
    rw [show allExits C m.act (some s) = exitOrder C m.act s from rfl, hx.mem]
    refine ⟨fun h => h.1, fun hax => ⟨hax, ?_⟩⟩
    have : ∀ z, m.act z = true → Below C s z := by
      intro z
      induction z using Nat.strongRecOn with
      | _ z ihz =>
        intro hz
        cases hpz : C.parent z with
        | none =>
          have := h.outer.2 ⟨hz, hpz⟩
          rw [ho] at this; cases this; exact .refl
        | some q => exact .step hpz (ihz q (hwf.parent_lt (hf.bound z hz) hpz) (hf.outer z q hz hpz))
    exact this x hax

theorem exits_false (t : Option Event) (l : List Sid) : exits false t l = (l.map Obs.destroy).map fun o => (t, o) := by
  rw [exits_eq]
  unfold exitObs
  congr 1
  induction l with
  | nil => rfl
  | cons a l ih => rw [List.flatMap_cons, ih]; rfl

theorem SameState.conf (h : SameState m m') : m'.conf = m.conf := by
  unfold Mach.conf Mach.mem
  rw [h.sh, h.dh, h.hlog, h.core.act]

/-- What is remembered is what the history log says. -/
theorem HRel.exact {C : Chart} {F : Site → Bool → Prop} {b : Bool} {n : Nat} (h : HRel C F b n m m') (hb : ∀ s, .exit s ∈ m'.trace.map (·.2) → s < C.n) (he : Exact C m.mem) : Exact C m'.mem := by
  obtain ⟨obs, ops, h1, h2, _, h3, h4, _⟩ := h
  have := h4 ?_ m.hlog he
  · unfold Exact
    rw [this]; rfl
  · intro o hs s ho
    have h5 : s ∈ (obs.map (·.2)).filterMap Obs.exit? := by
      rw [← h3]; exact List.mem_filterMap.2 ⟨_, hs, ho⟩
    obtain ⟨o, ho, h6⟩ := List.mem_filterMap.1 h5
    refine hb s ?_
    rw [h1, List.map_append, List.mem_append]
    cases o <;> cases h6
    exact .inr ho

theorem HRel.logs {C : Chart} {F : Site → Bool → Prop} {n : Nat} (h : HRel C F false n m m') {obs : List (Option Event × Obs)} (ht : m'.trace = m.trace ++ obs) :
    LogsBut n m.mem.log (obs.map (·.2)) m'.mem.log := by
  obtain ⟨obs', ops, h1, h2, h5, h3, h4, _, h6, _⟩ := h
  rw [ht] at h1
  rw [List.append_cancel_left h1]
  exact ⟨ops, h2, h5 rfl, h3, h6 rfl⟩

theorem noUnconsumed_exitObs (full : Bool) (l : List Sid) : Obs.unconsumed ∉ exitObs full l := by
  unfold exitObs
  intro h
  obtain ⟨x, _, h⟩ := List.mem_flatMap.1 h
  cases full <;> simp at h

theorem noUnconsumed_acts (a : Option Nat) : Obs.unconsumed ∉ acts a := by
  cases a <;> simp [acts]

theorem Local.noUnconsumed {C : Chart} {full : Bool} {F : Memory → Memory → Prop} {D : Sid → Nat → Event → Decision → Prop} {s : Sid} {e : Event} {l : List Reaction} {c c' : Conf} {obs : List Obs} {r : RR}
    (h : Local F (.meant C full) D s e l c obs r c') : Obs.unconsumed ∉ obs := by
  have ht : ∀ {s d a c obs c'}, (Moves.meant C full).trans s d a c obs c' → Obs.unconsumed ∉ obs := by
    rintro s d a c obs c' ⟨k, t, xs, ys, l, h⟩
    rw [h.seen]
    simp only [List.mem_append, not_or]
    exact ⟨⟨⟨noUnconsumed_exitObs _ _, noUnconsumed_acts _⟩, noUnconsumed_exitObs _ _⟩, by simp [enterObs]⟩
  have he : ∀ {s c obs c'}, (Moves.meant C full).term s c obs c' → Obs.unconsumed ∉ obs := by
    rintro s c obs c' ⟨xs, h⟩
    rw [h.seen]
    exact noUnconsumed_exitObs _ _
  have hf : ∀ {c k obs r c'}, Fires F (.meant C full) D s e c k obs r c' → Obs.unconsumed ∉ obs := by
    intro c k obs r c' h
    cases h with
    | transition h => exact ht h
    | inState _ => exact noUnconsumed_acts _
    | termination h => exact he h
    | deferral => simp
    | discard _ _ => simp
    | forward _ _ => simp
    | defer _ _ => simp
    | transit _ _ h => simp [ht h]
    | terminate _ _ h => simp [he h]
  induction h with
  | none => simp
  | skip _ _ _ ih => exact ih
  | fire _ h => exact hf h

theorem Search.noUnconsumed {C : Chart} {full : Bool} {F : Memory → Memory → Prop} {D : Sid → Nat → Event → Decision → Prop} {s : Sid} {e : Event} {c c' : Conf} {obs : List Obs} {r : RR}
    (h : Search C F (.meant C full) D e s c obs r c') : Obs.unconsumed ∉ obs := by
  induction h with
  | stop h _ => exact Local.noUnconsumed h
  | top h _ => exact Local.noUnconsumed h
  | out h _ _ ih => simp [Local.noUnconsumed h, ih]

theorem Sweep.noUnconsumed {C : Chart} {full : Bool} {F : Memory → Memory → Prop} {D : Sid → Nat → Event → Decision → Prop} {l : List Sid} {e : Event} {c c' : Conf} {obs : List Obs} {r : RR}
    (h : Sweep C F (.meant C full) D e l c obs r c') : Obs.unconsumed ∉ obs := by
  induction h with
  | none => simp
  | stop h _ => exact Search.noUnconsumed h
  | next h _ ih => simp [Search.noUnconsumed h, ih]

/-- The last observation is the deferral of the event if the result is `do_defer_event`; otherwise nothing is deferred. -/
def DeferLast (obs : List Obs) : RR → Prop
  | .defer => ∃ o s, obs = o ++ [.defer s] ∧ ∀ x, Obs.defer x ∉ o
  | _ => ∀ x, Obs.defer x ∉ obs

theorem DeferLast.after {o1 o2 : List Obs} {r : RR} (h1 : ∀ x, Obs.defer x ∉ o1) (h2 : DeferLast o2 r) : DeferLast (o1 ++ o2) r := by
  cases r with
  | defer =>
    obtain ⟨o, s, rfl, h⟩ := h2
    exact ⟨o1 ++ o, s, by simp, fun x => by simp [h1 x, h x]⟩
  | _ => exact fun x => by simp [h1 x, h2 x]

theorem Local.deferLast {C : Chart} {full : Bool} {F : Memory → Memory → Prop} {D : Sid → Nat → Event → Decision → Prop} {s : Sid} {e : Event} {l : List Reaction} {c c' : Conf} {obs : List Obs} {r : RR}
    (h : Local F (.meant C full) D s e l c obs r c') : DeferLast obs r := by
  have hx : ∀ l, ∀ x, Obs.defer x ∉ exitObs full l := by
    intro l x h
    unfold exitObs at h
    obtain ⟨x, _, h⟩ := List.mem_flatMap.1 h
    cases full <;> simp at h
  have ha : ∀ a, ∀ x, Obs.defer x ∉ acts a := by
    intro a x
    cases a <;> simp [acts]
  have ht : ∀ {s d a c obs c'}, (Moves.meant C full).trans s d a c obs c' → ∀ x, Obs.defer x ∉ obs := by
    rintro s d a c obs c' ⟨k, t, xs, ys, l, h⟩ x
    rw [h.seen]
    simp only [List.mem_append, not_or]
    exact ⟨⟨⟨hx _ _, ha _ _⟩, hx _ _⟩, by simp [enterObs]⟩
  have he : ∀ {s c obs c'}, (Moves.meant C full).term s c obs c' → ∀ x, Obs.defer x ∉ obs := by
    rintro s c obs c' ⟨xs, h⟩
    rw [h.seen]
    exact hx _
  have hf : ∀ {c k obs r c'}, Fires F (.meant C full) D s e c k obs r c' → DeferLast obs r := by
    intro c k obs r c' h
    cases h with
    | transition h => exact ht h
    | inState _ => exact ha _
    | termination h => exact he h
    | deferral => exact ⟨[], s, rfl, by simp⟩
    | discard _ _ => simp [DeferLast]
    | forward _ _ => simp [DeferLast]
    | defer _ _ => exact ⟨[_], s, rfl, by simp⟩
    | transit _ _ h => simp [DeferLast, ht h]
    | terminate _ _ h => simp [DeferLast, he h]
  induction h with
  | none => simp [DeferLast]
  | skip _ _ _ ih => exact ih
  | fire _ h => exact hf h

theorem Search.deferLast {C : Chart} {full : Bool} {F : Memory → Memory → Prop} {D : Sid → Nat → Event → Decision → Prop} {s : Sid} {e : Event} {c c' : Conf} {obs : List Obs} {r : RR}
    (h : Search C F (.meant C full) D e s c obs r c') : DeferLast obs r := by
  induction h with
  | stop h _ => exact Local.deferLast h
  | top h _ => exact Local.deferLast h
  | out h _ _ ih => exact ih.after (Local.deferLast h)

theorem Sweep.deferLast {C : Chart} {full : Bool} {F : Memory → Memory → Prop} {D : Sid → Nat → Event → Decision → Prop} {l : List Sid} {e : Event} {c c' : Conf} {obs : List Obs} {r : RR}
    (h : Sweep C F (.meant C full) D e l c obs r c') : DeferLast obs r := by
  induction h with
  | none => simp [DeferLast]
  | stop h _ => exact Search.deferLast h
  | next h _ ih => exact ih.after (Search.deferLast h)

section
variable (hwf : P.toChart.WF) (hok : Contract P)
include hwf hok

omit hwf in
theorem validD : ValidD P.toChart P.decides := by
  rintro s r e d a ⟨v, w, h, _⟩
  exact hok.react s r e v w d a h

omit hwf hok in
theorem Stable.leaves_live (h : Stable P.toChart m) : ∀ s ∈ m.leaves, m.act s = true := fun s hs => ((h.innermost.1.mem s).1 hs).1

theorem Rejected.refusal {cur : Option Sid} {ev : Event} {x y : Exc} {obs : List Obs} {xs : List Exc} (hm : Inv P.toChart noL none m) {O : Sid → Prop}
    (hO : ∀ h, Handler cur m h → m.act h = true → O h) (h : Rejected P Forget cur ev x m y obs xs) :
    Refusal P.toChart P.decides O ev x m.conf y xs obs := by
  cases h with
  | dead h => exact .dead h
  | refused h0 h1 _ h2 h3 => exact .refused (hO _ h0 h1) (Search.meant hwf (validD hok) h2 hm.forest (hm.memOK hwf) h1) (h3.imp id fun h => h.2)
  | threw h0 h1 _ h2 => exact .threw (hO _ h0 h1) (SearchUntil.meant hwf (validD hok) h2 hm.forest (hm.memOK hwf) h1)

omit hwf hok in
/-- The state to which the exception event is dispatched is the one to which it should be offered. -/
theorem Shaken.sent {C : Chart} {cur : Option Sid} {obs : List Obs} {t : Option Event} {h : Sid} (ht : Shaken C m m') (htr : m'.trace = m.trace ++ tag t obs)
    (hh : Handler cur m' h) (hl : m'.act h = true) : SentTo C cur m.act obs m'.act h := by
  obtain ⟨o, h1, h2, h3⟩ := ht
  rw [htr] at h1
  have ho : o.map (·.2) = obs := by rw [← List.append_cancel_left h1, tag, map_snd]
  rw [ho] at h2 h3
  refine ⟨hl, ?_⟩
  rcases hh with hu | ⟨hn, hc⟩
  · refine .inl ⟨h3 h hu, fun hr x hx => ?_⟩
    obtain ⟨u, hu', hb⟩ := h2 x hx
    rw [hu] at hu'; cases hu'; exact hb hr
  · refine .inr ⟨fun x hx => ?_, hc⟩
    obtain ⟨u, hu, _⟩ := h2 x hx
    rw [hn] at hu; cases hu

omit hwf hok in
theorem Shaken.mends {C : Chart} {F : Memory → Memory → Prop} {obs obs2 : List Obs} {t : Option Event} {ev : Event} {h : Sid} {m2 : Mach W} (ht : Shaken C m m') (htr : m'.trace = m.trace ++ tag t obs)
    (hd : Handled P F ev h m' m2) (htr2 : m2.trace = m'.trace ++ tag (some ev) obs2) : Mends C m.act obs m'.act obs2 := by
  rintro ⟨x, hx⟩
  obtain ⟨o, h1, h2, _⟩ := ht
  rw [htr] at h1
  have ho : o.map (·.2) = obs := by rw [← List.append_cancel_left h1, tag, map_snd]
  rw [ho] at h2
  obtain ⟨u, hu, _⟩ := h2 x hx
  obtain ⟨o2, h3, y, hy⟩ := hd.razes (by rw [hu]; simp)
  rw [htr2] at h3
  rw [← List.append_cancel_left h3, tag, map_snd] at hy
  exact ⟨y, hy⟩

omit hwf hok in
/-- Without transitions that is the outermost unstable state in any configuration. -/
theorem Torn.offered {C : Chart} {cur : Option Sid} {obs : List Obs} {t : Option Event} {h : Sid} (ht : Torn C m m') (htr : m'.trace = m.trace ++ tag t obs)
    (hh : Handler cur m' h) (hl : m'.act h = true) : OfferedTo C cur m.act obs m'.act h := by
  obtain ⟨o, h1, h2, h3⟩ := ht
  rw [htr] at h1
  have ho : o.map (·.2) = obs := by rw [← List.append_cancel_left h1, tag, map_snd]
  rw [ho] at h2 h3
  refine ⟨hl, ?_⟩
  rcases hh with hu | ⟨hn, hc⟩
  · refine .inl ⟨h3 h hu, fun x hx => ?_⟩
    obtain ⟨u, hu', hb⟩ := h2 x hx
    rw [hu] at hu'; cases hu'; exact hb
  · refine .inr ⟨fun x hx => ?_, hc⟩
    obtain ⟨u, hu, _⟩ := h2 x hx
    rw [hn] at hu; cases hu

theorem Sweep.meantM {e : Event} {r : RR} {obs : List Obs} {l : List Sid} {c' : Conf} (hm : Stable P.toChart m) (hl : ∀ s ∈ l, m.act s = true)
    (h : Sweep P.toChart Forget (.code P.toChart Forget true) P.decides e l m.conf obs r c') :
    Sweep P.toChart Forget (.meant P.toChart true) P.decides e l m.conf obs r c' :=
  Spec.Sweep.meant hwf (validD hok) h hm.inv.forest (hm.inv.memOK hwf) hl

theorem Sweep.effectM {e : Event} {r : RR} {obs : List Obs} {l : List Sid} {c' : Conf} (hm : Stable P.toChart m) (hl : ∀ s ∈ l, m.act s = true)
    (h : Sweep P.toChart Forget (.code P.toChart Forget true) P.decides e l m.conf obs r c') : Effect P.toChart true m.conf obs r c' :=
  Spec.Sweep.effect hwf (validD hok) h hm.inv.forest (hm.inv.memOK hwf) hl

omit hwf hok in
theorem Inv.exit_bound {C : Chart} {L : Sid → Nat} {pend : Option Sid} (h : Inv C L pend m) : ∀ s, .exit s ∈ m.trace.map (·.2) → s < C.n :=
  (life_bound _ _ _ (fun s h => by cases h) h.tr).1

/-- The part before the exception. -/
theorem Raises.broken {e : Event} {s : Sid} {x : Exc} {m2 : Mach W} (hm : Stable P.toChart m) (h : Raises P Forget e m.leaves m s x m2) :
    ∃ obs : List Obs, m2.trace = m.trace ++ tag m.trig obs ∧ Broken P.toChart P.decides e m.leaves m.conf s obs m2.conf := by
  obtain ⟨l1, l2, o1, m1, h1, h2, h3, h4, h5, ⟨_, o2', h7', h9⟩, h8, h10, o2, h7, h6⟩ := h.ex
  have ho : o2' = o2 := by
    rw [h7', h8] at h7
    have := congrArg (List.map (·.2)) (List.append_cancel_left h7)
    rwa [map_snd, map_snd] at this
  subst ho
  have ht : m2.trace = m.trace ++ (o1 ++ o2').map (fun o => (m.trig, o)) := by rw [h7, h3]; simp
  have hl1 : ∀ s ∈ l1, m.act s = true := fun s hs => hm.leaves_live s (by rw [h1]; simp [hs])
  obtain ⟨k1, k2, k3⟩ := (Sweep.effectM hwf hok hm hl1 h4).still (by simp)
  refine ⟨o1 ++ o2', ht, ⟨l1, l2, o1, m1.conf, o2', h1, rfl, Sweep.meantM hwf hok hm hl1 h4, k1, k3, SearchUntil.meant hwf (validD hok) h6 ?_ ?_ ?_⟩, ?_, ?_, ?_, ?_, ?_⟩
  · rw [k1]; exact hm.inv.forest
  · exact (Sweep.effectM hwf hok hm hl1 h4).mem
  · rw [k1]; exact h10
  · rw [show m2.conf.act = m2.act from rfl, hm.inv.act_after h.inv ht, map_snd]; rfl
  · intro he
    have hb := h.inv.exit_bound
    obtain ⟨g1, g2⟩ := k2.exact hwf (fun s hs => absurd (k3 _ hs) (by simp [quietObs])) he
    have hr := (keeps_reactImpl_hist hwf s e).thrown h5
    refine ⟨hr.exact hb g1, LogsBut.append (k := 1) g2 ?_⟩
    have := hr.logs h7'
    rw [map_snd] at this
    exact this
  · intro h
    rcases List.mem_append.1 h with h | h
    · exact Sweep.noUnconsumed (Sweep.meantM hwf hok hm hl1 h4) h
    · exact h9 h
  · intro x h
    rcases List.mem_append.1 h with h | h
    · exact Sweep.deferLast (Sweep.meantM hwf hok hm hl1 h4) x h
    · have h10 := defersLast_reactImpl (P := P) s e m1
      rw [h5] at h10
      obtain ⟨o3, h11, h12⟩ := h10
      rw [h7'] at h11
      have h13 := List.append_cancel_left h11
      exact h12 (m1.trig, .defer x) (by rw [← h13]; simp [h]) x rfl
  · exact h.inv.forest

theorem Sent.episode {e : Event} {r : RR} (hm : Stable P.toChart m) (ht : m.trig = some e) (h : Sent P Forget e m.leaves m r m') :
    ∃ xs tr, m'.trace = m.trace ++ tr ∧ m'.xlog = m.xlog ++ xs ∧ (r ≠ .forward → Episode P.toChart P.decides P.translate e m.leaves m.conf xs tr m'.conf) ∧
      (r ≠ .discard → ∃ obs : List Obs, xs = [] ∧ tr = tag (some e) obs ∧ m'.act = m.act ∧ MemRun P.toChart Forget m.mem obs m'.mem ∧
        (∀ o ∈ obs, quietObs o = true) ∧ Sweep P.toChart Forget (.meant P.toChart true) P.decides e m.leaves m.conf obs r m'.conf) := by
  cases h with
  | @swept obs _ _ h1 h2 hxl =>
    have := Sweep.effectM hwf hok hm hm.leaves_live h2
    rw [ht] at h1
    replace h2 := Sweep.meantM hwf hok hm hm.leaves_live h2
    exact ⟨_, _, h1, by rw [hxl, List.append_nil], fun hne => .reacted h2 hne this.reacts, fun hne => ⟨obs, rfl, rfl, (this.still hne).1, (this.still hne).2.1, (this.still hne).2.2, h2⟩⟩
  | @caught s x m2 ev h m' hr hx hh hd =>
    obtain ⟨obs, h1, h2⟩ := hr.broken hwf hok hm
    obtain ⟨obs2, h3, h4⟩ := hd.spec
    have := Search.effect hwf (validD hok) h4 hr.inv.forest (hr.inv.memOK hwf) hd.live
    refine ⟨_, _, ?_, by rw [hd.xlog, hr.xlog], fun _ => .recovered h2 hx ((hr.torn hm.pOU).sent h1 hh hd.live) (Search.meant hwf (validD hok) h4 hr.inv.forest (hr.inv.memOK hwf) hd.live) this.reacts ((hr.torn hm.pOU).mends h1 hd h3), fun hne => absurd rfl hne⟩
    rw [h3, h1, ht, List.append_assoc]; rfl

theorem SendOk.episode {e : Event} {r : RR} (hm : Stable P.toChart m) (h : SendOk P Forget e m r m') :
    ∃ xs tr, m'.trace = m.trace ++ tr ∧ m'.xlog = m.xlog ++ xs ∧ Episode P.toChart P.decides P.translate e m.leaves m.conf xs tr m'.conf ∧
      (r = .defer → ∃ obs : List Obs, xs = [] ∧ tr = tag (some e) obs ∧ m'.act = m.act ∧
        (∀ o ∈ obs, quietObs o = true) ∧ Sweep P.toChart Forget (.meant P.toChart true) P.decides e m.leaves m.conf obs r m'.conf) := by
  have h0 : Stable P.toChart (m.trigger e) := hm.setTrig (some e)
  cases h with
  | @consumed _ m' h hf =>
    obtain ⟨xs, tr, h1, hxl, h2, h3⟩ := Sent.episode (m := m.trigger e) hwf hok h0 rfl h
    refine ⟨xs, tr, h1, hxl, h2 hf, ?_⟩
    rintro rfl
    obtain ⟨obs, k0, k1, k2, _, k3, k4⟩ := h3 (by simp)
    exact ⟨obs, k0, k1, k2, k3, k4⟩
  | @unconsumed m1 m' h hte hu hfm hx =>
    obtain ⟨xs, tr, h1, hxl, h2, h3⟩ := Sent.episode (m := m.trigger e) hwf hok h0 rfl h
    obtain ⟨obs, rfl, rfl, h4, h6, h5, h7⟩ := h3 (by simp)
    have hact : m'.act = m.act := by rw [hu.core.act, h4]; rfl
    have htr : m'.trace = m.trace ++ tag (some e) (obs ++ [Obs.unconsumed]) := by
      rw [hu.trace, h1, hte]
      simp [Mach.trigger, tag]
    refine ⟨_, _, htr, by show m'.xlog = _; rw [hx, hxl]; rfl, ?_, fun h => (by cases h)⟩
    have := Episode.unconsumed (translate := P.translate) (h := m'.mem) h7 h4 h5
      (h6.append Forget.preord (memRun_quiet hfm (by simp [quietObs])))
    rw [show (m.trigger e).conf.act = m'.act from hact.symm] at this
    exact this

theorem DispatchOk.episode {e : Event} (hm : Stable P.toChart m) (h : DispatchOk P Forget e m m') :
    ∃ xs tr, m'.trace = m.trace ++ tr ∧ m'.xlog = m.xlog ++ xs ∧
      Episode P.toChart P.decides P.translate e m.leaves m.conf xs tr m'.conf := by
  obtain ⟨r, m1, h1, h2, hx, _⟩ := h.ex
  obtain ⟨xs, tr, h3, hxl, h4, _⟩ := h1.episode hwf hok hm
  exact ⟨xs, tr, by rw [h2.trace, h3], by rw [hx, hxl], by rw [h2.conf]; exact h4⟩

theorem Runs.episodes {es : List Event} (h : Runs P Forget es m m') :
    ∃ xs tr, m'.trace = m.trace ++ tr ∧ m'.xlog = m.xlog ++ xs ∧ Episodes P.toChart P.decides P.translate es m.conf xs tr m'.conf := by
  induction h with
  | nil _ => exact ⟨[], [], by simp, by simp, .nil⟩
  | @cons e q es m m1 m' h1 h2 h3 _ ih =>
    have h0 : Stable P.toChart { m with evq := q, qlog := m.qlog ++ [.pop e] } := h1.same ⟨by constructor <;> rfl, rfl, rfl, rfl, rfl⟩ h1.flags
    obtain ⟨xs, tr, k1, kx, k2⟩ := h3.episode hwf hok h0
    obtain ⟨xs', tr', k3, ky, k4⟩ := ih
    exact ⟨xs ++ xs', tr ++ tr', by rw [k3, k1, List.append_assoc], by rw [ky, kx, List.append_assoc], .cons h0.innermost.1 k2 k4⟩

theorem TermPost.destroysAll {m1 : Mach W} (h1 : Inv P.toChart noL none m1) (h : TermPost P.toChart false m1 m') :
    ∃ obs, m'.trace = m1.trace ++ tag m1.trig obs ∧ DestroysAll P.toChart m1.act obs :=
  ⟨_, by rw [h.trace, exits_false]; rfl, _, rfl, h1.destroysAll hwf⟩

omit hwf hok in
theorem TermPost.gone {C : Chart} {full : Bool} {m1 : Mach W} (h : TermPost C full m1 m') : Gone m'.conf := by
  refine ⟨h.dead, fun p i => ?_, fun p i => ?_⟩
  · show m'.mem.sh p i = none
    unfold Mach.mem; simp only [h.sh]
  · show m'.mem.dh p i = none
    unfold Mach.mem; simp only [h.dh]

/-- What the client sees when the dispatch of `e`, started in machine `m`, ends with exception `y`. -/
def Prog.Fails (P : Prog W) (e : Event) (m : Mach W) (y : Exc) (xs : List Exc) (tr : List (Option Event × Obs)) (m' : Mach W) : Prop :=
  (Fatal P.toChart P.decides P.translate e m.leaves m.conf y xs tr m'.conf ∧ m'.terminated = true ∧ m'.evq = [] ∧ m'.dq = []) ∨
  (Harmless P.toChart P.decides e m.leaves m.conf y xs tr m'.conf ∧ m'.act = m.act ∧ m'.leaves = m.leaves ∧ m.evq <+: m'.evq ∧ m'.dq = m.dq)

theorem SendFails.episode {e : Event} {y : Exc} (hm : Stable P.toChart m) (h : SendFails P Forget e m y m') :
    ∃ xs tr, m'.trace = m.trace ++ tr ∧ m'.xlog = m.xlog ++ xs ∧ P.Fails e m y xs tr m' := by
  have h0 : Stable P.toChart (m.trigger e) := hm.setTrig (some e)
  cases h with
  | @unconsumed m1 m' _ hq h hte hu hfm hx =>
    obtain ⟨xs, tr, h1, hxl, h2, h3⟩ := Sent.episode (m := m.trigger e) hwf hok h0 rfl h
    obtain ⟨obs, rfl, rfl, h4, h6, h5, h7⟩ := h3 (by simp)
    have hact : m'.act = m.act := by rw [hu.core.act, h4]; rfl
    have htr : m'.trace = m.trace ++ tag (some e) (obs ++ [Obs.unconsumed]) := by
      rw [hu.trace, h1, hte]
      simp [Mach.trigger, tag]
    refine ⟨[y], _, htr, by show m'.xlog = _; rw [hx, hxl]; simp [Mach.trigger], .inr ⟨?_, hact, hq.leaves, hq.evq, hq.dq⟩⟩
    have := Harmless.unconsumed (y := y) (h := m'.mem) h7 h4 h5 (h6.append Forget.preord (memRun_quiet hfm (by simp [quietObs])))
    rw [show (m.trigger e).conf.act = m'.act from hact.symm] at this
    exact this
  | @died m1 m' h hi hp hte hxd =>
    have hg : Gone ({ m' with trig := m.trig } : Mach W).conf := hp.gone
    have hd : m'.terminated = true := (hp.stable.terminated_iff hwf).2 hp.dead
    obtain ⟨obs, h1, h2⟩ := hp.destroysAll hwf hok hi
    rw [hte] at h1
    cases h with
    | plain hr hx =>
      obtain ⟨o1, k1, k2⟩ := Raises.broken (m := m.trigger e) hwf hok h0 hr
      refine ⟨_, _, ?_, by show m'.xlog = _; rw [hxd, hr.xlog]; rfl, .inl ⟨.died k2 hx h2 hg, hd, hp.evq, hp.dq⟩⟩
      show m'.trace = _
      rw [h1, k1]
      simp [Mach.trigger, tag]
    | rejected hr hx hj hs hxs =>
      obtain ⟨o1, k1, k2⟩ := Raises.broken (m := m.trigger e) hwf hok h0 hr
      obtain ⟨k3, k4, k5⟩ := hs
      have := hr.inv.act_after hi k3
      rw [map_snd] at this
      rw [this] at h2
      refine ⟨_, _, ?_, by show m'.xlog = _; rw [hxd, hxs, hr.xlog, List.append_assoc]; rfl, .inl ⟨.rejected k2 hx (hj.refusal hwf hok hr.inv fun _ hh hl => (hr.torn h0.pOU).sent k1 hh hl) k4 k5 h2 hg, hd, hp.evq, hp.dq⟩⟩
      show m'.trace = _
      rw [h1, k3, k1]
      simp [Mach.trigger, tag]

omit hwf hok in
theorem SameState.leaves (h : SameState m m') : m'.leaves = m.leaves := by
  unfold Mach.leaves
  rw [h.core.slot, h.core.endIx]

omit hwf hok in
theorem SameState.terminated (h : SameState m m') : m'.terminated = m.terminated := by
  unfold Mach.terminated
  rw [h.core.outermost]

theorem DispatchFails.episode {e : Event} {y : Exc} (hm : Stable P.toChart m) (h : DispatchFails P Forget e m y m') :
    ∃ xs tr, m'.trace = m.trace ++ tr ∧ m'.xlog = m.xlog ++ xs ∧ P.Fails e m y xs tr m' := by
  cases h.why with
  | send h hs hx he hd =>
    obtain ⟨xs, tr, h1, hxl, h2⟩ := h.episode hwf hok hm
    refine ⟨xs, tr, by rw [hs.trace, h1], by rw [hx, hxl], ?_⟩
    unfold Prog.Fails
    rw [hs.conf, hs.terminated, he, hd, hs.core.act, hs.leaves]
    exact h2
  | noMemory h hq hs hx he hd _ =>
    obtain ⟨xs, tr, h1, hxl, _, h3⟩ := h.episode hwf hok hm
    obtain ⟨obs, rfl, rfl, h4, h5, h6⟩ := h3 rfl
    refine ⟨[y], _, by rw [hs.trace, h1], by rw [hx, hxl, List.append_nil], .inr ⟨?_, ?_, ?_, ?_, ?_⟩⟩
    · rw [hs.conf]
      exact .noMemory h6 h4 h5
    · rw [hs.core.act, hq.act]
    · rw [hs.leaves, hq.leaves]
    · rw [he]; exact hq.evq
    · rw [hd]; exact hq.dq

end
end SC
