import Verif.Props.Late
/-!
# Property C46: no region of an active state is empty

Only a termination reaction of a state in a region, or of one of its inner states, empties the region: transitions fill the regions they empty, and a
machine that is left unstable by an exception is mended or terminated. With relaxed transition context the latter is false, unless all actions are members of contexts that the
default configuration allows.
-/

namespace SC.Spec
open SC Chart
variable {C : Chart} {D : Sid → Nat → Event → Decision → Prop} {translate : Exc → Option Event}

/-- If the state `s` is active, then so is a state in its region `i`. -/
def Filled (C : Chart) (act : Sid → Bool) (s : Sid) (i : Nat) : Prop :=
  act s = true → ∃ y, C.parent y = some s ∧ C.pos y = i ∧ act y = true

/-- The state `z` has a reaction that may terminate it. -/
def CanEnd (C : Chart) (D : Sid → Nat → Event → Decision → Prop) (z : Sid) : Prop :=
  ∃ r ∈ C.reactions z, r.kind = .termination ∨ ∃ id e, r.kind = .custom id ∧ D z id e .terminate

/-- No state in the region `i` of `s` can be terminated by a reaction. -/
def Lasting (C : Chart) (D : Sid → Nat → Event → Decision → Prop) (s : Sid) (i : Nat) : Prop :=
  ∀ y, C.parent y = some s → C.pos y = i → ∀ z, Below C y z → ¬ CanEnd C D z

/-- What the search for a reaction that starts in `h` does to the active states: nothing, or a transition or a termination of `h` or an outer state of `h`. -/
def Moved (C : Chart) (T : Moves) (D : Sid → Nat → Event → Decision → Prop) (h : Sid) (c : Conf) (obs : List Obs) (c' : Conf) : Prop :=
  (c'.act = c.act ∧ ∀ y, Obs.destroy y ∉ obs) ∨
  ∃ z g o, Below C z h ∧ ((∃ d a, T.trans z d a ⟨c.act, g⟩ o c') ∨ (CanEnd C D z ∧ T.term z ⟨c.act, g⟩ o c'))

theorem Local.moved {F : Memory → Memory → Prop} {T : Moves} {s : Sid} {e : Event} {rs : List Reaction} {c c' : Conf} {obs : List Obs} {res : RR}
    (h : Local F T D s e rs c obs res c') (hrs : ∀ r ∈ rs, r ∈ C.reactions s) : Moved C T D s c obs c' ∧ (res = .forward → c'.act = c.act ∧ ∀ y, Obs.destroy y ∉ obs) := by
  induction h with
  | none => exact ⟨.inl ⟨rfl, by simp⟩, fun _ => ⟨rfl, by simp⟩⟩
  | skip _ _ _ ih => exact ih fun r hr => hrs r (by simp [hr])
  | @fire r rs c obs res c' _ hf =>
    have hr : r ∈ C.reactions s := hrs r (by simp)
    generalize hk : r.kind = k at hf
    cases hf with
    | transition h => exact ⟨.inr ⟨s, c.mem, obs, .refl, .inl ⟨_, _, h⟩⟩, fun h => by cases h⟩
    | @inState h a _ => exact ⟨.inl ⟨rfl, by cases a <;> simp [acts]⟩, fun h => by cases h⟩
    | termination h => exact ⟨.inr ⟨s, c.mem, obs, .refl, .inr ⟨⟨r, hr, .inl hk⟩, h⟩⟩, fun h => by cases h⟩
    | deferral => exact ⟨.inl ⟨rfl, by simp⟩, fun h => by cases h⟩
    | discard _ _ => exact ⟨.inl ⟨rfl, by simp⟩, fun h => by cases h⟩
    | forward _ _ => exact ⟨.inl ⟨rfl, by simp⟩, fun _ => ⟨rfl, by simp⟩⟩
    | defer _ _ => exact ⟨.inl ⟨rfl, by simp⟩, fun h => by cases h⟩
    | transit _ _ h => exact ⟨.inr ⟨s, _, _, .refl, .inl ⟨_, _, h⟩⟩, fun h => by cases h⟩
    | terminate _ hd h => exact ⟨.inr ⟨s, _, _, .refl, .inr ⟨⟨r, hr, .inr ⟨_, _, hk, hd⟩⟩, h⟩⟩, fun h => by cases h⟩

theorem Moved.after {T : Moves} {h h' : Sid} {c c1 c' : Conf} {o1 o2 : List Obs} (h1 : c1.act = c.act ∧ ∀ y, Obs.destroy y ∉ o1) (hb : ∀ z, Below C z h → Below C z h')
    (h2 : Moved C T D h c1 o2 c') : Moved C T D h' c (o1 ++ o2) c' := by
  rcases h2 with ⟨h2, h3⟩ | ⟨z, g, o, h2, h3⟩
  · refine .inl ⟨by rw [h2, h1.1], fun y hy => ?_⟩
    rcases List.mem_append.1 hy with hy | hy
    · exact h1.2 y hy
    · exact h3 y hy
  · rw [h1.1] at h3
    exact .inr ⟨z, g, o, hb z h2, h3⟩

theorem Search.moved {F : Memory → Memory → Prop} {T : Moves} {s : Sid} {e : Event} {c c' : Conf} {obs : List Obs} {res : RR}
    (h : Search C F T D e s c obs res c') : Moved C T D s c obs c' ∧ (res = .forward → c'.act = c.act ∧ ∀ y, Obs.destroy y ∉ obs) := by
  induction h with
  | stop h hn => exact ⟨(h.moved fun _ h => h).1, fun he => absurd he hn⟩
  | top h _ => exact h.moved fun _ h => h
  | @out s p c o1 c1 o2 res c' h hp _ ih =>
    have h1 := (h.moved fun _ h => h).2 rfl
    refine ⟨ih.1.after h1 fun z hz => hz.trans (.step hp .refl), fun he => ?_⟩
    obtain ⟨h2, h3⟩ := ih.2 he
    refine ⟨by rw [h2, h1.1], fun y hy => ?_⟩
    rcases List.mem_append.1 hy with hy | hy
    · exact h1.2 y hy
    · exact h3 y hy

theorem Sweep.moved {F : Memory → Memory → Prop} {T : Moves} {e : Event} {l : List Sid} {c c' : Conf} {obs : List Obs} {res : RR}
    (h : Sweep C F T D e l c obs res c') : c'.act = c.act ∨ ∃ s ∈ l, ∃ o, Moved C T D s c o c' := by
  induction h with
  | none => exact .inl rfl
  | stop h _ => exact .inr ⟨_, by simp, _, h.moved.1⟩
  | next h _ ih =>
    have h1 := h.moved.2 rfl
    rcases ih with ih | ⟨s, hs, o, ih⟩
    · exact .inl (by rw [ih, h1.1])
    · exact .inr ⟨s, by simp [hs], _, ih.after (h' := s) h1 fun _ h => h⟩

/-! ### Transitions and terminations -/

theorem Below.parent {t y s : Sid} (h : Below C t y) (hp : C.parent y = some s) (hs : ¬ Below C t s) : y = t := by
  cases h with
  | refl => rfl
  | step h1 h2 => rw [hp] at h1; cases h1; exact absurd h2 hs

/-- A transition fills the regions it empties. -/
theorem Transition.filled {full : Bool} {z : Sid} {d : Target} {a : Option Nat} {k : Option Sid} {t : Sid} {xs ys l : List Sid} {c c' : Conf} {obs : List Obs}
    (h : Transition C full z d a k t xs ys l c obs c') {s : Sid} {i : Nat} (hi : i < C.regions (some s)) (hs : Filled C c.act s i ∨ Below C z s) : Filled C c'.act s i := by
  intro ha
  rcases (h.after s).1 ha with ⟨h1, h2⟩ | h1
  · rcases hs with hs | hs
    · obtain ⟨y, h3, h4, h5⟩ := hs h1
      by_cases hb : Below C t y
      · obtain rfl := hb.parent h3 h2
        obtain ⟨x, hx, h6, h7⟩ := h.entered.tops (C.pos y) (Nat.le_refl _) (Nat.lt_succ_self _)
        exact ⟨x, by rw [h6, ← h.top.1, h3], by rw [h7, h4], (h.after x).2 (.inr hx)⟩
      · exact ⟨y, h3, h4, (h.after y).2 (.inl ⟨h5, hb⟩)⟩
    · exact absurd (h.top.2.trans hs) h2
  · obtain ⟨y, hy, h3, h4⟩ := h.entered.filled s h1 i hi
    exact ⟨y, h3, h4, (h.after y).2 (.inr hy)⟩

/-- The termination of a state outside a region does not empty it. -/
theorem Termination.filled {full : Bool} {z : Sid} {xs : List Sid} {c c' : Conf} {obs : List Obs} (h : Termination C full z xs c obs c') {s : Sid} {i : Nat}
    (hl : ∀ y, C.parent y = some s → C.pos y = i → ¬ Below C y z) (hs : Filled C c.act s i ∨ Below C z s) : Filled C c'.act s i := by
  intro ha
  obtain ⟨h1, h2⟩ := (h.after s).1 ha
  have hz : ¬ Below C z s := fun hb => h2 ⟨h1, .inl hb⟩
  obtain ⟨y, h3, h4, h5⟩ := hs.resolve_right hz h1
  refine ⟨y, h3, h4, (h.after y).2 ⟨h5, ?_⟩⟩
  rintro ⟨_, h6 | ⟨h6, _⟩⟩
  · obtain rfl := h6.parent h3 hz
    exact hl y h3 h4 .refl
  · exact hl y h3 h4 h6.below

/-- If something is destroyed, it is enough if the regions of states outside the one where the search starts are filled. -/
theorem Moved.filled {full : Bool} {h : Sid} {c c' : Conf} {obs : List Obs} (hm : Moved C (.meant C full) D h c obs c') {s : Sid} {i : Nat} (hi : i < C.regions (some s))
    (hl : Lasting C D s i) (hs : Filled C c.act s i ∨ (Below C h s ∧ ∃ y, Obs.destroy y ∈ obs)) : Filled C c'.act s i := by
  rcases hm with ⟨h1, h2⟩ | ⟨z, g, o, h1, h2⟩
  · rcases hs with hs | ⟨_, y, hy⟩
    · unfold Filled; rw [h1]; exact hs
    · exact absurd hy (h2 y)
  · have hs' : Filled C c.act s i ∨ Below C z s := hs.imp id fun h => h1.trans h.1
    rcases h2 with ⟨d, a, k, t, xs, ys, l, h2⟩ | ⟨hc, xs, h2⟩
    · exact h2.filled hi hs'
    · exact h2.filled (fun y h3 h4 h5 => hl y h3 h4 z h5 hc) hs'

/-! ### Exceptions -/

theorem alive_entered {s : Sid} : ∀ (obs : List Obs) (act : Sid → Bool), obs.foldl aliveStep act s = true → act s = true ∨ Obs.enter s ∈ obs := by
  intro obs
  induction obs with
  | nil => intro act h; exact .inl h
  | cons o obs ih =>
    intro act h
    rcases ih _ h with h | h
    · cases o <;> simp only [aliveStep] at h <;> try exact .inl h
      · split at h
        · next hx => subst hx; exact .inr (by simp)
        · exact .inl h
      · split at h
        · cases h
        · exact .inl h
    · exact .inr (by simp [h])

/-- If a region was filled before and is not after the observations `obs`, then its state is unstable. -/
theorem Filled.unstable {act act1 : Sid → Bool} {obs : List Obs} {s : Sid} {i : Nat} (hi : i < C.regions (some s)) (h : Filled C act s i) (ha : act1 = obs.foldl aliveStep act) :
    Filled C act1 s i ∨ Unstable C act obs act1 s := by
  by_cases hf : Filled C act1 s i
  · exact .inl hf
  have hs : act1 s = true := by
    cases hs : act1 s with
    | true => rfl
    | false => exact absurd (fun h => by rw [hs] at h; cases h) hf
  refine .inr ⟨hs, i, hi, fun y h1 h2 => ?_, ?_⟩
  · cases hy : act1 y with
    | false => rfl
    | true => exact absurd (fun _ => ⟨y, h1, h2, hy⟩) hf
  · rcases alive_entered obs act (by rw [← ha]; exact hs) with h1 | h1
    · obtain ⟨y, h2, h3, h4⟩ := h h1
      exact .inr ⟨y, h2, h3, h4⟩
    · exact .inl h1

/-- A reaction to an exception event that mends the machine fills all regions that the interrupted work has emptied. -/
theorem OfferedTo.filled {cur : Option Sid} {c c1 c' : Conf} {obs1 obs2 : List Obs} {h : Sid} (ho : OfferedTo C cur c.act obs1 c1.act h)
    (ha : c1.act = obs1.foldl aliveStep c.act) {ev : Event} (hs : Search C Forget (.meant C false) D ev h c1 obs2 .discard c') (hm : Mends C c.act obs1 c1.act obs2)
    {s : Sid} {i : Nat} (hi : i < C.regions (some s)) (hl : Lasting C D s i) (hf : Filled C c.act s i) : Filled C c'.act s i := by
  refine hs.moved.1.filled hi hl ?_
  rcases hf.unstable hi ha with h1 | h1
  · exact .inl h1
  · refine .inr ⟨?_, hm ⟨s, h1⟩⟩
    rcases ho.2 with h2 | ⟨h2, _⟩
    · exact h2.outermost s h1
    · exact absurd h1 (h2 s)

/-- Default configuration, or actions in contexts that it allows, or no exception events. -/
def Orderly (C : Chart) (D : Sid → Nat → Event → Decision → Prop) (translate : Exc → Option Event) : Prop := C.relaxed = false ∨ Aligned C D ∨ ∀ x, translate x = none

section
variable {s : Sid} {i : Nat} (hq : Orderly C D translate) (hi : i < C.regions (some s)) (hl : Lasting C D s i)
include hi hl

theorem Sweep.filled {full : Bool} {e : Event} {l : List Sid} {c c' : Conf} {obs : List Obs} {res : RR} (h : Sweep C Forget (.meant C full) D e l c obs res c')
    (hf : Filled C c.act s i) : Filled C c'.act s i := by
  rcases h.moved with h | ⟨_, _, _, h⟩
  · unfold Filled; rw [h]; exact hf
  · exact h.filled hi hl (.inl hf)

include hq

theorem Episode.filled {e : Event} {l : List Sid} {c c' : Conf} {xs : List Exc} {tr : List (Option Event × Obs)} (h : Episode C D translate e l c xs tr c')
    (hf : Filled C c.act s i) : Filled C c'.act s i := by
  cases h with
  | reacted h _ _ => exact h.filled hi hl hf
  | unconsumed _ _ _ _ => exact hf
  | recovered h1 h2 h3 h4 _ h5 =>
    rcases hq with hq | hq | hq
    · exact (h3.offeredTo (.inl hq)).filled h1.act h4 h5 hi hl hf
    · exact (h3.offeredTo (.inr (h1.not_late hq))).filled h1.act h4 h5 hi hl hf
    · rw [hq] at h2; cases h2

theorem Episodes.filled {es : List Event} {c c' : Conf} {xs : List Exc} {tr : List (Option Event × Obs)} (h : Episodes C D translate es c xs tr c')
    (hf : Filled C c.act s i) : Filled C c'.act s i := by
  induction h with
  | nil => exact hf
  | cons _ h _ ih => exact ih (h.filled hq hi hl hf)

omit hq in
theorem Recovered.filled {B : Conf → List Obs → Prop} {c c' : Conf} {xs : List Exc} {tr : List (Option Event × Obs)} (h : Recovered C D translate B c xs tr c')
    (hf : Filled C c.act s i) : Filled C c'.act s i := by
  cases h with
  | intro _ h1 h2 h3 h4 _ h5 => exact h3.filled h1 h4 h5 hi hl hf

omit hq in
theorem Begun.filled (hwf : C.WF) {c c' : Conf} {xs : List Exc} {tr : List (Option Event × Obs)} (h : Begun C D translate c xs tr c') (hd : ∀ x, c.act x = false) (hm : MemOK C c.mem) :
    Filled C c'.act s i := by
  cases h with
  | @entered l _ h1 h2 =>
    intro hs
    obtain ⟨_, h1⟩ := h1
    obtain ⟨h3, _⟩ := h1.fills hwf memOK_forget (ctx := none) (lo := C.pos C.initial) (hi := C.pos C.initial + 1) ⟨hwf.initial_ok.1, hwf.initial_ok.2, rfl, rfl⟩ hm
    obtain ⟨y, hy, h4, h5⟩ := h3.filled s ((h2 s).1 hs) i hi
    exact ⟨y, h4, h5, (h2 y).2 hy⟩
  | recovered h => exact h.filled hi hl fun h => by rw [hd] at h; cases h

end

theorem Filled.dead {act : Sid → Bool} (h : ∀ x, act x = false) {s : Sid} {i : Nat} : Filled C act s i := fun hs => by rw [h] at hs; cases hs

end SC.Spec

namespace SC
open Spec Chart
variable {W : Type} {P : Prog W} {m m' : Mach W}

/-- Calls that only queue an event or forget history change no state. -/
theorem Call.still (c : Call) (hc : (∃ e, c = .post e) ∨ (∃ k, c = .clearShallow k) ∨ ∃ k, c = .clearDeep k) :
    wp (c.run P) (fun _ m' => m'.act = m.act) (fun _ m' => m'.act = m.act) m := by
  rcases hc with ⟨e, rfl⟩ | ⟨k, rfl⟩ | ⟨k, rfl⟩
  · unfold Call.run postEvent
    simp only [wp_bind, wp_pure, wp_modify]
    exact wp_allocate P _ (fun _ => rfl) (fun _ _ => rfl)
  · unfold Call.run clearShallowHistory
    simp only [wp_bind, wp_pure, wp_modify]
    refine wp_allocNode P _ _ (fun w => ?_) (fun _ _ => rfl)
    exact (cmd_core { m with world := w } _).act
  · unfold Call.run clearDeepHistory
    simp only [wp_bind, wp_pure, wp_modify]
    refine wp_allocNode P _ _ (fun w => ?_) (fun _ _ => rfl)
    exact (cmd_core { m with world := w } _).act

section
variable (hwf : P.toChart.WF) (hok : Contract P)
include hwf hok
variable {s : Sid} {i : Nat} (hq : Orderly P.toChart P.decides P.translate) (hi : i < P.regions (some s)) (hl : Lasting P.toChart P.decides s i)
include hq hi hl

omit hwf hok hq in
theorem Prog.Fails.filled {e : Event} {y : Exc} {xs : List Exc} {tr : List (Option Event × Obs)} (h : P.Fails e m y xs tr m') (hf : Filled P.toChart m.act s i) :
    Filled P.toChart m'.act s i := by
  have dead : Gone m'.conf → Filled P.toChart m'.act s i := fun hg => .dead hg.act
  unfold Prog.Fails at h
  rcases h with ⟨h, _⟩ | ⟨h, _⟩
  · cases h with
    | died _ _ _ h => exact dead h
    | rejected _ _ _ _ _ _ h => exact dead h
  · have key : ∀ {c'}, Harmless P.toChart P.decides e m.leaves m.conf y xs tr c' → Filled P.toChart c'.act s i := by
      intro c' h
      cases h with
      | unconsumed _ _ _ _ => exact hf
      | noMemory _ h _ => unfold Filled; rw [h]; exact hf
    exact key h

theorem Call.filled {c : Call} (h : Reach P m) (hc : c.legal P m) (hf : Filled P.toChart m.act s i) :
    wp (c.run P) (fun _ m' => Filled P.toChart m'.act s i) (fun _ m' => Filled P.toChart m'.act s i) m := by
  have hs := (h.stable hwf hok).1
  have same : ∀ m' : Mach W, m'.act = m.act → Filled P.toChart m'.act s i := fun m' h => by rw [h]; exact hf
  have dead : ∀ {m' : Mach W}, Gone m'.conf → Filled P.toChart m'.act s i := fun hg => .dead hg.act
  cases c with
  | post e => exact wp_mono (Call.still _ (.inl ⟨e, rfl⟩)) (fun _ m' h => same m' h) (fun _ m' h => same m' h)
  | clearShallow k => exact wp_mono (Call.still _ (.inr (.inl ⟨k, rfl⟩))) (fun _ m' h => same m' h) (fun _ m' h => same m' h)
  | clearDeep k => exact wp_mono (Call.still _ (.inr (.inr ⟨k, rfl⟩))) (fun _ m' h => same m' h) (fun _ m' h => same m' h)
  | process e k =>
    refine wp_mono (wp_eq (processEvent_wp hwf hok (userMem_forget P) e k hs)) ?_ ?_
    · rintro b m' ⟨_, hr⟩
      obtain ⟨_, _, _, _, _, _, _, _, h1, h2, _⟩ := process_event_returns hwf hok h hr
      exact h2.filled hq hi hl (h1.filled hq hi hl hf)
    · rintro y m' ⟨_, hr⟩
      obtain ⟨_, _, _, _, _, _, _, _, h1, _, _, _, h2, _, _, _, h3, _⟩ := process_event_throws hwf hok h hr
      refine h3.filled hi hl ?_
      have := h1.filled hq hi hl hf
      rw [← h2.same.conf] at this
      exact this
  | terminate =>
    unfold Call.run
    simp only [wp_bind, wp_pure]
    refine wp_mono (wp_eq (terminate_wp hwf hok (userMem_forget P) hs)) ?_ ?_
    · rintro b m' ⟨_, hr⟩
      rcases C13_terminate hwf hok h hr with ⟨_, _, _, h1, _⟩ | ⟨_, _, _, _, h1⟩
      · exact dead h1
      · exact h1.filled hi hl hf
    · rintro y m' ⟨_, hr⟩
      have := (C15_terminate hwf hok h hr).2.1
      exact .dead (((wp_thrown (terminate_wp hwf hok (userMem_forget P) hs) hr).1.terminated_iff hwf).1 this)
  | initiate k =>
    refine wp_mono (wp_eq (initiate_wp hwf hok k (userMem_forget P) hs hc)) ?_ ?_
    · rintro b m' ⟨⟨_, _, hb, m0, m1, es, h1, hd, h2, h3⟩, _⟩
      have hs0 := (wp_ok (terminate_wp hwf hok (userMem_forget P) hs) h1).1
      obtain ⟨_, _, _, _, h4⟩ := h2.begun hwf hok hs0 hd
      obtain ⟨_, _, _, _, h5⟩ := h3.episodes hwf hok
      exact h5.filled hq hi hl (h4.filled hi hl hwf hd (hs0.inv.memOK hwf))
    · rintro y m' ⟨⟨hs', _, h1⟩, hr⟩
      rcases h1 with h1 | ⟨m0, h3, h1⟩
      · obtain ⟨⟨_, _, _, _, h2⟩, _⟩ := h1.aborted hwf hok hs (fun _ _ h => h.endsUntil hwf hs)
        cases h2 with
        | died _ _ _ _ h => exact dead h
        | rejected _ _ _ _ _ _ _ h => exact dead h
      · have hs0 := (wp_ok (terminate_wp hwf hok (userMem_forget P) hs) h3).1
        have hd : ∀ x, m0.act x = false := (hs0.terminated_iff hwf).1 (hc m0 h3)
        rcases h1 with h1 | ⟨m1, es, m2, e', q, h4, h5, h6, h7⟩
        · obtain ⟨⟨_, _, _, _, h2⟩, _⟩ := h1.aborted hwf hok hs0 (fun _ _ h => h.startsUntil hwf hok hs0 hd)
          cases h2 with
          | died _ _ _ _ h => exact dead h
          | rejected _ _ _ _ _ _ _ h => exact dead h
        · have hs2 : Stable P.toChart m2 := h5.stable_end
          have hs2' : Stable P.toChart { m2 with evq := q, qlog := m2.qlog ++ [.pop e'] } := hs2.same ⟨by constructor <;> rfl, rfl, rfl, rfl, rfl⟩ hs2.flags
          obtain ⟨_, _, _, _, b3⟩ := h4.begun hwf hok hs0 hd
          obtain ⟨_, _, _, _, k2⟩ := h5.episodes hwf hok
          obtain ⟨_, _, _, _, k4⟩ := h7.episode hwf hok hs2'
          exact k4.filled hi hl (k2.filled hq hi hl (b3.filled hi hl hwf hd (hs0.inv.memOK hwf)))

/-- **C46.** Whenever a call has returned or thrown: exactly one state is active in the region `i` of an active state `s`, unless a state in that region has a termination
reaction (or a `react` member that may call `terminate()`). In the default configuration; with relaxed transition context if all actions are members of contexts that the default configuration allows, or if
exceptions are not translated to events. -/
theorem C46_region_filled (h : Reach P m) (hs : m.act s = true) :
    ∃ y, (P.parent y = some s ∧ P.pos y = i ∧ m.act y = true) ∧ ∀ z, P.parent z = some s → P.pos z = i → m.act z = true → z = y := by
  have hf : Filled P.toChart m.act s i := by
    clear hs
    induction h with
    | fresh w => exact .dead fun _ => rfl
    | @returns c m m' h hc hr ih => exact wp_ok (Call.filled hwf hok hq hi hl h hc ih) hr
    | @throws c x m m' h hc hr ih => exact wp_thrown (Call.filled hwf hok hq hi hl h hc ih) hr
    | world w _ ih => exact ih
  obtain ⟨y, h1, h2, h3⟩ := hf hs
  refine ⟨y, ⟨h1, h2, h3⟩, fun z g1 g2 g3 => (h.stable hwf hok).1.inv.forest.region z y g3 h3 (by rw [g1, h1]) (by rw [g2, h2])⟩

end

end SC

namespace SC.Ex
open Spec

/-- No state in the second region of A (0) has a termination reaction. -/
theorem lasting (P : Prog Nat) (hp : ∀ s, P.parent s = chart.parent s) (hpos : ∀ s, P.pos s = chart.pos s) (hr : ∀ s, 4 ≤ s → s ≤ 7 → P.reactions s = chart.reactions s) :
    Lasting P.toChart P.decides 0 1 := by
  intro y h1 h2 z hz
  have hy : y = 4 := by
    have : (match y with | 4 => 1 | _ => 0) = 1 := (hpos y).symm.trans h2
    split at this
    · rfl
    · cases this
  subst hy
  have key : ∀ t s, Below P.toChart t s → 4 ≤ t → t ≤ 7 → 4 ≤ s ∧ s ≤ 7 := by
    intro t s hb
    induction hb with
    | refl => exact fun h1 h2 => ⟨h1, h2⟩
    | @step s p hsp _ ih =>
      intro h1 h2
      obtain ⟨h3, h4⟩ := ih h1 h2
      have : chart.parent s = some p := (hp s).symm.trans hsp
      simp only [chart] at this
      split at this <;> first | (cases this; omega) | cases this
  obtain ⟨h3, h4⟩ := key _ _ hz (by omega) (by omega)
  rintro ⟨r, hr1, hr2⟩
  rw [show P.toChart.reactions z = chart.reactions z from hr z h3 h4] at hr1
  have hz' : z = 4 ∨ z = 5 ∨ z = 6 ∨ z = 7 := by omega
  rcases hz' with rfl | rfl | rfl | rfl <;> simp [chart] at hr1 <;> subst hr1 <;> simp at hr2

/-- The hypotheses of C46 for the second region of A, in a machine where G was left for H by a transition. -/
example : ∃ m : Mach Nat, Reach prog m ∧ Orderly prog.toChart prog.decides prog.translate ∧ 1 < prog.regions (some 0) ∧ Lasting prog.toChart prog.decides 0 1 ∧ m.act 0 = true ∧ m.act 7 = true := by
  obtain ⟨m, h1, h2⟩ := scenario_ex (P := prog) [(0, .initiate 0), (0, .process ⟨4, 0⟩ 0)] 0 (fun m => m.act 0 && m.act 7) (by decide +kernel)
  rw [Bool.and_eq_true] at h2
  exact ⟨m, h1, .inl rfl, by decide, lasting prog (fun _ => rfl) (fun _ => rfl) (fun _ _ _ => rfl), h2.1, h2.2⟩

/-- An exception was handled in between: the constructor of D (3) throws 100, and A handles the event by a transition to I; from there A is entered again. -/
example : ∃ m : Mach Nat, Reach prog m ∧ Orderly prog.toChart prog.decides prog.translate ∧ Lasting prog.toChart prog.decides 0 1 ∧ m.act 0 = true ∧ m.xlog = [100] := by
  obtain ⟨m, h1, h2⟩ := scenario_ex (P := prog) [(0, .initiate 0), (1, .process ⟨1, 0⟩ 0), (0, .process ⟨6, 0⟩ 0)] 0 (fun m => m.act 0 && decide (m.xlog = [100])) (by decide +kernel)
  rw [Bool.and_eq_true, decide_eq_true_eq] at h2
  exact ⟨m, h1, .inl rfl, lasting prog (fun _ => rfl) (fun _ => rfl) (fun _ _ _ => rfl), h2.1, h2.2⟩

/-- The same with relaxed transition context. -/
example : ∃ m : Mach Nat, Reach alignedProg m ∧ alignedProg.relaxed = true ∧ Orderly alignedProg.toChart alignedProg.decides alignedProg.translate ∧
    Lasting alignedProg.toChart alignedProg.decides 0 1 ∧ m.act 0 = true ∧ m.xlog = [100] := by
  obtain ⟨m, h1, h2⟩ := scenario_ex (P := alignedProg) [(0, .initiate 0), (1, .process ⟨1, 0⟩ 0), (0, .process ⟨6, 0⟩ 0)] 0 (fun m => m.act 0 && decide (m.xlog = [100])) (by decide +kernel)
  rw [Bool.and_eq_true, decide_eq_true_eq] at h2
  exact ⟨m, h1, rfl, .inr (.inl alignedProg_aligned), lasting alignedProg (fun _ => rfl) (fun _ => rfl) (fun _ _ _ => rfl), h2.1, h2.2⟩

/-- A termination reaction empties a region: that of B (1) the first region of A. -/
theorem C46_termination_empties : ∃ m : Mach Nat, Reach prog m ∧ m.act 0 = true ∧ ∀ y, prog.parent y = some 0 → prog.pos y = 0 → m.act y = false := by
  obtain ⟨m, h1, h2⟩ := scenario_ex (P := prog) [(0, .initiate 0), (0, .process ⟨8, 0⟩ 0)] 0 (fun m => m.act 0 && decide ((List.range 9).filter m.act = [0, 4, 5, 6])) (by decide +kernel)
  rw [Bool.and_eq_true, decide_eq_true_eq] at h2
  refine ⟨m, h1, h2.1, fun y hy hp => ?_⟩
  cases ha : m.act y with
  | false => rfl
  | true =>
    have : y ∈ (List.range 9).filter m.act := List.mem_filter.2 ⟨List.mem_range.2 ((h1.stable wf contract).1.inv.live_bound ha), ha⟩
    rw [h2.2] at this
    simp at this
    rcases this with rfl | rfl | rfl | rfl <;> cases hy
    cases hp

/-- With relaxed transition context, and an action in a context the default configuration does not allow, C46 is false: see `C45_not_outermost`. -/
theorem C46_relaxed : ∃ m : Mach Nat, Reach relaxedProg m ∧ Lasting relaxedProg.toChart relaxedProg.decides 0 1 ∧ 1 < relaxedProg.regions (some 0) ∧ m.act 0 = true ∧
    ∀ y, relaxedProg.parent y = some 0 → relaxedProg.pos y = 1 → m.act y = false := by
  obtain ⟨m, h1, h2⟩ := scenario_ex (P := relaxedProg) [(0, .initiate 0), (2, .process ⟨13, 0⟩ 0)] 0 (fun m => m.act 0 && decide ((List.range 9).filter m.act = [0, 1, 2])) (by decide +kernel)
  rw [Bool.and_eq_true, decide_eq_true_eq] at h2
  refine ⟨m, h1, lasting relaxedProg (fun _ => rfl) (fun _ => rfl) (fun s h3 h4 => ?_), by decide, h2.1, fun y hy hp => ?_⟩
  · have hs : s = 4 ∨ s = 5 ∨ s = 6 ∨ s = 7 := by omega
    rcases hs with rfl | rfl | rfl | rfl <;> rfl
  · cases ha : m.act y with
    | false => rfl
    | true =>
      have : y ∈ (List.range 9).filter m.act := List.mem_filter.2 ⟨List.mem_range.2 ((h1.stable relaxed_wf relaxed_contract).1.inv.live_bound ha), ha⟩
      rw [h2.2] at this
      simp at this
      rcases this with rfl | rfl | rfl <;> cases hy
      cases hp

end SC.Ex
