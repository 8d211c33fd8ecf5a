import Verif.Props.Transitions
/-!
# Properties C09, C13 – C15, C17, C26, C29, C35, C36: how calls begin and end
-/

namespace SC.Spec
open SC Chart
variable {C : Chart}

/-- `terminate()` is interrupted: of the calls of an uninterrupted one those up to the failing `exit()` are made. -/
def EndsUntil (C : Chart) (c : Conf) (obs : List Obs) : Prop :=
  ∃ xs, ExitList C (fun x => c.act x = true) xs ∧ ExitsUntil C xs obs

/-- With memory `h` the initial entry enters the states `l`. The memory is empty unless `terminate()` did not clear it (see `Ended`). -/
def Starts (C : Chart) (h : Memory) (l : List Sid) : Prop := ∃ h', Enters C Forget h (.tree C.initial) l h'

/-- The initial entry is interrupted: the states before `y` are entered, the entry of `y` fails; states entered before that are outside `y`
may be destroyed again. -/
def StartsUntil (C : Chart) (c : Conf) (obs : List Obs) : Prop :=
  ∃ (l1 : List Sid) (y : Sid) (l2 : List Sid) (tail : List Obs) (l3 : List Sid), Starts C c.mem (l1 ++ y :: l2) ∧ NotEntered y tail ∧
    obs = enterObs l1 ++ (tail ++ l3.map .destroy) ∧ ∀ x ∈ l3, x ∈ l1 ∧ Below C x y

/-- `initiate()` or `terminate()` was interrupted by an exception `x` (`B`: how); the exception event was consumed by `h`.
The list of exceptions (index) are those raised on the way. -/
inductive Recovered (C : Chart) (D : Sid → Nat → Event → Decision → Prop) (translate : Exc → Option Event) (B : Conf → List Obs → Prop) (c : Conf) :
    List Exc → List (Option Event × Obs) → Conf → Prop
  | intro {obs1 obs2 : List Obs} {c1 c' : Conf} {x ev h} : B c obs1 → c1.act = obs1.foldl aliveStep c.act → translate x = some ev → OfferedTo C none c.act obs1 c1.act h →
      Search C Forget (.meant C false) D ev h c1 obs2 .discard c' → Reacts C false c1 obs2 c' → Mends C c.act obs1 c1.act obs2 →
      Recovered C D translate B c [x] (tag none obs1 ++ tag (some ev) obs2) c'

/-- All this happened while `triggering_event()` was `d`; but if an exception was caught, an exception event took its place for a while. -/
inductive Block (translate : Exc → Option Event) (d : Option Event) : List (Option Event × Obs) → Prop
  | plain (obs : List Obs) : Block translate d (tag d obs)
  | handled {x : Exc} {ev : Event} : translate x = some ev → ∀ obs1 obs2 : List Obs, Block translate d (tag d obs1 ++ tag (some ev) obs2)
  | exception {x : Exc} {ev : Event} : translate x = some ev → ∀ obs1 obs2 obs3 : List Obs, Block translate d (tag d obs1 ++ tag (some ev) obs2 ++ tag d obs3)

/-- One block after the other, for each of the events. -/
inductive Blocks (translate : Exc → Option Event) : List (Option Event) → List (Option Event × Obs) → Prop
  | nil : Blocks translate [] []
  | cons {d ds tr tr'} : Block translate d tr → Blocks translate ds tr' → Blocks translate (d :: ds) (tr ++ tr')

theorem Blocks.one {translate : Exc → Option Event} {d : Option Event} {tr : List (Option Event × Obs)} (h : Block translate d tr) : Blocks translate [d] tr := by
  rw [← List.append_nil tr]
  exact .cons h .nil

theorem Blocks.append {translate : Exc → Option Event} {ds ds' : List (Option Event)} {tr tr' : List (Option Event × Obs)} (h : Blocks translate ds tr)
    (h' : Blocks translate ds' tr') : Blocks translate (ds ++ ds') (tr ++ tr') := by
  induction h with
  | nil => exact h'
  | cons h1 _ ih => rw [List.append_assoc]; exact .cons h1 ih

/-- `initiate()` or `terminate()` was interrupted by an exception (`B`: how) and failed with exception `y`. -/
inductive Aborted (C : Chart) (D : Sid → Nat → Event → Decision → Prop) (translate : Exc → Option Event) (B : Conf → List Obs → Prop) (c : Conf) (y : Exc) :
    List Exc → List (Option Event × Obs) → Conf → Prop
  /-- not translated -/
  | died {obs1 obs2 : List Obs} {c1 c' : Conf} : B c obs1 → c1.act = obs1.foldl aliveStep c.act → translate y = none → DestroysAll C c1.act obs2 → Gone c' →
      Aborted C D translate B c y [y] (tag none (obs1 ++ obs2)) c'
  /-- translated; the exception event was not handled -/
  | rejected {obs1 obs2 obs3 : List Obs} {c1 c' : Conf} {x xs ev} : B c obs1 → c1.act = obs1.foldl aliveStep c.act → translate x = some ev → Refusal C D (OfferedTo C none c.act obs1 c1.act) ev x c1 y xs obs2 →
      (∀ o ∈ obs2, o.isExit = false) → Obs.unconsumed ∉ obs2 → DestroysAll C (obs2.foldl aliveStep c1.act) obs3 → Gone c' →
      Aborted C D translate B c y (x :: xs) (tag none obs1 ++ tag (some ev) obs2 ++ tag none obs3) c'

/-- `terminate()` returned and left no state, raising `xs`: all states were exited and nothing is remembered, or it was interrupted and the exception event was
handled. -/
inductive Ended (C : Chart) (D : Sid → Nat → Event → Decision → Prop) (translate : Exc → Option Event) (c : Conf) : List Exc → List (Option Event × Obs) → Conf → Prop
  | exited {xs : List Sid} {c' : Conf} : ExitList C (fun x => c.act x = true) xs → Gone c' → Ended C D translate c [] (tag none (xs.flatMap fun x => [.exit x, .destroy x])) c'
  | recovered {xs tr c'} : Recovered C D translate (EndsUntil C) c xs tr c' → (∀ x, c'.act x = false) → Ended C D translate c xs tr c'

/-- The initial entry from `c`, raising `xs`: the states are entered, or the entry was interrupted and the exception event was handled. -/
inductive Begun (C : Chart) (D : Sid → Nat → Event → Decision → Prop) (translate : Exc → Option Event) (c : Conf) : List Exc → List (Option Event × Obs) → Conf → Prop
  | entered {l : List Sid} {c' : Conf} : Starts C c.mem l → (∀ x, c'.act x = true ↔ x ∈ l) → Begun C D translate c [] (tag none (enterObs l)) c'
  | recovered {xs tr c'} : Recovered C D translate (StartsUntil C) c xs tr c' → Begun C D translate c xs tr c'

theorem Starts.initial (hwf : C.WF) {h : Memory} {l : List Sid} (hs : Starts C h l) (hn : NoMemory h) : l = initialTree C C.initial := by
  obtain ⟨h', he⟩ := hs
  exact (Enters.default hwf (fun _ _ hf hn => hn.forget hf) he (ctx := none) (lo := C.pos C.initial) (hi := C.pos C.initial + 1)
    ⟨hwf.initial_ok.1, hwf.initial_ok.2, rfl, rfl⟩ hn).1

theorem Ended.dead {D : Sid → Nat → Event → Decision → Prop} {translate : Exc → Option Event} {c c' : Conf} {xs : List Exc} {tr : List (Option Event × Obs)}
    (h : Ended C D translate c xs tr c') : ∀ x, c'.act x = false := by
  cases h with
  | exited _ h => exact h.act
  | recovered _ h => exact h

/-- `terminate()` on a terminated machine. -/
theorem Ended.nothing {D : Sid → Nat → Event → Decision → Prop} {translate : Exc → Option Event} {c c' : Conf} {xs : List Exc} {tr : List (Option Event × Obs)}
    (h : Ended C D translate c xs tr c') (hd : ∀ x, c.act x = false) : xs = [] ∧ tr = [] ∧ Gone c' := by
  cases h with
  | @exited xs _ h1 h2 =>
    cases xs with
    | nil => exact ⟨rfl, rfl, h2⟩
    | cons x xs =>
      have := (h1.mem x).1 (by simp)
      rw [hd] at this
      cases this
  | recovered h _ =>
    cases h with
    | intro h0 _ _ _ _ _ _ =>
      obtain ⟨xs, h3, l1, z, l2, _, _, rfl, _⟩ := h0
      have := (h3.mem z).1 (by simp)
      rw [hd] at this
      cases this

/-- Every state of an initial tree except its root has a direct outer state. -/
theorem initialTree_parent (hwf : C.WF) : ∀ (n : Nat) (s x : Sid), C.n - s = n → s < C.n → x ∈ initialTree C s → x = s ∨ ∃ p, C.parent x = some p := by
  intro n
  induction n using Nat.strongRecOn with
  | _ n ih =>
    intro s x hn hs hx
    rw [initialTree_eq hwf hs] at hx
    rcases List.mem_cons.1 hx with rfl | hx
    · exact .inl rfl
    · obtain ⟨t, ht, hx⟩ := List.mem_flatMap.1 hx
      obtain ⟨i, hi⟩ := List.getElem?_of_mem ht
      obtain ⟨h1, h2, _⟩ := hwf.init_ok hs hi
      have := hwf.parent_lt h1 h2
      rcases ih (C.n - t.st) (by omega) t.st x rfl h1 hx with rfl | h
      · exact .inr ⟨_, h2⟩
      · exact .inr h

end SC.Spec

namespace SC
open Spec Chart
variable {W : Type} {P : Prog W} {m m' : Mach W}

section
variable (hwf : P.toChart.WF) (hok : Contract P)
include hwf hok

omit hok in
/-- The part before the exception. -/
theorem BodyThrows.cut {x : M W RR} {e : Exc} {m2 : Mach W} {B : Conf → List Obs → Prop} (hm : Stable P.toChart m) (h : BodyThrows P.toChart x m e m2) (hB : RCut B m.untrigger m2) :
    ∃ obs : List Obs, m2.trace = m.trace ++ tag none obs ∧ B m.conf obs ∧ m2.conf.act = obs.foldl aliveStep m.act := by
  obtain ⟨obs, h1, h2⟩ := hB
  refine ⟨obs, h1, h2, ?_⟩
  rw [show m2.conf.act = m2.act from rfl, hm.inv.act_after h.inv h1, map_snd]

omit hok in
theorem BodyThrows.endsUntil {e : Exc} {m2 : Mach W} (hm : Stable P.toChart m) (h : BodyThrows P.toChart (termBody P) m e m2) :
    RCut (EndsUntil P.toChart) m.untrigger m2 := by
  obtain ⟨obs, h1, h2⟩ := h.term_cut hwf hm
  exact ⟨obs, h1, _, Inv.destroysAll (m := m.untrigger) hwf (hm.setTrig none).inv, h2⟩

theorem BodyThrows.startsUntil {e : Exc} {m2 : Mach W} (hm : Stable P.toChart m) (hd : ∀ x, m.act x = false)
    (h : BodyThrows P.toChart (initBody P) m e m2) : RCut (StartsUntil P.toChart) m.untrigger m2 := by
  obtain ⟨obs, h1, l1, y, tail, l3, h2, h3, rfl, h4⟩ := h.init_cut hwf hok (userMem_forget P) hm hd
  have hg : (Goal.tree P.initial).At P.toChart none (P.pos P.initial) (P.pos P.initial + 1) := ⟨hwf.initial_ok.1, hwf.initial_ok.2, rfl, rfl⟩
  obtain ⟨l2, h', he⟩ := h2.completes hwf hg trivial (Inv.memOK (m := m.untrigger) hwf (hm.setTrig none).inv)
  exact ⟨_, h1, l1, y, l2, tail, l3, ⟨h', he⟩, h3, rfl, h4⟩

theorem GuardOk.recovered {x : M W RR} {Q : Mach W → Prop} {B : Conf → List Obs → Prop} (hm : Stable P.toChart m)
    (hB : ∀ e m2, BodyThrows P.toChart x m e m2 → RCut B m.untrigger m2) (h : GuardOk P Forget x Q m m') :
    (∃ m1, Q m1 ∧ m' = { m1 with trig := m.trig } ∧ m'.xlog = m.xlog) ∨
    ∃ xs tr, m'.trace = m.trace ++ tr ∧ m'.xlog = m.xlog ++ xs ∧ Recovered P.toChart P.decides P.translate B m.conf xs tr m'.conf := by
  cases h with
  | @ok m1 h hx => exact .inl ⟨m1, h, rfl, hx⟩
  | @caught e m2 ev h m' hb hx hou hd =>
    obtain ⟨obs, h1, h0, h2⟩ := hb.cut hwf hm (hB _ _ hb)
    obtain ⟨obs2, h3, h4⟩ := hd.spec
    have := Search.effect hwf (validD hok) h4 hb.inv.forest (hb.inv.memOK hwf) hd.live
    refine .inr ⟨_, _, ?_, by show m'.xlog = _; rw [hd.xlog, hb.xlog], .intro h0 h2 hx ((hb.torn hm.pOU).offered h1 (.inl hou) hd.live) (Search.meant hwf (validD hok) h4 hb.inv.forest (hb.inv.memOK hwf) hd.live) this.reacts ((hb.torn hm.pOU).shaken.mends h1 hd h3)⟩
    show m'.trace = _
    rw [h3, h1, List.append_assoc]; rfl

theorem GuardFails.aborted {x : M W RR} {y : Exc} {B : Conf → List Obs → Prop} (hm : Stable P.toChart m)
    (hB : ∀ e m2, BodyThrows P.toChart x m e m2 → RCut B m.untrigger m2) (h : GuardFails P Forget x m y m') :
    (∃ xs tr, m'.trace = m.trace ++ tr ∧ m'.xlog = m.xlog ++ xs ∧ Aborted P.toChart P.decides P.translate B m.conf y xs tr m'.conf) ∧ m'.evq = [] ∧ m'.dq = [] := by
  cases h with
  | @plain _ m2 m' hb hx hp hxl =>
    refine ⟨?_, hp.evq, hp.dq⟩
    obtain ⟨o1, k1, k0, k2⟩ := hb.cut hwf hm (hB _ _ hb)
    obtain ⟨o2, h1, h2⟩ := hp.destroysAll hwf hok hb.inv
    have ht : m2.trig = none := hb.tagged.1
    refine ⟨_, _, ?_, by show m'.xlog = _; rw [hxl, hb.xlog], .died k0 k2 hx h2 hp.gone⟩
    show m'.trace = _
    rw [h1, k1, ht]
    simp [tag]
  | @rejected e m2 ev _ obs xs m3 m' hb hx hj hs hi ht hp hx3 hx4 =>
    refine ⟨?_, hp.evq, hp.dq⟩
    obtain ⟨o1, k1, k0, k2⟩ := hb.cut hwf hm (hB _ _ hb)
    obtain ⟨o3, h1, h2⟩ := hp.destroysAll hwf hok hi
    obtain ⟨k3, k4, k5⟩ := hs
    have := hb.inv.act_after hi k3
    rw [map_snd] at this
    rw [this] at h2
    refine ⟨_, _, ?_, by show m'.xlog = _; rw [hx4, hx3, hb.xlog, List.append_assoc]; rfl, .rejected k0 k2 hx (hj.refusal hwf hok hb.inv fun _ hh hl => (hb.torn hm.pOU).offered k1 hh hl) k4 k5 h2 hp.gone⟩
    show m'.trace = _
    rw [h1, k3, k1, ht]
    simp [tag]

/-! ## C13 -/

/-- C13: `terminate()` that returns has exited all states in exit order, with `exit()` calls, and emptied both queues and all history;
or an exception was thrown during that and its exception event was handled. -/
theorem C13_terminate (h : Reach P m) (hr : terminate P m = .ok () m') :
    (∃ xs, m'.trace = m.trace ++ tag none (xs.flatMap fun x => [.exit x, .destroy x]) ∧ ExitList P.toChart (fun x => m.act x = true) xs ∧
      Gone m'.conf ∧ m'.terminated = true ∧ m'.evq = [] ∧ m'.dq = [] ∧ m'.xlog = m.xlog) ∨
    ∃ xs tr, m'.trace = m.trace ++ tr ∧ m'.xlog = m.xlog ++ xs ∧ Recovered P.toChart P.decides P.translate (EndsUntil P.toChart) m.conf xs tr m'.conf := by
  have hs := (h.stable hwf hok).1
  obtain ⟨h1, _, h2⟩ := wp_ok (terminate_wp hwf hok (userMem_forget P) hs) hr
  rcases h2.recovered hwf hok hs (fun _ _ h => h.endsUntil hwf hs) with ⟨m1, h3, rfl, hx⟩ | h3
  · refine .inl ⟨_, ?_, hs.inv.destroysAll hwf, h3.gone, (h1.terminated_iff hwf).2 h3.dead, h3.evq, h3.dq, hx⟩
    show m1.trace = _
    rw [h3.trace, exits_eq]; rfl
  · exact .inr h3

/-- C13: without exception translation only the first is possible. -/
theorem C13_terminate_null (hn : ∀ x, P.translate x = none) (h : Reach P m) (hr : terminate P m = .ok () m') :
    ∃ xs, m'.trace = m.trace ++ tag none (xs.flatMap fun x => [.exit x, .destroy x]) ∧ ExitList P.toChart (fun x => m.act x = true) xs ∧
      Gone m'.conf ∧ m'.terminated = true ∧ m'.evq = [] ∧ m'.dq = [] ∧ m'.xlog = m.xlog := by
  rcases C13_terminate hwf hok h hr with h | ⟨xs, tr, _, _, h⟩
  · exact h
  · cases h with
    | intro _ _ h _ _ _ _ => rw [hn] at h; cases h

/-! ## C14 -/

/-- C14: the destructor destroys all states, inner ones first, higher regions first, and calls no `exit()`. -/
theorem C14_destruct (h : Reach P m) : ∃ m' xs, destruct P m = .ok () m' ∧ m'.trace = m.trace ++ tag none (xs.map .destroy) ∧
    ExitList P.toChart (fun x => m.act x = true) xs ∧ ∀ x, m'.act x = false := by
  obtain ⟨m', h1⟩ := C01_destructor_is_safe hwf hok h
  have hs := h.stable hwf hok
  have hp : TermPost P.toChart false m m' :=
    wp_ok (x := destruct P) (Q := fun _ m' => TermPost P.toChart false m m') (E := fun _ _ => False) (terminateMachine_false_wp hwf hs.1.inv fun _ h => h) h1
  refine ⟨m', _, h1, ?_, hs.1.inv.destroysAll hwf, hp.dead⟩
  rw [hp.trace, exits_false, hs.2]; rfl

/-! ## C09, C36 -/

omit hwf hok in
/-- `terminate()` on a terminated machine. -/
theorem terminate_terminated (ht : m.terminated = true) : terminate P m = .ok () { m with
    fullExit := true
    evq := []
    dq := []
    sh := fun _ => none
    dh := fun _ => none
    shKeys := fun _ => false
    dhKeys := fun _ => false
    qlog := m.qlog ++ [.clear]
    hlog := m.hlog ++ [.clear] } := by
  have ho : m.outermost = none := by
    unfold Mach.terminated at ht
    cases h : m.outermost with
    | none => rfl
    | some s => rw [h] at ht; cases ht
  obtain ⟨heap, slot, len, endIx, outermost, ico, pOU, fullExit, sh, dh, shKeys, dhKeys, evq, dq, trig, world, trace, qlog, hlog, xlog⟩ := m
  simp only at ho
  subst ho
  rfl

/-- The initial configuration of a program. -/
def Started (P : Prog W) (m m1 : Mach W) : Prop :=
  m1.trace = m.trace ++ tag none (enterObs (initialTree P.toChart P.initial)) ∧ ∀ x, m1.act x = true ↔ x ∈ initialTree P.toChart P.initial

omit hwf hok in
theorem GuardOk.begun_ok {m0 m1 : Mach W} (h : Entered P Forget m0.untrigger m1) :
    ∃ tr, m1.trace = m0.trace ++ tr ∧ Begun P.toChart P.decides P.translate m0.conf [] tr m1.conf := by
  obtain ⟨l, h1, h2, h3⟩ := h.ex
  exact ⟨_, h1, .entered ⟨_, h2⟩ h3⟩

theorem GuardOk.begun {m0 m1 : Mach W} (hs : Stable P.toChart m0) (hd : ∀ x, m0.act x = false) (h : GuardOk P Forget (initBody P) (Entered P Forget m0.untrigger) m0 m1) :
    ∃ xs tr, m1.trace = m0.trace ++ tr ∧ m1.xlog = m0.xlog ++ xs ∧ Begun P.toChart P.decides P.translate m0.conf xs tr m1.conf := by
  rcases h.recovered hwf hok hs (fun _ _ h => h.startsUntil hwf hok hs hd) with ⟨m2, h1, rfl, hx⟩ | ⟨xs, tr, h1, hx, h2⟩
  · obtain ⟨tr, h2, h3⟩ := GuardOk.begun_ok h1
    exact ⟨[], tr, h2, by rw [hx, List.append_nil], h3⟩
  · exact ⟨xs, tr, h1, hx, .recovered h2⟩

theorem Reach.ended {m0 : Mach W} (h : Reach P m) (hr : terminate P m = .ok () m0) (hd : ∀ x, m0.act x = false) :
    ∃ xs tr, m0.trace = m.trace ++ tr ∧ m0.xlog = m.xlog ++ xs ∧ Ended P.toChart P.decides P.translate m.conf xs tr m0.conf := by
  rcases C13_terminate hwf hok h hr with ⟨xs, h1, h2, h3, _, _, _, h4⟩ | ⟨xs, tr, h1, h2, h3⟩
  · exact ⟨[], _, h1, by rw [h4, List.append_nil], .exited h2 h3⟩
  · exact ⟨xs, tr, h1, h2, .recovered h3 hd⟩

/-- C36, C09: `initiate()` that returns, on any machine that `terminate()` leaves without states: that ends the old configuration, then the initial states are
entered, then the events posted meanwhile are dispatched. -/
theorem initiate_returns {k : Nat} {b : Bool} (h : Reach P m) (hl : (Call.initiate k).legal P m) (hr : initiate P k m = .ok b m') :
    ∃ (xs0 : List Exc) (tr0 : List (Option Event × Obs)) (c0 : Conf) (xs1 : List Exc) (tr1 : List (Option Event × Obs)) (c1 : Conf) (es : List Event) (xs2 : List Exc)
      (tr2 : List (Option Event × Obs)), m'.trace = m.trace ++ (tr0 ++ (tr1 ++ tr2)) ∧ m'.xlog = m.xlog ++ (xs0 ++ (xs1 ++ xs2)) ∧
      Ended P.toChart P.decides P.translate m.conf xs0 tr0 c0 ∧ Begun P.toChart P.decides P.translate c0 xs1 tr1 c1 ∧ P.Episodes es c1 xs2 tr2 m'.conf ∧
      (b = true → m'.evq = []) := by
  have hs := (h.stable hwf hok).1
  obtain ⟨_, _, hb, m0, m1, es, h1, hd, h2, h3⟩ := wp_ok (initiate_wp hwf hok k (userMem_forget P) hs hl) hr
  have hs0 := (wp_ok (terminate_wp hwf hok (userMem_forget P) hs) h1).1
  obtain ⟨xs0, tr0, a1, a2, a3⟩ := h.ended hwf hok h1 hd
  obtain ⟨xs1, tr1, b1, b2, b3⟩ := h2.begun hwf hok hs0 hd
  obtain ⟨xs2, tr2, c1, c2, c3⟩ := h3.episodes hwf hok
  exact ⟨xs0, tr0, m0.conf, xs1, tr1, m1.conf, es, xs2, tr2, by rw [c1, b1, a1]; simp only [List.append_assoc], by rw [c2, b2, a2]; simp only [List.append_assoc],
    a3, b3, c3, hb⟩

/-- C09: `initiate()` on a terminated machine enters exactly the tree of the initial state (unless a constructor throws and the exception event
is handled); events posted during that are dispatched afterwards. -/
theorem C09_initiate {k : Nat} {b : Bool} (h : Reach P m) (ht : m.terminated = true) (hr : initiate P k m = .ok b m') :
    ∃ m1 es xs2 tr2, m'.trace = m1.trace ++ tr2 ∧ m'.xlog = m1.xlog ++ xs2 ∧ P.Episodes es m1.conf xs2 tr2 m'.conf ∧ (b = true → m'.evq = []) ∧
      ((Started P m m1 ∧ m1.xlog = m.xlog) ∨
        ∃ xs tr c, m1.trace = m.trace ++ tr ∧ m1.xlog = m.xlog ++ xs ∧ Gone c ∧ Recovered P.toChart P.decides P.translate (StartsUntil P.toChart) c xs tr m1.conf) := by
  have hs := (h.stable hwf hok).1
  obtain ⟨_, _, hb, m0, m1, es, h1, hd, h2, h3⟩ := wp_ok (initiate_wp hwf hok k (userMem_forget P) hs (Call.legal_of_terminated ht k)) hr
  have hs0 := (wp_ok (terminate_wp hwf hok (userMem_forget P) hs) h1).1
  obtain ⟨xs0, tr0, a1, a2, a3⟩ := h.ended hwf hok h1 hd
  obtain ⟨rfl, rfl, hg⟩ := a3.nothing ((hs.terminated_iff hwf).1 ht)
  rw [List.append_nil] at a1 a2
  obtain ⟨xs1, tr1, b1, b2, b3⟩ := h2.begun hwf hok hs0 hd
  obtain ⟨xs2, tr2, c1, c2, c3⟩ := h3.episodes hwf hok
  refine ⟨m1, es, xs2, tr2, c1, c2, c3, hb, ?_⟩
  rw [a1] at b1
  rw [a2] at b2
  cases b3 with
  | @entered l _ k1 k2 =>
    obtain rfl := k1.initial hwf ⟨hg.sh, hg.dh⟩
    exact .inl ⟨⟨b1, k2⟩, by rw [b2, List.append_nil]⟩
  | recovered k => exact .inr ⟨xs1, tr1, _, b1, b2, hg, k⟩

/-- C09: without exception translation `initiate()` that returns has entered the initial tree. -/
theorem C09_initiate_null (hn : ∀ x, P.translate x = none) {k : Nat} {b : Bool} (h : Reach P m) (ht : m.terminated = true) (hr : initiate P k m = .ok b m') :
    ∃ m1 es xs2 tr2, m'.trace = m1.trace ++ tr2 ∧ P.Episodes es m1.conf xs2 tr2 m'.conf ∧ (b = true → m'.evq = []) ∧ Started P m m1 := by
  obtain ⟨m1, es, xs2, tr2, h1, _, h2, h3, h4⟩ := C09_initiate hwf hok h ht hr
  refine ⟨m1, es, xs2, tr2, h1, h2, h3, ?_⟩
  rcases h4 with h4 | ⟨xs, tr, c, _, _, _, h4⟩
  · exact h4.1
  · cases h4 with
    | intro _ _ h _ _ _ _ => rw [hn] at h; cases h


/-- C36, without exception translation: `initiate()` first exits all states and then enters the initial tree, so that exactly one outermost state is
active. In general this is false (`Ex.C36_two_outermost`): `terminate()` returns normally when its exception was handled. -/
theorem C36_initiate_partial (hn : ∀ x, P.translate x = none) {k : Nat} {b : Bool} (h : Reach P m) (hr : initiate P k m = .ok b m') :
    ∃ (xs : List Sid) (m1 : Mach W) (es : List Event) (xs2 : List Exc) (tr2 : List (Option Event × Obs)),
      m1.trace = m.trace ++ tag none ((xs.flatMap fun x => [.exit x, .destroy x]) ++ enterObs (initialTree P.toChart P.initial)) ∧
      ExitList P.toChart (fun x => m.act x = true) xs ∧ (∀ x, m1.act x = true ↔ x ∈ initialTree P.toChart P.initial) ∧
      (∀ x, m1.act x = true → P.parent x = none → x = P.initial) ∧ m1.act P.initial = true ∧
      m'.trace = m1.trace ++ tr2 ∧ P.Episodes es m1.conf xs2 tr2 m'.conf := by
  have hs := (h.stable hwf hok).1
  obtain ⟨_, _, hb, m0, m1, es, h1, hd, h2, h3⟩ := wp_ok (initiate_wp hwf hok k (userMem_forget P) hs (Call.legal_of_null hwf hok hs hn k)) hr
  obtain ⟨xs, k1, k2, k3, k4, _⟩ := C13_terminate_null hwf hok hn h h1
  obtain ⟨xs2, tr2, h4, _, h5⟩ := h3.episodes hwf hok
  have hs0 := (wp_ok (terminate_wp hwf hok (userMem_forget P) hs) h1).1
  obtain ⟨xs1, tr1, b1, b2, b3⟩ := h2.begun hwf hok hs0 hd
  have hi : P.initial ∈ initialTree P.toChart P.initial := by
    rw [initialTree_eq hwf hwf.initial_ok.1]; simp
  cases b3 with
  | @entered l _ g1 g2 =>
    obtain rfl := g1.initial hwf ⟨k3.sh, k3.dh⟩
    refine ⟨xs, m1, es, xs2, tr2, ?_, k2, g2, ?_, (g2 _).2 hi, h4, h5⟩
    · rw [b1, k1]
      simp [tag]
    · intro x hx hp
      rcases initialTree_parent hwf _ _ x rfl hwf.initial_ok.1 ((g2 x).1 hx) with h | ⟨p, h⟩
      · exact h
      · rw [hp] at h; cases h
  | recovered k =>
    cases k with
    | intro _ _ h _ _ _ _ => rw [hn] at h; cases h

/-- C36: the only way in which the termination by `initiate()` can fail is that `exit()` has thrown, the exception was translated to an event, and a reaction
consumed it and left states behind. -/
theorem C36_unless (k : Nat) (h : Reach P m) : (Call.initiate k).legal P m ∨
    ∃ m1 xs tr, terminate P m = .ok () m1 ∧ (∃ s, m1.act s = true) ∧ m1.trace = m.trace ++ tr ∧ m1.xlog = m.xlog ++ xs ∧
      Recovered P.toChart P.decides P.translate (EndsUntil P.toChart) m.conf xs tr m1.conf := by
  by_cases hl : (Call.initiate k).legal P m
  · exact .inl hl
  · refine .inr ?_
    obtain ⟨m1, h1, h2⟩ : ∃ m1, terminate P m = .ok () m1 ∧ ¬ m1.terminated = true := by
      refine Classical.byContradiction fun hc => hl fun m1 h1 => Classical.byContradiction fun h2 => hc ⟨m1, h1, h2⟩
    have hs1 := (wp_ok (terminate_wp hwf hok (userMem_forget P) (h.stable hwf hok).1) h1).1
    have ha : ∃ s, m1.act s = true := by
      refine Classical.byContradiction fun hc => h2 ((hs1.terminated_iff hwf).2 fun s => ?_)
      cases hx : m1.act s with
      | false => rfl
      | true => exact absurd ⟨s, hx⟩ hc
    rcases C13_terminate hwf hok h h1 with ⟨_, _, _, _, h3, _⟩ | ⟨xs, tr, h3, h4, h5⟩
    · exact absurd h3 h2
    · exact ⟨m1, xs, tr, h1, ha, h3, h4, h5⟩

omit hwf hok in
theorem Runs.stable_end {es : List Event} (h : Runs P Forget es m m') : Stable P.toChart m' := by
  induction h with
  | nil h => exact h
  | cons _ _ _ _ ih => exact ih

/-! ## C15, C35: exceptions that propagate -/

/-- C15, C35: an exception `y` propagates from `process_event(e)`. The dispatch of one event `e'` (`e` or one taken from the queue) failed, in
one of two ways (`Prog.Fails`). If a reaction threw: all states are destroyed without `exit()` calls, nothing is remembered, both queues are empty, and
`y` is the exception of that reaction unless the reaction to the exception event threw `y`. Otherwise (`unconsumed_event` threw, or there was no memory to store
the deferred event) nothing changes. -/
theorem C15_process_event {e : Event} {k : Nat} {y : Exc} (h : Reach P m) (hr : processEvent P e k m = .thrown y m') :
    ∃ (es : List Event) (e' : Event) (m0 : Mach W) (xs : List Exc) (tr : List (Option Event × Obs)) (xs' : List Exc) (tr' : List (Option Event × Obs)),
      P.Episodes es m.conf xs tr m0.conf ∧ m'.trace = m.trace ++ (tr ++ tr') ∧ m'.xlog = m.xlog ++ (xs ++ xs') ∧ P.Fails e' m0 y xs' tr' m' ∧
      ∃ ops, m'.qlog = m.qlog ++ ops ∧ recvs ops = [e] ∧ e :: pops ops = es ++ [e'] := by
  obtain ⟨es, e', m1, m0, xs, tr, xs', tr', h1, h2, hx, h3, h4, _, h6, hx', h7, h8⟩ := process_event_throws hwf hok h hr
  refine ⟨es, e', m0, xs, tr, xs', tr', ?_, by rw [h6, h2, List.append_assoc], by rw [hx', hx, List.append_assoc], h7, h8⟩
  rw [h4.same.conf]; exact h1

/-- C15, C35: an exception propagates from `terminate()`. -/
theorem C15_terminate {y : Exc} (h : Reach P m) (hr : terminate P m = .thrown y m') :
    (∃ xs tr, m'.trace = m.trace ++ tr ∧ m'.xlog = m.xlog ++ xs ∧ Aborted P.toChart P.decides P.translate (EndsUntil P.toChart) m.conf y xs tr m'.conf) ∧
      m'.terminated = true ∧ m'.evq = [] ∧ m'.dq = [] := by
  have hs := (h.stable hwf hok).1
  obtain ⟨h1, _, h2⟩ := wp_thrown (terminate_wp hwf hok (userMem_forget P) hs) hr
  obtain ⟨⟨xs, tr, h3, hx, h5⟩, h4⟩ := h2.aborted hwf hok hs (fun _ _ h => h.endsUntil hwf hs)
  refine ⟨⟨xs, tr, h3, hx, h5⟩, (h1.terminated_iff hwf).2 fun x => ?_, h4⟩
  cases h5 with
  | died _ _ _ _ h => exact h.act x
  | rejected _ _ _ _ _ _ _ h => exact h.act x

/-- C15, C35: an exception propagates from `initiate()`: from the termination of the old configuration, from the initial entry, or from an event posted by then. -/
theorem C15_initiate {k : Nat} {y : Exc} (h : Reach P m) (hl : (Call.initiate k).legal P m) (hr : initiate P k m = .thrown y m') :
    ((∃ xs tr, m'.trace = m.trace ++ tr ∧ m'.xlog = m.xlog ++ xs ∧ Aborted P.toChart P.decides P.translate (EndsUntil P.toChart) m.conf y xs tr m'.conf) ∧
      m'.terminated = true ∧ m'.evq = [] ∧ m'.dq = []) ∨
    ∃ (xs0 : List Exc) (tr0 : List (Option Event × Obs)) (c0 : Conf), Ended P.toChart P.decides P.translate m.conf xs0 tr0 c0 ∧
      (((∃ xs tr, m'.trace = m.trace ++ (tr0 ++ tr) ∧ m'.xlog = m.xlog ++ (xs0 ++ xs) ∧ Aborted P.toChart P.decides P.translate (StartsUntil P.toChart) c0 y xs tr m'.conf) ∧
        m'.terminated = true ∧ m'.evq = [] ∧ m'.dq = []) ∨
      ∃ (xs1 : List Exc) (tr1 : List (Option Event × Obs)) (c1 : Conf) (es : List Event) (e' : Event) (m0 : Mach W) (xs : List Exc) (tr : List (Option Event × Obs))
        (xs' : List Exc) (tr' : List (Option Event × Obs)), Begun P.toChart P.decides P.translate c0 xs1 tr1 c1 ∧
        P.Episodes es c1 xs tr m0.conf ∧ m'.trace = m.trace ++ (tr0 ++ (tr1 ++ (tr ++ tr'))) ∧ m'.xlog = m.xlog ++ (xs0 ++ (xs1 ++ (xs ++ xs'))) ∧ P.Fails e' m0 y xs' tr' m' ∧
        Innermost P.toChart m0.act m0.leaves) := by
  have hs := (h.stable hwf hok).1
  obtain ⟨h1, _, h2⟩ := wp_thrown (initiate_wp hwf hok k (userMem_forget P) hs hl) hr
  have hdead : ∀ {B : Conf → List Obs → Prop} {c : Conf} {xs tr}, Aborted P.toChart P.decides P.translate B c y xs tr m'.conf → m'.terminated = true := by
    intro B c xs tr h5
    refine (h1.terminated_iff hwf).2 fun x => ?_
    cases h5 with
    | died _ _ _ _ h => exact h.act x
    | rejected _ _ _ _ _ _ _ h => exact h.act x
  rcases h2 with h2 | ⟨m0, h3, h2⟩
  · obtain ⟨⟨xs, tr, h3, hx, h5⟩, h4⟩ := h2.aborted hwf hok hs (fun _ _ h => h.endsUntil hwf hs)
    exact .inl ⟨⟨xs, tr, h3, hx, h5⟩, hdead h5, h4⟩
  · have hs0 := (wp_ok (terminate_wp hwf hok (userMem_forget P) hs) h3).1
    have hd : ∀ x, m0.act x = false := (hs0.terminated_iff hwf).1 (hl m0 h3)
    obtain ⟨xs0, tr0, a1, a2, a3⟩ := h.ended hwf hok h3 hd
    refine .inr ⟨xs0, tr0, m0.conf, a3, ?_⟩
    rcases h2 with h2 | ⟨m1, es, m2, e', q, h4, h5, h6, h7⟩
    · obtain ⟨⟨xs, tr, h3, hx, h5⟩, h4⟩ := h2.aborted hwf hok hs0 (fun _ _ h => h.startsUntil hwf hok hs0 hd)
      exact .inl ⟨⟨xs, tr, by rw [h3, a1, List.append_assoc], by rw [hx, a2, List.append_assoc], h5⟩, hdead h5, h4⟩
    · right
      have hs2 : Stable P.toChart m2 := h5.stable_end
      have hs2' : Stable P.toChart { m2 with evq := q, qlog := m2.qlog ++ [.pop e'] } := hs2.same ⟨by constructor <;> rfl, rfl, rfl, rfl, rfl⟩ hs2.flags
      obtain ⟨xs1, tr1, b1, b2, b3⟩ := h4.begun hwf hok hs0 hd
      obtain ⟨xs, tr, k1, kx, k2⟩ := h5.episodes hwf hok
      obtain ⟨xs', tr', k3, kx', k4⟩ := h7.episode hwf hok hs2'
      exact ⟨xs1, tr1, m1.conf, es, e', { m2 with evq := q, qlog := m2.qlog ++ [.pop e'] }, xs, tr, xs', tr', b3, k2,
        by rw [k3]; show m2.trace ++ _ = _; rw [k1, b1, a1]; simp only [List.append_assoc],
        by rw [kx']; show m2.xlog ++ _ = _; rw [kx, b2, a2]; simp only [List.append_assoc], k4, hs2'.innermost.1⟩

/-! ## C29 -/

omit hwf hok in
theorem noUnconsumed_tag {t : Option Event} {obs : List Obs} (h : Obs.unconsumed ∉ obs) : Obs.unconsumed ∉ (tag t obs).map (·.2) := by
  unfold tag; rw [map_snd]; exact h

omit hwf hok in
theorem noUnconsumed_destroys {C : Chart} {act : Sid → Bool} {obs : List Obs} (h : DestroysAll C act obs) : Obs.unconsumed ∉ obs := by
  obtain ⟨xs, rfl, _⟩ := h
  simp

omit hwf hok in
/-- When a reaction throws, `unconsumed_event` is not called. -/
theorem noUnconsumed_fatal {C : Chart} {D : Sid → Nat → Event → Decision → Prop} {translate : Exc → Option Event} {e : Event} {l : List Sid}
    {c c' : Conf} {y : Exc} {xs : List Exc} {tr : List (Option Event × Obs)} (h : Fatal C D translate e l c y xs tr c') : Obs.unconsumed ∉ tr.map (·.2) := by
  cases h with
  | died h1 _ h2 _ => exact noUnconsumed_tag (by simp [h1.once, noUnconsumed_destroys h2])
  | rejected h1 _ _ _ h2 h3 _ =>
    simp only [List.map_append, List.mem_append, not_or]
    exact ⟨⟨noUnconsumed_tag h1.once, noUnconsumed_tag h2⟩, noUnconsumed_tag (noUnconsumed_destroys h3)⟩

omit hwf hok in
/-- C29: when the dispatch of an event fails after `unconsumed_event` was called, nothing was entered, exited or destroyed, and all queued events stay queued. -/
theorem C29_unconsumed {e : Event} {y : Exc} {xs : List Exc} {tr : List (Option Event × Obs)} (h : P.Fails e m y xs tr m') (hu : Obs.unconsumed ∈ tr.map (·.2)) :
    m'.act = m.act ∧ m'.leaves = m.leaves ∧ m.evq <+: m'.evq ∧ m'.dq = m.dq ∧ ∀ o ∈ tr, quietObs o.2 = true := by
  rcases h with h | ⟨h, h1, h2, h3, h4⟩
  · exact absurd hu (noUnconsumed_fatal h.1)
  · refine ⟨h1, h2, h3, h4, ?_⟩
    have hq : ∀ {obs : List Obs}, (∀ o ∈ obs, quietObs o = true) → ∀ o ∈ tag (some e) obs, quietObs o.2 = true := by
      intro obs ho o h
      obtain ⟨o', h', rfl⟩ := List.mem_map.1 h
      exact ho o' h'
    have key : ∀ c', Harmless P.toChart P.decides e m.leaves m.conf y xs tr c' → ∀ o ∈ tr, quietObs o.2 = true := by
      intro c' h
      cases h with
      | unconsumed _ _ h5 _ => exact hq (quiet_append h5 (by simp [quietObs]))
      | noMemory _ _ h5 => exact hq h5
    exact key _ h

/-! ## C19 -/

omit hwf hok in
/-- C19: `unconsumed_event` is called exactly once, as the last thing, if every state forwarded; otherwise it is not called. -/
theorem C19_unconsumed {e : Event} {l : List Sid} {c c' : Conf} {xs : List Exc} {tr : List (Option Event × Obs)} (h : P.Episode e l c xs tr c') :
    (∃ obs c1, Sweep P.toChart Forget (.meant P.toChart true) P.decides e l c obs .forward c1 ∧ tr = tag (some e) (obs ++ [.unconsumed]) ∧ Obs.unconsumed ∉ obs) ∨
    (Obs.unconsumed ∉ tr.map (·.2) ∧ ((∃ s obs c1, Broken P.toChart P.decides e l c s obs c1) ∨
      ∃ obs r, r ≠ .forward ∧ Sweep P.toChart Forget (.meant P.toChart true) P.decides e l c obs r c' ∧ tr = tag (some e) obs)) := by
  cases h with
  | @reacted obs r _ h1 h2 h3 => exact .inr ⟨noUnconsumed_tag (Sweep.noUnconsumed h1), .inr ⟨obs, r, h2, h1, rfl⟩⟩
  | @unconsumed obs c1 h h1 h2 h3 h4 => exact .inl ⟨obs, c1, h1, rfl, Sweep.noUnconsumed h1⟩
  | recovered h1 _ _ h2 _ _ =>
    refine .inr ⟨?_, .inl ⟨_, _, _, h1⟩⟩
    simp only [List.map_append, List.mem_append, not_or]
    exact ⟨noUnconsumed_tag h1.once, noUnconsumed_tag (Search.noUnconsumed h2)⟩

/-! ## C17 -/

omit hwf hok in
theorem wlp_withTrig {α : Type} (ev : Option Event) (x : M W α) (Q : α → Mach W → Prop) (E : Exc → Mach W → Prop) :
    wlp (withTrig ev x) Q E m ↔ wlp x (fun a m' => Q a { m' with trig := m.trig }) (fun e m' => E e { m' with trig := m.trig }) { m with trig := ev } := by
  unfold wlp withTrig
  cases x { m with trig := ev } <;> simp

omit hwf hok in
/-- C17: whatever machine an exception is handled in, from the catch until the exception reaction has completed (or thrown) no `exit()` is called. -/
theorem C17_handling (cur : Option Sid) (ev : Event) (x : Exc) (m : Mach W) :
    wlp (handleException P cur ev x) (fun _ m' => ∃ tr, m'.trace = m.trace ++ tr ∧ ∀ o ∈ tr, o.2.isExit = false)
      (fun _ m' => ∃ tr, m'.trace = m.trace ++ tr ∧ ∀ o ∈ tr, o.2.isExit = false) m := by
  unfold handleException
  simp only [wlp_bind, wlp_get]
  by_cases ht : m.terminated = true
  · rw [if_pos ht]
    exact ⟨[], by simp, by simp⟩
  · rw [if_neg ht]
    cases m.handler cur with
    | none => trivial
    | some s =>
      have hk := keepsAt_reactImpl_noExit (P := P) s ev (m := { m with trig := some ev, fullExit := false }) rfl
      simp only [wlp_withTrig, wlp_bind, wlp_modify, wlp_get]
      refine wlp_mono (Q := fun _ m' => NoExit { m with trig := some ev, fullExit := false } m') (E := fun _ m' => NoExit { m with trig := some ev, fullExit := false } m') hk ?_ ?_
      · intro r m2 h
        by_cases hc : r ≠ .discard ∨ m2.pOU ≠ none
        · rw [if_pos hc]; exact h.2
        · rw [if_neg hc]; exact h.2
      · intro y m2 h
        exact h.2

omit hwf hok in
/-- C17: nor by a reaction during which `exit()` calls are suppressed. -/
theorem C17_reaction {C : Chart} {c c' : Conf} {obs : List Obs} (h : Reacts C false c obs c') : ∀ o ∈ obs, o.isExit = false := by
  have hq : ∀ {obs : List Obs}, (∀ o ∈ obs, quietObs o = true) → ∀ o ∈ obs, o.isExit = false := by
    intro obs h o ho
    have := h o ho
    cases o <;> first | rfl | cases this
  have he : ∀ xs : List Sid, ∀ o ∈ exitObs false xs, o.isExit = false := by
    intro xs o ho
    obtain ⟨x, _, ho⟩ := List.mem_flatMap.1 ho
    simp at ho; subst ho; rfl
  have happ : ∀ {a b : List Obs}, (∀ o ∈ a, o.isExit = false) → (∀ o ∈ b, o.isExit = false) → ∀ o ∈ a ++ b, o.isExit = false := by
    intro a b ha hb o ho
    exact (List.mem_append.1 ho).elim (ha o) (hb o)
  cases h with
  | quiet h _ => exact hq h
  | @transition pre obs h c' s d a k t xs ys l h1 _ _ h2 =>
    refine happ (hq h1) ?_
    rw [h2.seen]
    refine happ (happ (happ (he _) ?_) (he _)) ?_
    · cases a <;> simp [acts, Obs.isExit]
    · simp [enterObs, Obs.isExit]
  | termination h1 _ _ h2 =>
    refine happ (hq h1) ?_
    rw [h2.seen]
    exact he _

/-! ## C26 -/

/-- C26: between calls `triggering_event()` is 0. -/
theorem C26_between (h : Reach P m) : m.trig = none := (h.stable hwf hok).2

omit hwf hok in
/-- C26: all that happens during the dispatch of `e` happens while `triggering_event()` is `e`, or an exception event during its reaction. -/
theorem C26_dispatch {e : Event} {l : List Sid} {c c' : Conf} {xs : List Exc} {tr : List (Option Event × Obs)} (h : P.Episode e l c xs tr c') :
    (∃ obs, tr = tag (some e) obs) ∨
    ∃ obs1 c1 x ev s obs2, tr = tag (some e) obs1 ++ tag (some ev) obs2 ∧ P.translate x = some ev ∧
      Search P.toChart Forget (.meant P.toChart false) P.decides ev s c1 obs2 .discard c' := by
  cases h with
  | reacted _ _ _ => exact .inl ⟨_, rfl⟩
  | unconsumed _ _ _ _ => exact .inl ⟨_, rfl⟩
  | recovered _ h2 _ h3 _ _ => exact .inr ⟨_, _, _, _, _, _, rfl, h2, h3⟩

omit hwf hok in
theorem Prog.Episode.block {e : Event} {l : List Sid} {c c' : Conf} {xs : List Exc} {tr : List (Option Event × Obs)} (h : P.Episode e l c xs tr c') :
    Block P.translate (some e) tr := by
  cases h with
  | reacted _ _ _ => exact .plain _
  | unconsumed _ _ _ _ => exact .plain _
  | recovered _ h2 _ _ _ _ => exact .handled h2 _ _

omit hwf hok in
theorem Prog.Fails.block {e : Event} {y : Exc} {xs : List Exc} {tr : List (Option Event × Obs)} (h : P.Fails e m y xs tr m') : Block P.translate (some e) tr := by
  have h1 : ∀ {c'}, Fatal P.toChart P.decides P.translate e m.leaves m.conf y xs tr c' → Block P.translate (some e) tr := by
    intro c' h
    cases h with
    | died _ _ _ _ => exact .plain _
    | rejected _ h2 _ _ _ _ _ => exact .exception h2 _ _ _
  have h2 : ∀ {c'}, Harmless P.toChart P.decides e m.leaves m.conf y xs tr c' → Block P.translate (some e) tr := by
    intro c' h
    cases h with
    | unconsumed _ _ _ _ => exact .plain _
    | noMemory _ _ _ => exact .plain _
  rcases h with ⟨h, _⟩ | ⟨h, _⟩
  · exact h1 h
  · exact h2 h

omit hwf hok in
theorem Prog.Episodes.blocks {es : List Event} {c c' : Conf} {xs : List Exc} {tr : List (Option Event × Obs)} (h : P.Episodes es c xs tr c') :
    Blocks P.translate (es.map some) tr := by
  induction h with
  | nil => exact .nil
  | cons _ h1 _ ih => exact .cons (Prog.Episode.block h1) ih

omit hwf hok in
theorem Spec.Recovered.block {B : Conf → List Obs → Prop} {c c' : Conf} {xs : List Exc} {tr : List (Option Event × Obs)}
    (h : Recovered P.toChart P.decides P.translate B c xs tr c') : Block P.translate none tr := by
  cases h with
  | intro _ _ h2 _ _ _ _ => exact .handled h2 _ _

omit hwf hok in
theorem Spec.Aborted.block {B : Conf → List Obs → Prop} {c c' : Conf} {y : Exc} {xs : List Exc} {tr : List (Option Event × Obs)}
    (h : Aborted P.toChart P.decides P.translate B c y xs tr c') : Block P.translate none tr := by
  cases h with
  | died _ _ _ _ _ => exact .plain _
  | rejected _ _ h2 _ _ _ _ _ => exact .exception h2 _ _ _

omit hwf hok in
theorem Spec.Ended.block {c c' : Conf} {xs : List Exc} {tr : List (Option Event × Obs)} (h : Ended P.toChart P.decides P.translate c xs tr c') :
    Block P.translate none tr := by
  cases h with
  | exited _ _ => exact .plain _
  | recovered h _ => exact h.block

omit hwf hok in
theorem Spec.Begun.block {c c' : Conf} {xs : List Exc} {tr : List (Option Event × Obs)} (h : Begun P.toChart P.decides P.translate c xs tr c') :
    Block P.translate none tr := by
  cases h with
  | entered _ _ => exact .plain _
  | recovered h => exact h.block

/-- C26: during `process_event(e)`, whether it returns or throws, `triggering_event()` is `e` and then each of the events taken from the queue, in this order,
but for exception events while they are handled. -/
theorem C26_process_event {e : Event} {k : Nat} (h : Reach P m)
    (hr : (∃ b, processEvent P e k m = .ok b m') ∨ ∃ y, processEvent P e k m = .thrown y m') :
    ∃ tr ops, m'.trace = m.trace ++ tr ∧ m'.qlog = m.qlog ++ ops ∧ recvs ops = [e] ∧ Blocks P.translate (some e :: (pops ops).map some) tr := by
  rcases hr with ⟨b, hr⟩ | ⟨y, hr⟩
  · obtain ⟨es, xs1, tr1, c1, xs2, tr2, h1, _, h3, h4, _, ops, h5, h6, rfl⟩ := process_event_returns hwf hok h hr
    exact ⟨_, ops, h1, h5, h6, .cons (Prog.Episode.block h3) (Prog.Episodes.blocks h4)⟩
  · obtain ⟨es, e', m0, xs, tr, xs', tr', h1, h2, _, h4, ops, h5, h6, h7⟩ := C15_process_event hwf hok h hr
    refine ⟨_, ops, h2, h5, h6, ?_⟩
    have e1 : some e :: (pops ops).map some = es.map some ++ [some e'] := by
      rw [← List.map_cons, h7, List.map_append]; rfl
    rw [e1]
    exact (Prog.Episodes.blocks h1).append (.one h4.block)

/-- C26: during `terminate()` it is 0, but for an exception event while it is handled. -/
theorem C26_terminate (h : Reach P m) (hr : terminate P m = .ok () m' ∨ ∃ y, terminate P m = .thrown y m') :
    ∃ tr, m'.trace = m.trace ++ tr ∧ Block P.translate none tr := by
  rcases hr with hr | ⟨y, hr⟩
  · rcases C13_terminate hwf hok h hr with ⟨xs, h1, _⟩ | ⟨_, tr, h1, _, h2⟩
    · exact ⟨_, h1, .plain _⟩
    · exact ⟨tr, h1, h2.block⟩
  · obtain ⟨⟨xs, tr, h1, _, h2⟩, _⟩ := C15_terminate hwf hok h hr
    exact ⟨tr, h1, h2.block⟩

/-- C26: the same for `initiate()`, while the old states are left and while the initial states are entered; then it is each of the events posted meanwhile. -/
theorem C26_initiate {k : Nat} (h : Reach P m) (hl : (Call.initiate k).legal P m)
    (hr : (∃ b, initiate P k m = .ok b m') ∨ ∃ y, initiate P k m = .thrown y m') :
    ∃ (tr : List (Option Event × Obs)) (es : List Event), m'.trace = m.trace ++ tr ∧ Blocks P.translate (none :: none :: es.map some) tr := by
  rcases hr with ⟨b, hr⟩ | ⟨y, hr⟩
  · obtain ⟨_, tr0, _, _, tr1, _, es, _, tr2, h1, _, h2, h3, h4, _⟩ := initiate_returns hwf hok h hl hr
    exact ⟨_, es, h1, .cons h2.block (.cons h3.block (Prog.Episodes.blocks h4))⟩
  · rcases C15_initiate hwf hok h hl hr with ⟨⟨_, tr, h1, _, h2⟩, _⟩ | ⟨_, tr0, _, h0, ⟨⟨_, tr, h1, _, h2⟩, _⟩ | ⟨_, tr1, _, es, e', m0, _, tr, _, tr', h1, h2, h3, _, h4, _⟩⟩
    · exact ⟨tr, [], h1, by rw [← List.append_nil tr]; exact .cons h2.block (.one (.plain []))⟩
    · exact ⟨_, [], h1, .cons h0.block (.one h2.block)⟩
    · refine ⟨_, es ++ [e'], h3, .cons h0.block (.cons h1.block ?_)⟩
      rw [List.map_append]
      exact (Prog.Episodes.blocks h2).append (.one h4.block)

end
end SC

namespace SC.Ex
open Spec Chart

/-- C36 is false in general: `exit()` of C (2) throws while `initiate()` terminates the running machine. The exception event is handled by a transition to I (8).
`terminate()` returns normally, so `initiate()` goes on to construct the initial state. Now there are two outermost states. -/
theorem C36_two_outermost : ∃ m m' : Mach Nat, Reach prog m ∧ initiate prog 0 m = .ok true m' ∧ m'.act 0 = true ∧ m'.act 8 = true ∧
    prog.parent 0 = none ∧ prog.parent 8 = none := by
  obtain ⟨m, h1, h2⟩ := scenario_ex (P := prog) [(0, .initiate 0)] 2
    (fun m => match initiate prog 0 m with
      | .ok b m' => b && m'.act 0 && m'.act 8
      | _ => false) (by decide +kernel)
  cases h3 : initiate prog 0 m with
  | ok b m' =>
    rw [h3] at h2
    simp only [Bool.and_eq_true] at h2
    obtain ⟨⟨rfl, h4⟩, h5⟩ := h2
    exact ⟨m, m', h1, h3, h4, h5, rfl, rfl⟩
  | thrown _ _ => rw [h3] at h2; cases h2
  | fault _ => rw [h3] at h2; cases h2

/-- After that, `terminate()` without any exception leaves I active, although `terminated()` returns true: the pointer to the outermost state was overwritten. The
body of `~state_machine()` does not destroy I either; this happens only when the member `currentStates_` is destroyed. -/
theorem C36_zombie : ∃ m m' m1 m2 m3 : Mach Nat, Reach prog m ∧ initiate prog 0 m = .ok true m' ∧ terminate prog { m' with world := 0 } = .ok () m1 ∧
    m1.terminated = true ∧ m1.act 8 = true ∧ m1.xlog = m'.xlog ∧ destruct prog m1 = .ok () m2 ∧ m2.act 8 = true ∧ destruct prog m' = .ok () m3 ∧ m3.act 8 = true := by
  obtain ⟨m, h1, h2⟩ := scenario_ex (P := prog) [(0, .initiate 0)] 2
    (fun m => match initiate prog 0 m with
      | .ok b m' => b && (match destruct prog m' with
          | .ok _ m3 => m3.act 8
          | _ => false) && match terminate prog { m' with world := 0 } with
        | .ok _ m1 => m1.terminated && m1.act 8 && m1.xlog == m'.xlog && match destruct prog m1 with
          | .ok _ m2 => m2.act 8
          | _ => false
        | _ => false
      | _ => false) (by decide +kernel)
  cases h3 : initiate prog 0 m with
  | thrown _ _ => rw [h3] at h2; cases h2
  | fault _ => rw [h3] at h2; cases h2
  | ok b m' =>
    simp only [h3, Bool.and_eq_true] at h2
    obtain ⟨⟨rfl, h4⟩, h5⟩ := h2
    cases h6 : destruct prog m' with
    | thrown _ _ => rw [h6] at h4; cases h4
    | fault _ => rw [h6] at h4; cases h4
    | ok a m3 =>
      simp only [h6] at h4
      cases h7 : terminate prog { m' with world := 0 } with
      | thrown _ _ => rw [h7] at h5; cases h5
      | fault _ => rw [h7] at h5; cases h5
      | ok a m1 =>
        simp only [h7, Bool.and_eq_true, beq_iff_eq] at h5
        obtain ⟨⟨⟨g1, g2⟩, g3⟩, g4⟩ := h5
        cases h8 : destruct prog m1 with
        | thrown _ _ => rw [h8] at g4; cases g4
        | fault _ => rw [h8] at g4; cases g4
        | ok a m2 =>
          simp only [h8] at g4
          exact ⟨m, m', m1, m2, m3, h1, h3, h7, g1, g2, g3, h8, g4, h6, h4⟩

/-- `initiate()` on a running machine: legal, returns or throws, with these observations. -/
def restarts (P : Prog Nat) (ok : Bool) (obs : List Obs) (m : Mach Nat) : Bool :=
  (match terminate P m with
    | .ok _ m1 => m1.terminated
    | _ => true) && !m.terminated &&
  match initiate P 0 m with
  | .ok _ m' => ok && decide (m'.trace.map (·.2) = m.trace.map (·.2) ++ obs)
  | .thrown _ m' => !ok && decide (m'.trace.map (·.2) = m.trace.map (·.2) ++ obs)
  | .fault _ => false

theorem of_restarts {P : Prog Nat} {ok : Bool} {obs : List Obs} {m : Mach Nat} (h : restarts P ok obs m = true) : m.terminated = false ∧ (Call.initiate 0).legal P m ∧
    ∃ m', m'.trace.map (·.2) = m.trace.map (·.2) ++ obs ∧ ((ok = true ∧ ∃ b, initiate P 0 m = .ok b m') ∨ (ok = false ∧ ∃ y, initiate P 0 m = .thrown y m')) := by
  simp only [restarts, Bool.and_eq_true, Bool.not_eq_true'] at h
  obtain ⟨⟨h1, h2⟩, h3⟩ := h
  refine ⟨h2, fun m1 hr => by rw [hr] at h1; exact h1, ?_⟩
  cases hr : initiate P 0 m with
  | ok b m' =>
    simp only [hr, Bool.and_eq_true, decide_eq_true_eq] at h3
    exact ⟨m', h3.2, .inl ⟨h3.1, b, rfl⟩⟩
  | thrown y m' =>
    simp only [hr, Bool.and_eq_true, decide_eq_true_eq, Bool.not_eq_true'] at h3
    exact ⟨m', h3.2, .inr ⟨h3.1, y, rfl⟩⟩
  | fault _ => rw [hr] at h3; cases h3

/-- `initiate()` on a running machine that returns. -/
example : ∃ m m' : Mach Nat, Reach prog m ∧ m.terminated = false ∧ (Call.initiate 0).legal prog m ∧ (∃ b, initiate prog 0 m = .ok b m') ∧
    m'.trace.map (·.2) = m.trace.map (·.2) ++ [.exit 8, .destroy 8, .enter 0, .enter 1, .enter 2, .enter 4, .enter 5, .enter 6] := by
  obtain ⟨m, h1, h2⟩ := scenario_ex (P := prog) [(0, .initiate 0), (0, .process ⟨1, 0⟩ 0), (0, .process ⟨5, 0⟩ 5)] 0
    (restarts prog true [.exit 8, .destroy 8, .enter 0, .enter 1, .enter 2, .enter 4, .enter 5, .enter 6]) (by decide +kernel)
  obtain ⟨h3, h4, m', h5, ⟨_, h6⟩ | ⟨h6, _⟩⟩ := of_restarts h2
  · exact ⟨m, m', h1, h3, h4, h6, h5⟩
  · cases h6

/-- `initiate()` on a running machine that throws while it terminates the machine: `exit()` of C (2) throws. -/
example : ∃ m m' : Mach Nat, Reach prog m ∧ m.terminated = false ∧ (Call.initiate 0).legal prog m ∧ (∃ y, initiate prog 0 m = .thrown y m') ∧
    m'.trace.map (·.2) = m.trace.map (·.2) ++ [.exit 6, .destroy 6, .exit 5, .destroy 5, .exit 4, .destroy 4, .exitFail 2, .destroy 2, .destroy 1, .destroy 0] := by
  obtain ⟨m, h1, h2⟩ := scenario_ex (P := prog) [(0, .initiate 0)] 6
    (restarts prog false [.exit 6, .destroy 6, .exit 5, .destroy 5, .exit 4, .destroy 4, .exitFail 2, .destroy 2, .destroy 1, .destroy 0]) (by decide +kernel)
  obtain ⟨h3, h4, m', h5, ⟨h6, _⟩ | ⟨_, h6⟩⟩ := of_restarts h2
  · cases h6
  · exact ⟨m, m', h1, h3, h4, h6, h5⟩

/-- The program with another reaction to the exception event: A (0) is terminated. -/
def prog2 : Prog Nat := { prog with reactions := fun s => if s = 0 then [⟨some 9, .termination⟩] else chart.reactions s }

theorem wf2 : prog2.toChart.WF := Chart.wf_of_check _ (by decide)

theorem contract2 : Contract prog2 := by
  constructor
  · intro s v w _; rfl
  · intro s r e v w d a h
    have h' : (match e.val with
      | 0 => Decision.discard
      | 1 => .forward
      | 2 => .defer
      | 3 => if s = 2 then .transit ⟨.plain, 3⟩ none else .discard
      | _ => .terminate) = .transit d a := h
    split at h'
    · cases h'
    · cases h'
    · cases h'
    · split at h'
      · next hs =>
        subst hs
        cases h'
        decide
      · cases h'
    · cases h'

/-- **C25, C36, finding:** `initiate()` on a running machine can restore history. D (3) was exited last in B (1), now C (2) is active. While `initiate()` terminates the machine, `exit()` of C
throws; the reaction to the exception event terminates A. So `terminate()` returns without having cleared history, and instead of C the initial entry enters D. -/
theorem C25_history_survives : ∃ m m' : Mach Nat, Reach prog2 m ∧ m.terminated = false ∧ (Call.initiate 0).legal prog2 m ∧ (∃ b, initiate prog2 0 m = .ok b m') ∧
    initialTree prog2.toChart prog2.initial = [0, 1, 2, 4, 5, 6] ∧
    m'.trace.map (·.2) = m.trace.map (·.2) ++ [.exit 6, .destroy 6, .exit 5, .destroy 5, .exit 4, .destroy 4, .exitFail 2, .destroy 2, .destroy 1, .destroy 0,
      .enter 0, .enter 1, .enter 3, .enter 4, .enter 5, .enter 6] := by
  obtain ⟨m, h1, h2⟩ := scenario_ex (P := prog2) [(0, .initiate 0), (0, .process ⟨1, 0⟩ 0), (0, .process ⟨1, 0⟩ 0)] 2
    (restarts prog2 true [.exit 6, .destroy 6, .exit 5, .destroy 5, .exit 4, .destroy 4, .exitFail 2, .destroy 2, .destroy 1, .destroy 0,
      .enter 0, .enter 1, .enter 3, .enter 4, .enter 5, .enter 6]) (by decide +kernel)
  obtain ⟨h3, h4, m', h5, ⟨_, h6⟩ | ⟨h6, _⟩⟩ := of_restarts h2
  · exact ⟨m, m', h1, h3, h4, h6, by decide +kernel, h5⟩
  · cases h6

/-- The call ended with an exception. -/
def isThrown {W α : Type} : Res W α → Bool
  | .thrown _ _ => true
  | _ => false

theorem of_isThrown {W α : Type} {r : Res W α} (h : isThrown r = true) : ∃ x m, r = .thrown x m := by
  cases r with
  | thrown a m => exact ⟨a, m, rfl⟩
  | ok _ _ => cases h
  | fault _ => cases h

/-- `terminate()` of a running machine returns (C13). -/
example : ∃ m m' : Mach Nat, Reach prog m ∧ m.act 2 = true ∧ terminate prog m = .ok () m' := by
  obtain ⟨m, h1, h2⟩ := scenario_ex (P := prog) [(0, .initiate 0)] 0 (fun m => m.act 2 && isOk (terminate prog m)) (by decide +kernel)
  simp only [Bool.and_eq_true] at h2
  obtain ⟨_, m', h3⟩ := of_isOk h2.2
  exact ⟨m, m', h1, h2.1, h3⟩

/-- An `exit()` throws during `terminate()`; the exception event is handled (C13). -/
example : ∃ m m' : Mach Nat, Reach prog m ∧ terminate prog m = .ok () m' ∧ m'.act 8 = true := by
  obtain ⟨m, h1, h2⟩ := scenario_ex (P := prog) [(0, .initiate 0)] 2 (fun m => match terminate prog m with
    | .ok _ m' => m'.act 8
    | _ => false) (by decide +kernel)
  cases h3 : terminate prog m with
  | ok a m' => rw [h3] at h2; exact ⟨m, m', h1, h3, h2⟩
  | thrown _ _ => rw [h3] at h2; cases h2
  | fault _ => rw [h3] at h2; cases h2

/-- An `exit()` throws during `terminate()`; the exception is not translated (C15). -/
example : ∃ (m m' : Mach Nat) (y : Exc), Reach prog m ∧ m.act 2 = true ∧ terminate prog m = .thrown y m' := by
  obtain ⟨m, h1, h2⟩ := scenario_ex (P := prog) [(0, .initiate 0)] 6 (fun m => m.act 2 && isThrown (terminate prog m)) (by decide +kernel)
  simp only [Bool.and_eq_true] at h2
  obtain ⟨y, m', h3⟩ := of_isThrown h2.2
  exact ⟨m, m', y, h1, h2.1, h3⟩

/-- `initiate()` of a terminated machine (C09). -/
example : ∃ m m' : Mach Nat, Reach prog m ∧ m.terminated = true ∧ initiate prog 0 m = .ok true m' ∧ m'.act 6 = true := by
  obtain ⟨m, h1, h2⟩ := scenario_ex (P := prog) [(0, .initiate 0), (0, .terminate)] 0 (fun m => m.terminated && match initiate prog 0 m with
    | .ok b m' => b && m'.act 6
    | _ => false) (by decide +kernel)
  simp only [Bool.and_eq_true] at h2
  cases h3 : initiate prog 0 m with
  | ok b m' =>
    rw [h3] at h2
    simp only [Bool.and_eq_true] at h2
    obtain ⟨h4, rfl, h5⟩ := h2
    exact ⟨m, m', h1, h4, h3, h5⟩
  | thrown _ _ => rw [h3] at h2; cases h2.2
  | fault _ => rw [h3] at h2; cases h2.2

/-- The example program without exception translation. -/
def progNull : Prog Nat := { prog with translate := fun _ => none }

theorem contractNull : Contract progNull := ⟨contract.ctor, contract.react⟩

/-- `initiate()` of a running machine without exception translation (C36). -/
example : ∃ m m' : Mach Nat, (∀ x, progNull.translate x = none) ∧ Reach progNull m ∧ m.act 2 = true ∧ initiate progNull 0 m = .ok true m' := by
  obtain ⟨m, h1, h2⟩ := scenario_ex (P := progNull) [(0, .initiate 0)] 0 (fun m => m.act 2 && match initiate progNull 0 m with
    | .ok b _ => b
    | _ => false) (by decide +kernel)
  simp only [Bool.and_eq_true] at h2
  cases h3 : initiate progNull 0 m with
  | ok b m' =>
    rw [h3] at h2
    simp only at h2
    obtain ⟨h4, rfl⟩ := h2
    exact ⟨m, m', fun _ => rfl, h1, h4, h3⟩
  | thrown _ _ => rw [h3] at h2; cases h2.2
  | fault _ => rw [h3] at h2; cases h2.2

/-- A constructor throws during `initiate()` and the exception is not translated (C15). -/
example : ∃ (m m' : Mach Nat) (y : Exc), Reach prog m ∧ m.terminated = true ∧ initiate prog 0 m = .thrown y m' := by
  obtain ⟨m, h1, h2⟩ := scenario_ex (P := prog) [] 7 (fun m => m.terminated && isThrown (initiate prog 0 m)) (by decide +kernel)
  simp only [Bool.and_eq_true] at h2
  obtain ⟨y, m', h3⟩ := of_isThrown h2.2
  exact ⟨m, m', y, h1, h2.1, h3⟩

/-- A reaction throws, its exception is not translated (C15). -/
example : ∃ (m m' : Mach Nat) (y : Exc), Reach prog m ∧ m.act 2 = true ∧ processEvent prog ⟨1, 0⟩ 0 m = .thrown y m' ∧ m'.terminated = true := by
  obtain ⟨m, h1, h2⟩ := scenario_ex (P := prog) [(0, .initiate 0)] 6 (fun m => m.act 2 && match processEvent prog ⟨1, 0⟩ 0 m with
    | .thrown _ m' => m'.terminated
    | _ => false) (by decide +kernel)
  simp only [Bool.and_eq_true] at h2
  cases h3 : processEvent prog ⟨1, 0⟩ 0 m with
  | thrown y m' => rw [h3] at h2; exact ⟨m, m', y, h1, h2.1, h3, h2.2⟩
  | ok _ _ => rw [h3] at h2; cases h2.2
  | fault _ => rw [h3] at h2; cases h2.2

/-- `unconsumed_event` throws while an event is queued (C29). -/
example : ∃ (m m' : Mach Nat) (y : Exc), Reach prog m ∧ m.act 2 = true ∧ m.evq ≠ [] ∧ processEvent prog ⟨50, 0⟩ 0 m = .thrown y m' ∧
    m'.act 2 = true ∧ m'.trace.map (·.2) = m.trace.map (·.2) ++ [.unconsumed] := by
  obtain ⟨m, h1, h2⟩ := scenario_ex (P := prog) [(0, .initiate 0), (0, .post ⟨1, 0⟩)] 4 (fun m => m.act 2 && !m.evq.isEmpty && match processEvent prog ⟨50, 0⟩ 0 m with
    | .thrown _ m' => m'.act 2 && decide (m'.trace.map (·.2) = m.trace.map (·.2) ++ [.unconsumed])
    | _ => false) (by decide +kernel)
  simp only [Bool.and_eq_true] at h2
  cases h3 : processEvent prog ⟨50, 0⟩ 0 m with
  | thrown y m' =>
    rw [h3] at h2
    simp only [Bool.and_eq_true, decide_eq_true_eq] at h2
    exact ⟨m, m', y, h1, h2.1.1, by intro h; rw [h] at h2; exact absurd h2.1.2 (by simp), h3, h2.2.1, h2.2.2⟩
  | ok _ _ => rw [h3] at h2; cases h2.2
  | fault _ => rw [h3] at h2; cases h2.2

/-- An exception is thrown during a transition, translated, and handled (C17, C18, C26). -/
example : ∃ (m m' : Mach Nat), Reach prog m ∧ m.act 2 = true ∧ processEvent prog ⟨1, 0⟩ 0 m = .ok true m' ∧ m'.act 8 = true ∧ Obs.enterFail 3 ∈ m'.trace.map (·.2) := by
  obtain ⟨m, h1, h2⟩ := scenario_ex (P := prog) [(0, .initiate 0)] 1 (fun m => m.act 2 && match processEvent prog ⟨1, 0⟩ 0 m with
    | .ok b m' => b && m'.act 8 && decide (Obs.enterFail 3 ∈ m'.trace.map (·.2))
    | _ => false) (by decide +kernel)
  simp only [Bool.and_eq_true] at h2
  cases h3 : processEvent prog ⟨1, 0⟩ 0 m with
  | ok b m' =>
    rw [h3] at h2
    simp only [Bool.and_eq_true, decide_eq_true_eq] at h2
    obtain ⟨h4, ⟨rfl, h5⟩, h6⟩ := h2
    exact ⟨m, m', h1, h4, h3, h5, h6⟩
  | thrown _ _ => rw [h3] at h2; cases h2.2
  | fault _ => rw [h3] at h2; cases h2.2

end SC.Ex
