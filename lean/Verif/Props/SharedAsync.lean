import Verif.Fifo.AsyncShared
import Verif.Props.Async
import Verif.Props.SharedServe

/-!
# C51: asynchronous state machines and several threads
-/

namespace SC.Fifo

open Spec

variable {V : Type} {A : Fleet V}

theorem AShared.shared {wait : Bool} {m : Wk Op (Ct (Yard V))} (h : AShared wait A m) : Shared OnlyEnv wait A.beh m := by
  induction h with
  | fresh v => exact .fresh _
  | other _ he ih => exact .other ih he
  | client k c _ hr ih => exact .client k c.lift ih hr

theorem Quiet.env {m m' : Wk Op (Ct (Yard V))} (h : Env OnlyEnv m m') : Quiet m m' := by
  cases h with
  | create a => exact ⟨rfl, rfl, rfl, rfl, rfl, rfl⟩
  | destroy d => exact .queue _ m
  | deliver o d => exact .queue _ m
  | item i => exact .queue _ m
  | terminate => exact .queue _ m
  | user w _ hu => obtain ⟨v, rfl⟩ := hu; exact ⟨rfl, rfl, rfl, rfl, rfl, rfl⟩

theorem Quiet.others {m m' : Wk Op (Ct (Yard V))} (h : Others OnlyEnv m m') : Quiet m m' := by
  induction h with
  | refl => exact .refl _
  | step _ he ih => exact ih.trans (.env he)

theorem Calm.env {m m' : Wk Op (Ct (Yard V))} (h : Env OnlyEnv m m') : Calm m m' := by
  cases h with
  | create a =>
    exact Calm.trans (b := { m with st := { m.st with
          next := m.st.next + 1
          refs := upd m.st.refs m.st.next 1 } }) ⟨Nat.le_succ _, fun h hh => upd_ne _ _ (Nat.ne_of_lt hh), [], (List.append_nil _).symm⟩ (.enqueue _ _)
  | destroy d => exact .enqueue _ m
  | deliver o d => exact .enqueue _ m
  | item i => exact .enqueue _ m
  | terminate => exact .enqueue _ m
  | user w => exact ⟨Nat.le_refl _, fun _ _ => rfl, [], (List.append_nil _).symm⟩

theorem Calm.others {m m' : Wk Op (Ct (Yard V))} (h : Others OnlyEnv m m') : Calm m m' := by
  induction h with
  | refl => exact .refl _
  | step _ he ih => exact ih.trans (.env he)

/-- Flat code that has no access to the machines comes to its end, and does not touch them. -/
theorem lift_runS {lp : Nat → Wk Op (Ct (Yard V)) → Out Op (Ct (Yard V)) Nat → Prop} {c : Code V} (h : c.Flat)
    (kr : Prog Op (Ct (Yard V))) (kt : Nat → Prog Op (Ct (Yard V))) (m : Wk Op (Ct (Yard V))) (o : Out Op (Ct (Yard V)) Unit)
    (he : execS OnlyEnv lp (c.lift.run kr kt) m o) :
    Still o ∨ ∃ m', (Quiet m m' ∧ Calm m m') ∧ (execS OnlyEnv lp kr m' o ∨ ∃ x, execS OnlyEnv lp (kt x) m' o) := by
  have after : ∀ {m m1 : Wk Op (Ct (Yard V))}, Others OnlyEnv m m1 →
      (Still o ∨ ∃ m', (Quiet m1 m' ∧ Calm m1 m') ∧ (execS OnlyEnv lp kr m' o ∨ ∃ x, execS OnlyEnv lp (kt x) m' o)) →
      Still o ∨ ∃ m', (Quiet m m' ∧ Calm m m') ∧ (execS OnlyEnv lp kr m' o ∨ ∃ x, execS OnlyEnv lp (kt x) m' o) := by
    intro m m1 hs hx
    rcases hx with hx | ⟨m', h1, h2⟩
    · exact .inl hx
    · exact .inr ⟨m', ⟨(Quiet.others hs).trans h1.1, (Calm.others hs).trans h1.2⟩, h2⟩
  have one : ∀ {m m1 m2 : Wk Op (Ct (Yard V))}, Env OnlyEnv m m1 → Others OnlyEnv m1 m2 → Others OnlyEnv m m2 :=
    fun h1 h2 => Others.trans (.step (.refl _) h1) h2
  induction h generalizing m with
  | ret => exact .inr ⟨m, ⟨.refl m, .refl m⟩, .inl he⟩
  | throw x => exact .inr ⟨m, ⟨.refl m, .refl m⟩, .inr ⟨x, he⟩⟩
  | create a _ ih =>
    obtain ⟨m1, h1, rfl | he⟩ := he
    · exact .inl ⟨_, rfl⟩
    rw [execS] at he
    obtain ⟨m2, h2, rfl | he⟩ := he
    · exact .inl ⟨_, rfl⟩
    exact after (h1.trans (one (.create a m1) h2)) (ih _ m2 he)
  | destroy d _ ih =>
    obtain ⟨m1, h1, rfl | he⟩ := he
    · exact .inl ⟨_, rfl⟩
    obtain ⟨m2, h2, rfl | he⟩ := he
    · exact .inl ⟨_, rfl⟩
    exact after (h1.trans (one (.destroy d m1) h2)) (ih m2 he)
  | deliver op d _ ih =>
    obtain ⟨m1, h1, rfl | he⟩ := he
    · exact .inl ⟨_, rfl⟩
    obtain ⟨m2, h2, rfl | he⟩ := he
    · exact .inl ⟨_, rfl⟩
    exact after (h1.trans (one (.deliver op d m1) h2)) (ih m2 he)
  | item i _ ih =>
    obtain ⟨m0, h0, rfl | he⟩ := he
    · exact .inl ⟨_, rfl⟩
    obtain ⟨m1, h1, rfl | he⟩ := he
    · exact .inl ⟨_, rfl⟩
    cases i with
    | none => exact after (h0.trans h1) (ih m1 he)
    | some i => exact after (h0.trans (one (.item i m0) h1)) (ih m1 he)
  | terminate _ ih =>
    obtain ⟨m0, h0, rfl | he⟩ := he
    · exact .inl ⟨_, rfl⟩
    obtain ⟨m1, h1, rfl | he⟩ := he
    · exact .inl ⟨_, rfl⟩
    exact after (h0.trans (one (.terminate m0) h1)) (ih m1 he)
  | terminated _ ih =>
    obtain ⟨m1, h1, rfl | he⟩ := he
    · exact .inl ⟨_, rfl⟩
    exact after h1 (ih _ m1 he)
  | get _ ih =>
    obtain ⟨m1, h1, rfl | he⟩ := he
    · exact .inl ⟨_, rfl⟩
    exact after h1 (ih _ m1 he)
  | put w _ ih =>
    obtain ⟨m1, h1, rfl | he⟩ := he
    · exact .inl ⟨_, rfl⟩
    obtain ⟨m2, h2, rfl | he⟩ := he
    · exact .inl ⟨_, rfl⟩
    rw [execS] at he
    rcases ih _ he with hx | ⟨m', ⟨g1, g2⟩, g3⟩
    · exact .inl hx
    have q1 := Quiet.others h1
    have q2 := Quiet.others h2
    have c12 := (Calm.others h1).trans (Calm.others h2)
    refine .inr ⟨m', ⟨⟨?_, ?_, ?_, ?_, ?_, ?_⟩, ?_⟩, g3⟩
    · exact g1.log.trans (q2.log.trans q1.log)
    · exact g1.full.trans (q2.full.trans q1.full)
    · exact g1.mach.trans q1.mach
    · exact g1.gone.trans q1.gone
    · exact g1.bad.trans q1.bad
    · exact g1.fault.trans q1.fault
    · exact c12.trans ⟨g2.next, g2.refs, g2.queue⟩

/-- Writing the state of the code. -/
theorem putS {W : Type} {U : W → W → Prop} {lp : Nat → Wk Op (Ct W) → Out Op (Ct W) Nat → Prop} {y : W} {c : Code W} {kr : Prog Op (Ct W)} {kt : Nat → Prog Op (Ct W)}
    {m : Wk Op (Ct W)} {o : Out Op (Ct W) Unit} (he : execS U lp ((Code.put y c).run kr kt) m o) :
    Still o ∨ ∃ m1, Others U m m1 ∧ execS U lp (c.run kr kt) { m1 with st := { m1.st with user := y } } o := by
  obtain ⟨m1, h1, rfl | he⟩ := he
  · exact .inl ⟨_, rfl⟩
  · exact .inr ⟨m1, h1, he⟩

/-- Unless the code has not come to its end, it leaves the invariant. -/
def Tidy {α : Type} (A : Fleet V) (o : Out Op (Ct (Yard V)) α) : Prop := Still o ∨ AInv' A o.wk

/-- What holds while the destructor of a machine runs. -/
def Dying (A : Fleet V) (h : Nat) (m : Wk Op (Ct (Yard V))) : Prop := m.st.user.bad = false →
  (∀ h', h' ≠ h → Kept A m.st h') ∧ m.st.full h = false ∧
  (∃ a l mm log, m.st.user.mach h = some (a, mm) ∧ m.st.log = log ++ [.gone h] ∧ feed h log = some (a, l) ∧ Fed A a l mm) ∧
  (∀ x ∈ m.st.user.gone, Buried A m.st.log x) ∧ m.st.user.gone.map (·.1) ++ [h] = m.st.log.filterMap goneOf ∧ m.st.user.fault = false

theorem Dying.quiet {h : Nat} {m m' : Wk Op (Ct (Yard V))} (hi : Dying A h m) (hq : Quiet m m') : Dying A h m' := by
  intro hb
  obtain ⟨h1, h2, h3, h4, h5, h6⟩ := hi (by rw [← hq.bad]; exact hb)
  refine ⟨fun h' hh => (h1 h' hh).congr (by rw [hq.full]) (by rw [hq.mach]) (by rw [hq.log]), ?_, ?_, ?_, ?_, ?_⟩
  · rw [hq.full]; exact h2
  · rw [hq.mach, hq.log]; exact h3
  · rw [hq.gone, hq.log]; exact h4
  · rw [hq.gone, hq.log]; exact h5
  · rw [hq.fault]; exact h6

/-- What holds while a machine is given an operation. -/
def Given (A : Fleet V) (o : HOp) (h : Nat) (m : Wk Op (Ct (Yard V))) : Prop := m.st.user.bad = false →
  (∀ h', h' ≠ h → Kept A m.st h') ∧ m.st.full h = true ∧
  (∃ a l mm, m.st.user.mach h = some (a, mm) ∧ feed h m.st.log = some (a, l ++ [o]) ∧ Fed A a l mm) ∧
  (∀ x ∈ m.st.user.gone, Buried A m.st.log x) ∧ m.st.user.gone.map (·.1) = m.st.log.filterMap goneOf ∧ m.st.user.fault = false

theorem Given.quiet {o : HOp} {h : Nat} {m m' : Wk Op (Ct (Yard V))} (hi : Given A o h m) (hq : Quiet m m') : Given A o h m' := by
  intro hb
  obtain ⟨h1, h2, h3, h4, h5, h6⟩ := hi (by rw [← hq.bad]; exact hb)
  refine ⟨fun h' hh => (h1 h' hh).congr (by rw [hq.full]) (by rw [hq.mach]) (by rw [hq.log]), ?_, ?_, ?_, ?_, ?_⟩
  · rw [hq.full]; exact h2
  · rw [hq.mach, hq.log]; exact h3
  · rw [hq.gone, hq.log]; exact h4
  · rw [hq.gone, hq.log]; exact h5
  · rw [hq.fault]; exact h6

section
variable (hwf : ∀ a, (A.prog a).toChart.WF) (hok : ∀ a, Contract (A.prog a)) (hA : A.Flat)
include hwf hok hA

/-- The destructor of a machine. -/
theorem unmake_runS {lp : Nat → Wk Op (Ct (Yard V)) → Out Op (Ct (Yard V)) Nat → Prop} {h : Nat} {m : Wk Op (Ct (Yard V))}
    (kr : Prog Op (Ct (Yard V))) {o : Out Op (Ct (Yard V)) Unit} (hi : Dying A h m) (he : execS OnlyEnv lp ((A.unmake h).run kr (fun _ => kr)) m o) :
    Still o ∨ ∃ m', AInv' A m' ∧ execS OnlyEnv lp kr m' o := by
  obtain ⟨m1, e1, rfl | he⟩ := he
  · exact .inl ⟨_, rfl⟩
  replace hi := hi.quiet (.others e1)
  -- the machine is written
  have key : ∀ (y : Yard V) (c : Code V), c.Flat → (∀ m2, Quiet m1 m2 → AInv' A { m2 with st := { m2.st with user := y } }) →
      execS OnlyEnv lp ((Code.put y c.lift).run kr (fun _ => kr)) m1 o → Still o ∨ ∃ m', AInv' A m' ∧ execS OnlyEnv lp kr m' o := by
    intro y c hc hy he
    rcases putS he with hx | ⟨m2, e2, he⟩
    · exact .inl hx
    rcases lift_runS hc _ _ _ o he with hx | ⟨m', ⟨h1, -⟩, h2⟩
    · exact .inl hx
    refine .inr ⟨m', h1.ainv (hy m2 (.others e2)), ?_⟩
    rcases h2 with h2 | ⟨_, h2⟩ <;> exact h2
  have bad : ∀ y : Yard V, y.bad = true → ∀ m2 : Wk Op (Ct (Yard V)), Quiet m1 m2 → AInv' A { m2 with st := { m2.st with user := y } } := by
    intro y hy m2 _ hb
    have hb : y.bad = false := hb
    rw [hy] at hb; cases hb
  simp only at he
  cases hb : m1.st.user.bad with
  | true =>
    split at he
    · refine key _ .ret .ret ?_ he; exact bad _ hb
    · split at he
      · refine key _ _ (hA.calls _ _) ?_ he; exact bad _ hb
      · refine key _ .ret .ret ?_ he; exact bad _ hb
  | false =>
    obtain ⟨h1, h2, ⟨a, l, mm, log, h3, hl1, hl2, h4⟩, h5, hg, h6⟩ := hi hb
    have hr := (h4.world m1.st.user.env).reach
    obtain ⟨mm', hd⟩ := C01_destructor_is_safe (hwf a) (hok a) hr
    rw [h3] at he
    simp only [hd] at he
    refine key _ _ (hA.calls h mm'.world) ?_ he
    intro m2 q2 _
    refine ⟨fun h' => ?_, ?_, ?_, h6⟩
    · by_cases hh : h' = h
      · subst hh
        refine ⟨fun hf => ?_, fun _ => upd_same _ _ _⟩
        have hf : m2.st.full h' = true := hf
        rw [q2.full, h2] at hf; cases hf
      · exact (h1 h' hh).congr (by rw [← q2.full]) (upd_ne _ _ hh) (by rw [← q2.log])
    · intro x hx
      show Buried A m2.st.log x
      rw [q2.log]
      rcases List.mem_append.1 hx with hx | hx
      · exact h5 x hx
      · rw [List.mem_singleton.1 hx]
        exact ⟨log, [], l, _, hl1, hl2, h4.world _, hd⟩
    · show (m1.st.user.gone ++ [(h, a, mm')]).map (·.1) = m2.st.log.filterMap goneOf
      rw [q2.log, ← hg, List.map_append]; rfl

theorem release_runS {lp : Nat → Wk Op (Ct (Yard V)) → Out Op (Ct (Yard V)) Nat → Prop} (h : Nat) {m : Wk Op (Ct (Yard V))}
    (k : Prog Op (Ct (Yard V))) {o : Out Op (Ct (Yard V)) Unit} (hi : AInv' A m) (he : execS OnlyEnv lp (release A.beh h k) m o) :
    Still o ∨ ∃ m', AInv' A m' ∧ execS OnlyEnv lp k m' o := by
  obtain ⟨m1, e1, rfl | he⟩ := he
  · exact .inl ⟨_, rfl⟩
  replace hi := (Quiet.others e1).ainv hi
  simp only at he
  split at he
  · by_cases hf : m1.st.full h = true
    · rw [if_pos hf, execS, Fleet.beh, Code.andThen_run] at he
      rcases lift_runS (hA.dtor h) _ _ _ o he with hx | ⟨m2, ⟨q1, -⟩, q2⟩
      · exact .inl hx
      have hd : Dying A h m2 := by
        refine Dying.quiet ?_ q1
        intro hb
        have hi := hi hb
        obtain ⟨a, l, mm, k1, k2, k3⟩ := (hi.kept h).1 hf
        refine ⟨fun h' hh => (hi.kept h').congr (upd_ne _ _ hh) rfl ?_, upd_same _ _ _, ⟨a, l, mm, m1.st.log, k1, rfl, k2, k3⟩,
          fun x hx => (hi.buried x hx).snoc _, ?_, hi.fault⟩
        · show feed h' (m1.st.log ++ [.gone h]) = _
          rw [feed_snoc]
          simp only [feedStep, if_neg (Ne.symm hh)]
        · show _ = (m1.st.log ++ [PEv.gone h]).filterMap goneOf
          rw [List.filterMap_append, ← hi.graves]; rfl
      have q2 : execS OnlyEnv lp ((A.unmake h).run k (fun _ => k)) m2 o := by
        rcases q2 with q2 | ⟨_, q2⟩ <;> exact q2
      exact unmake_runS hwf hok hA k hd q2
    · rw [if_neg hf, execS] at he
      refine .inr ⟨_, ?_, he⟩; exact hi.congr rfl rfl rfl
  · rw [execS] at he
    refine .inr ⟨_, ?_, he⟩; exact hi.congr rfl rfl rfl

theorem release_tidy {lp : Nat → Wk Op (Ct (Yard V)) → Out Op (Ct (Yard V)) Nat → Prop} (h : Nat) {m : Wk Op (Ct (Yard V))}
    {k : Prog Op (Ct (Yard V))} (hk : k = .ret ∨ ∃ x, k = .throw x) {o : Out Op (Ct (Yard V)) Unit} (hi : AInv' A m)
    (he : execS OnlyEnv lp (release A.beh h k) m o) : Tidy A o := by
  rcases release_runS hwf hok hA h k hi he with hx | ⟨m', h1, h2⟩
  · exact .inl hx
  · rcases hk with rfl | ⟨x, rfl⟩ <;> (cases (show o = _ from h2); exact .inr h1)

/-- An operation on a machine. -/
theorem operate_tidy {lp : Nat → Wk Op (Ct (Yard V)) → Out Op (Ct (Yard V)) Nat → Prop} (o : HOp) {h : Nat} {m : Wk Op (Ct (Yard V))}
    {r : Out Op (Ct (Yard V)) Unit} (hi : Given A o h m)
    (he : execS OnlyEnv lp ((A.operate o h).run (leave h (release A.beh h .ret)) (fun x => leave h (release A.beh h (.throw x)))) m r) : Tidy A r := by
  have hr : ∀ {m : Wk Op (Ct (Yard V))} {k : Prog Op (Ct (Yard V))}, (k = .ret ∨ ∃ x, k = .throw x) → AInv' A m →
      execS OnlyEnv lp (leave h (release A.beh h k)) m r → Tidy A r := by
    intro m k hk hm he
    obtain ⟨m1, e1, rfl | he⟩ := he
    · exact .inl ⟨_, rfl⟩
    rw [execS] at he
    have hm1 := (Quiet.others e1).ainv hm
    exact release_tidy hwf hok hA h hk (m := { m1 with st := { m1.st with busy := upd m1.st.busy h (m1.st.busy h - 1) } }) (hm1.congr rfl rfl rfl) he
  obtain ⟨m1, e1, rfl | he⟩ := he
  · exact .inl ⟨_, rfl⟩
  replace hi := hi.quiet (.others e1)
  -- the machine is written
  have step : ∀ {a : Nat} {mm m' : Mach V}, m1.st.user.mach h = some (a, mm) → (∀ {l}, Fed A a l mm → Fed A a (l ++ [o]) m') →
      ∀ m2, Quiet m1 m2 → AInv' A { m2 with st := { m2.st with user := { m1.st.user with env := m'.world, mach := upd m1.st.user.mach h (some (a, m')) } } } := by
    intro a mm m' hm hfed m2 q2 hb
    obtain ⟨h1, h2, ⟨a', l, mm', h3, h4, h5⟩, h6, h7, h8⟩ := hi hb
    rw [hm] at h3; cases h3
    refine ⟨fun h' => ?_, fun x hx => ?_, ?_, h8⟩
    · by_cases hh : h' = h
      · subst hh
        refine ⟨fun _ => ⟨a, l ++ [o], m', upd_same _ _ _, ?_, hfed h5⟩, fun hn => ?_⟩
        · show feed h' m2.st.log = _
          rw [q2.log]; exact h4
        · have hn : m2.st.full h' = false := hn
          rw [q2.full, h2] at hn; cases hn
      · exact (h1 h' hh).congr (by rw [← q2.full]) (upd_ne _ _ hh) (by rw [← q2.log])
    · show Buried A m2.st.log x
      rw [q2.log]; exact h6 x hx
    · show _ = m2.st.log.filterMap goneOf
      rw [q2.log]; exact h7
  -- nothing is claimed
  have bad : ∀ {y : Yard V}, (y.bad = false → False) → execS OnlyEnv lp ((Code.put y .ret).run (leave h (release A.beh h .ret)) (fun x => leave h (release A.beh h (.throw x)))) m1 r → Tidy A r := by
    intro y hy he
    rcases putS he with hx | ⟨m2, e2, he⟩
    · exact .inl hx
    · exact hr (.inl rfl) (fun hb => (hy hb).elim) he
  simp only at he
  split at he
  · next hn =>
    refine bad (fun hb => ?_) he
    obtain ⟨-, -, ⟨a, l, mm, k1, -⟩, -⟩ := hi hb
    rw [hn] at k1; cases k1
  · next a mm hm =>
    split at he
    · next hl =>
      have hleg := Fleet.legal_iff hl
      split at he
      · next m' hrun =>
        rcases putS he with hx | ⟨m2, e2, he⟩
        · exact .inl hx
        have hm2 := step hm (fun k => .given (k.world m1.st.user.env) (operated_of_call hleg (.inl hrun))) m2 (.others e2)
        rcases lift_runS (hA.calls h m'.world) _ _ _ r he with hx | ⟨m3, ⟨q3, -⟩, he⟩
        · exact .inl hx
        rcases he with he | ⟨x, he⟩
        · exact hr (.inl rfl) (q3.ainv hm2) he
        · exact hr (.inr ⟨x, rfl⟩) (q3.ainv hm2) he
      · exact bad (by simp) he
      · next x m' hrun =>
        rcases putS he with hx | ⟨m2, e2, he⟩
        · exact .inl hx
        have hm2 := step hm (fun k => .given (k.world m1.st.user.env) (operated_of_call hleg (.inr ⟨_, hrun⟩))) m2 (.others e2)
        rw [Code.andThen_run] at he
        rcases lift_runS (hA.calls h m'.world) _ _ _ r he with hx | ⟨m3, ⟨q3, -⟩, he⟩
        · exact .inl hx
        rcases he with he | ⟨_, he⟩
        · exact hr (.inr ⟨x, rfl⟩) (q3.ainv hm2) he
        · exact hr (.inr ⟨x, rfl⟩) (q3.ainv hm2) he
      · next g hrun =>
        refine bad (fun hb => ?_) he
        obtain ⟨-, -, ⟨a', l, mm', k1, -, k3⟩, -⟩ := hi hb
        rw [hm] at k1; cases k1
        have := call_wp (hwf a) (hok a) (A.call o) ((k3.world m1.st.user.env).reach.stable (hwf a) (hok a)).1 hleg
        unfold wp at this
        rw [hrun] at this
        exact this.elim
    · exact bad (by simp) he

/-- One work item. -/
theorem body_tidy {lp : Nat → Wk Op (Ct (Yard V)) → Out Op (Ct (Yard V)) Nat → Prop} (op : Op) {m : Wk Op (Ct (Yard V))} {r : Out Op (Ct (Yard V)) Unit}
    (hi : AInv' A m) (he : execS OnlyEnv lp (body A.beh op) m r) : Tidy A r := by
  cases op with
  | create h a =>
    cases hn : A.node h with
    | some x =>
      rw [body_create_some hn] at he
      obtain ⟨m2, e2, rfl | he⟩ := he
      · exact .inl ⟨_, rfl⟩
      rw [execS] at he
      have hm2 := (Quiet.others e2).ainv hi
      refine release_tidy hwf hok hA h (.inr ⟨x, rfl⟩) ?_ he
      intro hb
      have hm2 := hm2 hb
      refine ⟨fun h' => (hm2.kept h').congr rfl rfl ?_, fun x hx => (hm2.buried x hx).snoc _, ?_, hm2.fault⟩
      · show feed h' (m2.st.log ++ [.lost h]) = _
        rw [feed_snoc]; rfl
      · show _ = (m2.st.log ++ [PEv.lost h]).filterMap goneOf
        rw [List.filterMap_append, ← hm2.graves]; exact (List.append_nil _).symm
    | none =>
    rw [body_create_none hn] at he
    obtain ⟨m0, e0, rfl | he⟩ := he
    · exact .inl ⟨_, rfl⟩
    replace hi := (Quiet.others e0).ainv hi
    rw [execS, Fleet.make, Code.andThen_run] at he
    rcases lift_runS (hA.ctor h a) _ _ _ r he with hx | ⟨m1, ⟨q1, -⟩, he⟩
    · exact .inl hx
    have hm1 : AInv' A m1 := q1.ainv (hi.congr rfl rfl rfl)
    rcases he with he | ⟨x, he⟩
    · obtain ⟨m2, e2, rfl | he⟩ := he
      · exact .inl ⟨_, rfl⟩
      rcases putS he with hx | ⟨m3, e3, he⟩
      · exact .inl hx
      obtain ⟨m4, e4, rfl | he⟩ := he
      · exact .inl ⟨_, rfl⟩
      rw [execS] at he
      have q2 := Quiet.others e2
      have q3 := Quiet.others e3
      have q4 := Quiet.others e4
      have hm2 := q2.ainv hm1
      refine release_tidy hwf hok hA h (.inl rfl) ?_ he
      intro hb
      have hb' : m2.st.user.bad = false := by rw [← hb]; exact q4.bad.symm
      have hm2 := hm2 hb'
      have hlog : m4.st.log = m2.st.log := q4.log.trans q3.log
      have hfull : m4.st.full = m2.st.full := q4.full.trans q3.full
      have hmach : m4.st.user.mach = upd m2.st.user.mach h (some (a, Mach.fresh m2.st.user.env)) := q4.mach
      have hgone : m4.st.user.gone = m2.st.user.gone := q4.gone
      refine ⟨fun h' => ?_, ?_, ?_, q4.fault.trans hm2.fault⟩
      · by_cases hh : h' = h
        · subst hh
          refine ⟨fun _ => ⟨a, [], Mach.fresh m2.st.user.env, ?_, ?_, .fresh _⟩, fun hf => ?_⟩
          · show m4.st.user.mach h' = _
            rw [hmach, upd_same]
          · show feed h' (m4.st.log ++ [.made h' a]) = _
            rw [feed_snoc]; simp [feedStep]
          · have hf : upd m4.st.full h' true h' = false := hf
            rw [upd_same] at hf; cases hf
        · refine (hm2.kept h').congr ?_ ?_ ?_
          · show upd m4.st.full h true h' = _
            rw [upd_ne _ _ hh, hfull]
          · show m4.st.user.mach h' = _
            rw [hmach, upd_ne _ _ hh]
          · show feed h' (m4.st.log ++ [.made h a]) = _
            rw [feed_snoc, hlog]
            simp only [feedStep, if_neg (Ne.symm hh)]
      · intro x hx
        have hx : x ∈ m4.st.user.gone := hx
        rw [hgone] at hx
        show Buried A (m4.st.log ++ [.made h a]) x
        rw [hlog]
        exact (hm2.buried x hx).snoc _
      · show m4.st.user.gone.map (·.1) = (m4.st.log ++ [PEv.made h a]).filterMap goneOf
        rw [List.filterMap_append, hlog, hgone, ← hm2.graves]; exact (List.append_nil _).symm
    · obtain ⟨m2, e2, rfl | he⟩ := he
      · exact .inl ⟨_, rfl⟩
      rw [execS] at he
      have hm2 := (Quiet.others e2).ainv hm1
      refine release_tidy hwf hok hA h (.inr ⟨x, rfl⟩) ?_ he
      intro hb
      have hm2 := hm2 hb
      refine ⟨fun h' => (hm2.kept h').congr rfl rfl ?_, fun x hx => (hm2.buried x hx).snoc _, ?_, hm2.fault⟩
      · show feed h' (m2.st.log ++ [.failed h]) = _
        rw [feed_snoc]; rfl
      · show _ = (m2.st.log ++ [PEv.failed h]).filterMap goneOf
        rw [List.filterMap_append, ← hm2.graves]; exact (List.append_nil _).symm
  | destroy h =>
    cases h with
    | none => cases (show r = _ from he); exact .inr hi
    | some h =>
      obtain ⟨m1, e1, rfl | he⟩ := he
      · exact .inl ⟨_, rfl⟩
      replace hi := (Quiet.others e1).ainv hi
      simp only at he
      split at he
      · cases (show r = _ from he); exact .inr hi
      · rw [execS] at he
        exact release_tidy hwf hok hA h (.inl rfl) (m := { m1 with st := { m1.st with
          refs := upd m1.st.refs h (if m1.st.set h then m1.st.refs h else m1.st.refs h + 1)
          set := upd m1.st.set h false } }) (hi.congr rfl rfl rfl) he
  | deliver o h =>
    cases h with
    | none => cases (show r = _ from he); exact .inr hi
    | some h =>
      obtain ⟨m1, e1, rfl | he⟩ := he
      · exact .inl ⟨_, rfl⟩
      replace hi := (Quiet.others e1).ainv hi
      simp only at he
      split at he
      · cases (show r = _ from he); exact .inr hi
      · split at he
        · next hf =>
          rw [execS] at he
          refine operate_tidy hwf hok hA o ?_ he
          intro hb
          have hi := hi hb
          obtain ⟨a, l, mm, k1, k2, k3⟩ := (hi.kept h).1 hf
          refine ⟨fun h' hh => (hi.kept h').congr rfl rfl ?_, hf, ⟨a, l, mm, k1, ?_, k3⟩, fun x hx => (hi.buried x hx).snoc _, ?_, hi.fault⟩
          · show feed h' (m1.st.log ++ [.called o h]) = _
            rw [feed_snoc]
            simp only [feedStep, if_neg (Ne.symm hh)]
          · show feed h (m1.st.log ++ [.called o h]) = _
            rw [feed_snoc, k2]; simp [feedStep]
          · show _ = (m1.st.log ++ [PEv.called o h]).filterMap goneOf
            rw [List.filterMap_append, ← hi.graves]; exact (List.append_nil _).symm
        · rw [execS] at he
          cases (show r = _ from he)
          exact .inr (hi.congr rfl rfl rfl)
  | item i =>
    rcases lift_runS (hA.item i) .ret .throw m r he with hx | ⟨m1, ⟨q1, -⟩, he⟩
    · exact .inl hx
    · rcases he with he | ⟨x, he⟩ <;> (cases (show r = _ from he); exact .inr (q1.ainv hi))

theorem loopS_tidy {wait : Bool} : ∀ (k max c : Nat) (m : Wk Op (Ct (Yard V))) (o : Out Op (Ct (Yard V)) Nat), AInv' A m →
    loopS OnlyEnv wait (body A.beh) k max c m o → Tidy A o
  | 0, _, _, m, o, _, he => .inl ⟨m, he⟩
  | k + 1, max, c, m, o, h, he => by
    obtain ⟨m1, e1, rfl | he⟩ := he
    · exact .inl ⟨_, rfl⟩
    replace h := (Quiet.others e1).ainv h
    split at he
    · split at he
      · exact .inl ⟨_, he⟩
      · unfold dequeueItem at he
        cases hq : m1.queue with
        | nil =>
          rw [hq] at he
          cases (show o = _ from he)
          exact .inr h
        | cons w q =>
          rw [hq] at he
          cases w with
          | none =>
            cases (show o = _ from he)
            exact .inr (h.congr rfl rfl rfl)
          | some w =>
            obtain ⟨r, ⟨r', h2, h3⟩, he⟩ := he
            have hr : Tidy A r := by
              cases w with
              | stop =>
                cases (show r' = _ from h2)
                cases (show r = _ from h3)
                exact .inr (h.congr rfl rfl rfl)
              | user i =>
                have hb := body_tidy hwf hok hA i (m := { m1 with queue := q, log := m1.log ++ [.start (.user i)] }) (h.congr rfl rfl rfl) h2
                cases r' with
                | ok a m' =>
                  cases (show r = _ from h3)
                  rcases hb with ⟨_, hb⟩ | hb
                  · cases hb
                  · exact .inr (AInv'.congr hb rfl rfl rfl)
                | thrown x m' =>
                  cases (show r = _ from h3)
                  rcases hb with ⟨_, hb⟩ | hb
                  · cases hb
                  · exact .inr (AInv'.congr hb rfl rfl rfl)
                | more m' => exact .inl ⟨_, h3⟩
            cases r with
            | ok a m' =>
              rcases hr with ⟨_, hr⟩ | hr
              · cases hr
              · exact loopS_tidy k max (c + 1) m' o hr he
            | thrown x m' =>
              cases (show o = _ from he)
              rcases hr with ⟨_, hr⟩ | hr
              · cases hr
              · exact .inr hr
            | more m' => exact .inl ⟨_, he⟩
    · cases (show o = _ from he)
      exact .inr h

omit hwf hok hA in
theorem client_tidy {lp : Nat → Wk Op (Ct (Yard V)) → Out Op (Ct (Yard V)) Nat → Prop} (hl : ∀ n m o, AInv' A m → lp n m o → Tidy A o) :
    ∀ (c : Code V) (m : Wk Op (Ct (Yard V))) (o : Out Op (Ct (Yard V)) Unit), AInv' A m → execS OnlyEnv lp (c.lift.run .ret .throw) m o → Tidy A o
  | .ret, m, o, h, he => by cases (show o = _ from he); exact .inr h
  | .throw x, m, o, h, he => by cases (show o = _ from he); exact .inr h
  | .create a k, m, o, h, he => by
    obtain ⟨m1, h1, rfl | he⟩ := he
    · exact .inl ⟨_, rfl⟩
    rw [execS] at he
    obtain ⟨m2, h2, rfl | he⟩ := he
    · exact .inl ⟨_, rfl⟩
    have hx : Others OnlyEnv m1 m2 := Others.trans (.step (.refl _) (.create a m1)) h2
    exact client_tidy hl _ m2 o ((Quiet.others (h1.trans hx)).ainv h) he
  | .destroy d k, m, o, h, he => by
    obtain ⟨m1, h1, rfl | he⟩ := he
    · exact .inl ⟨_, rfl⟩
    obtain ⟨m2, h2, rfl | he⟩ := he
    · exact .inl ⟨_, rfl⟩
    have hx : Others OnlyEnv m1 m2 := Others.trans (.step (.refl _) (.destroy d m1)) h2
    exact client_tidy hl _ m2 o ((Quiet.others (h1.trans hx)).ainv h) he
  | .deliver op d k, m, o, h, he => by
    obtain ⟨m1, h1, rfl | he⟩ := he
    · exact .inl ⟨_, rfl⟩
    obtain ⟨m2, h2, rfl | he⟩ := he
    · exact .inl ⟨_, rfl⟩
    have hx : Others OnlyEnv m1 m2 := Others.trans (.step (.refl _) (.deliver op d m1)) h2
    exact client_tidy hl _ m2 o ((Quiet.others (h1.trans hx)).ainv h) he
  | .item none k, m, o, h, he => by
    obtain ⟨m0, h0, rfl | he⟩ := he
    · exact .inl ⟨_, rfl⟩
    obtain ⟨m1, h1, rfl | he⟩ := he
    · exact .inl ⟨_, rfl⟩
    exact client_tidy hl _ m1 o ((Quiet.others (h0.trans h1)).ainv h) he
  | .item (some i) k, m, o, h, he => by
    obtain ⟨m0, h0, rfl | he⟩ := he
    · exact .inl ⟨_, rfl⟩
    obtain ⟨m1, h1, rfl | he⟩ := he
    · exact .inl ⟨_, rfl⟩
    have hx : Others OnlyEnv m m1 := h0.trans (Others.trans (.step (.refl _) (.item i m0)) h1)
    exact client_tidy hl _ m1 o ((Quiet.others hx).ainv h) he
  | .terminate k, m, o, h, he => by
    obtain ⟨m0, h0, rfl | he⟩ := he
    · exact .inl ⟨_, rfl⟩
    obtain ⟨m1, h1, rfl | he⟩ := he
    · exact .inl ⟨_, rfl⟩
    have hx : Others OnlyEnv m m1 := h0.trans (Others.trans (.step (.refl _) (.terminate m0)) h1)
    exact client_tidy hl _ m1 o ((Quiet.others hx).ainv h) he
  | .terminated k, m, o, h, he => by
    obtain ⟨m1, h1, rfl | he⟩ := he
    · exact .inl ⟨_, rfl⟩
    exact client_tidy hl _ m1 o ((Quiet.others h1).ainv h) he
  | .get k, m, o, h, he => by
    obtain ⟨m1, h1, rfl | he⟩ := he
    · exact .inl ⟨_, rfl⟩
    exact client_tidy hl _ m1 o ((Quiet.others h1).ainv h) he
  | .put w k, m, o, h, he => by
    obtain ⟨m1, h1, rfl | he⟩ := he
    · exact .inl ⟨_, rfl⟩
    rcases putS he with hx | ⟨m2, h2, he⟩
    · exact .inl hx
    have h1 := (Quiet.others h1).ainv h
    have q2 := Quiet.others h2
    refine client_tidy hl k { m2 with st := { m2.st with user := { m1.st.user with env := w } } } o (Quiet.ainv (m := m1) ⟨q2.log, q2.full, rfl, rfl, rfl, rfl⟩ h1) he
  | .call n k c, m, o, h, he => by
    rw [Code.lift, Code.run, execS] at he
    obtain ⟨r, h1, h2⟩ := he
    have h4 := hl n m r h h1
    cases r with
    | ok i m' =>
      rcases h4 with ⟨_, h4⟩ | h4
      · cases h4
      · exact client_tidy hl (k i) m' o h4 h2
    | thrown x m' =>
      rcases h4 with ⟨_, h4⟩ | h4
      · cases h4
      · exact client_tidy hl (c x) m' o h4 h2
    | more m' => exact .inl ⟨_, h2⟩

theorem AShared.ainv {wait : Bool} {m : Wk Op (Ct (Yard V))} (h : AShared wait A m) : AInv' A m := by
  induction h with
  | fresh v => exact fun _ => ⟨fun h => ⟨fun hf => (by cases hf), fun _ => rfl⟩, fun x hx => (by cases hx), rfl, rfl⟩
  | other _ he ih => exact (Quiet.env he).ainv ih
  | @client m m' k c hm hr ih =>
    have hc : ∀ o, execS OnlyEnv (fun n m o => loopS OnlyEnv wait (body A.beh) k n 0 m o) (c.lift.run .ret .throw) m o → Tidy A o := fun o he =>
      client_tidy (fun n m o h he => loopS_tidy hwf hok hA k n 0 m o h he) c m o ih he
    rcases hr with hr | ⟨x, hr⟩
    · rcases hc _ hr with ⟨_, hx⟩ | hx
      · cases hx
      · exact hx
    · rcases hc _ hr with ⟨_, hx⟩ | hx
      · cases hx
      · exact hx

/-- **C51 (asynchronous machines).**  For each handle: the machine exists iff its creation has been executed and its destruction has not. Then its state is that of a
machine which was constructed and given exactly the operations executed for the handle, in this order, whatever other threads do meanwhile. -/
theorem C51_machine {wait : Bool} {m : Wk Op (Ct (Yard V))} (h : AShared wait A m) (hb : m.st.user.bad = false) (hf : m.st.fault = false) (hd : Nat) :
    ∃ st obs, Serve false hd (ops (starts m.log)) st obs ∧
      (st ≠ .alive → m.st.user.mach hd = none) ∧
      (st = .alive → ∃ a cs mm, obs = .made hd a :: cs.map (PEv.called · hd) ∧ m.st.user.mach hd = some (a, mm) ∧ Fed A a cs mm) := by
  obtain ⟨st, h1, h2⟩ := (h.shared.sinv hA.beh).serve hd
  have hi := h.ainv hwf hok hA hb
  rw [hf] at h1
  refine ⟨st, _, h1, fun hs => (hi.kept hd).2 ?_, fun hs => ?_⟩
  · cases st with
    | alive => exact absurd rfl hs
    | unborn => exact h2.1
    | failed => exact h2.2.2.2.1
    | gone => exact h2.2.2.2.1
  · subst hs
    obtain ⟨a, cs, k1, k2⟩ := h1.feed.2 rfl
    obtain ⟨a', l, mm, r1, r2, r3⟩ := (hi.kept hd).1 h2.2.2.2.1
    rw [feed_filter, r2] at k2
    cases k2
    exact ⟨a, cs, mm, k1, r1, r3⟩

/-- **C51 (safety of machines).**  No machine faults, and no operation reaches a machine that does not exist. -/
theorem C51_machine_safe {wait : Bool} {m : Wk Op (Ct (Yard V))} (h : AShared wait A m) (hb : m.st.user.bad = false) :
    m.st.user.fault = false ∧ (m.st.fault = true → ∃ hd, PEv.failed hd ∈ m.st.log) :=
  ⟨(h.ainv hwf hok hA hb).fault, C51_safe hA.beh h.shared⟩

/-- **C51 (destruction of machines).**  The destroyed machines are those whose destruction was executed, in this order. Each had been given the operations executed for
its handle until then, and its destructor has destroyed all its states. -/
theorem C51_destroyed {wait : Bool} {m : Wk Op (Ct (Yard V))} (h : AShared wait A m) (hb : m.st.user.bad = false) :
    m.st.user.gone.map (·.1) = m.st.log.filterMap goneOf ∧
    ∀ hd a mm', (hd, a, mm') ∈ m.st.user.gone → ∃ pre post cs mm, m.st.log = pre ++ .gone hd :: post ∧
      feed hd pre = some (a, cs) ∧ Fed A a cs mm ∧ SC.destruct (A.prog a) mm = .ok () mm' ∧ ∀ s, mm'.act s = false := by
  have hi := h.ainv hwf hok hA hb
  refine ⟨hi.graves, fun hd a mm' hx => ?_⟩
  obtain ⟨pre, post, l, mm, h0, h1, h2, h3⟩ := hi.buried _ hx
  obtain ⟨m', xs, k1, _, _, k2⟩ := C14_destruct (hwf a) (hok a) h2.reach
  rw [h3] at k1
  cases k1
  exact ⟨pre, post, l, mm, h0, h1, h2, h3, k2⟩

/-- **C51 (exceptions).**  If the next queued operation makes a machine throw, in whatever environment, the exception leaves `operator()`, or it has not returned yet.  The
machine stays as it left it, and the rest of the queue is still there, followed by what was queued meanwhile. -/
theorem C51_exception {wait : Bool} {m : Wk Op (Ct (Yard V))} (h : AShared wait A m) (hb : m.st.user.bad = false) (ht : m.terminated = false)
    {o : HOp} {hd a : Nat} {q : List (Option (Work Op))} (hq : m.queue = some (.user (.deliver o (some hd))) :: q)
    {mm : Mach V} (hm : m.st.user.mach hd = some (a, mm)) (hx : ∀ v, ∃ x mm', Breaks (A.prog a) A.ev A.fuel { mm with world := v } mm' x o)
    {k n : Nat} {r : Out Op (Ct (Yard V)) Nat} (hr : loopS OnlyEnv wait (Fifo.body A.beh) k n 0 m r) :
    (∃ m1, r = .more m1) ∨ ∃ v x mm' m1, Breaks (A.prog a) A.ev A.fuel { mm with world := v } mm' x o ∧ r = .thrown x m1 ∧ m1.st.user.mach hd = some (a, mm') ∧
      (∃ l, m1.queue = q ++ l) ∧ m1.st.log = m.st.log ++ [.called o hd] := by
  have hi := h.ainv hwf hok hA hb
  obtain ⟨st, _, h2⟩ := (h.shared.sinv hA.beh).serve hd
  have hfull : m.st.full hd = true := by
    cases hf : m.st.full hd with
    | true => rfl
    | false =>
      have := (hi.kept hd).2 hf
      rw [hm] at this; cases this
  have hrefs : hd < m.st.next ∧ m.st.refs hd = 1 := by
    cases st with
    | alive => exact ⟨h2.1, h2.2.1⟩
    | unborn => have := h2.1; rw [hfull] at this; cases this
    | failed => have := h2.2.2.2.1; rw [hfull] at this; cases this
    | gone => have := h2.2.2.2.1; rw [hfull] at this; cases this
  -- what stays as it is
  let Facts (R : Nat) (X : Option (Nat × Mach V)) (Q : List (Option (Work Op))) (L : List PEv) (m : Wk Op (Ct (Yard V))) : Prop :=
    hd < m.st.next ∧ m.st.refs hd = R ∧ m.st.full hd = true ∧ m.st.user.mach hd = X ∧ (∃ l, m.queue = Q ++ l) ∧ m.st.log = L
  have keep : ∀ {m m' : Wk Op (Ct (Yard V))} {R X Q L}, Quiet m m' → Calm m m' → Facts R X Q L m → Facts R X Q L m' := by
    intro m m' R X Q L g1 g2 ⟨f1, f2, f3, f4, ⟨l, f5⟩, f6⟩
    obtain ⟨l', g3⟩ := g2.queue
    exact ⟨Nat.lt_of_lt_of_le f1 g2.next, by rw [g2.refs hd f1]; exact f2, by rw [g1.full]; exact f3, by rw [g1.mach]; exact f4,
      ⟨l ++ l', by rw [g3, f5, List.append_assoc]⟩, by rw [g1.log]; exact f6⟩
  have others : ∀ {m m' : Wk Op (Ct (Yard V))} {R X Q L}, Others OnlyEnv m m' → Facts R X Q L m → Facts R X Q L m' :=
    fun h1 => keep (.others h1) (.others h1)
  have hterm : ∀ {m m' : Wk Op (Ct (Yard V))}, Others OnlyEnv m m' → m'.terminated = m.terminated := by
    intro m m' ho
    induction ho with
    | refl => rfl
    | step _ he ih => rw [← ih]; cases he <;> rfl
  have hbreak : ∀ {v : V} {x : Nat} {mm' : Mach V}, Breaks (A.prog a) A.ev A.fuel { mm with world := v } mm' x o →
      (A.call o).run (A.prog a) { mm with world := v } = .thrown x mm' ∧ Fleet.legal (A.prog a) { mm with world := v } (A.call o) = true := by
    intro v x mm' hx
    constructor
    · cases o with
      | initiate => exact hx.2
      | event e => exact hx
      | terminate =>
        show Call.run (A.prog a) .terminate _ = _
        rw [run_terminate]
        unfold Breaks at hx
        rw [hx]
    · cases o with
      | initiate =>
        simp only [Fleet.call, Fleet.legal]
        split
        · next h1 => exact hx.1 _ h1
        · rfl
      | event e => rfl
      | terminate => rfl
  have f0 : Facts 1 (some (a, mm)) m.queue m.st.log m := ⟨hrefs.1, hrefs.2, hfull, hm, ⟨[], by simp⟩, rfl⟩
  cases k with
  | zero => exact .inl ⟨_, hr⟩
  | succ k =>
    obtain ⟨m1, e1, rfl | hr⟩ := hr
    · exact .inl ⟨_, rfl⟩
    have f1 := others e1 f0
    have ht1 : m1.terminated = false := by rw [hterm e1]; exact ht
    obtain ⟨b1, b2, b3, b4, ⟨l1, b5⟩, b6⟩ := f1
    rw [hq, List.cons_append] at b5
    have hn : (!m1.terminated && (n == 0 || decide (0 < n))) = true := by
      rw [ht1]
      cases n <;> simp
    rw [if_pos hn, if_neg (by rw [b5]; simp)] at hr
    unfold dequeueItem at hr
    rw [b5] at hr
    obtain ⟨r1, ⟨r2, hr2, hr1⟩, hr⟩ := hr
    have f2 : Facts 1 (some (a, mm)) q m.st.log { m1 with queue := q ++ l1, log := m1.log ++ [.start (.user (.deliver o (some hd)))] } :=
      ⟨b1, b2, b3, b4, ⟨l1, rfl⟩, b6⟩
    -- the item
    have item : Still r2 ∨ ∃ v x mm' m8, Breaks (A.prog a) A.ev A.fuel { mm with world := v } mm' x o ∧ r2 = .thrown x m8 ∧
        Facts 1 (some (a, mm')) q (m.st.log ++ [.called o hd]) m8 := by
      obtain ⟨m2, e2, rfl | he⟩ := hr2
      · exact .inl ⟨_, rfl⟩
      obtain ⟨c1, c2, c3, c4, c5, c6⟩ := others e2 f2
      simp only at he
      rw [if_neg (show ¬ m2.st.refs hd = 0 by rw [c2]; decide), if_pos c3, execS] at he
      have f3 : Facts 2 (some (a, mm)) q (m.st.log ++ [.called o hd]) { m2 with st := { m2.st with
          refs := upd m2.st.refs hd (m2.st.refs hd + 1)
          log := m2.st.log ++ [.called o hd]
          busy := upd m2.st.busy hd (m2.st.busy hd + 1) } } :=
        ⟨c1, by show upd m2.st.refs hd (m2.st.refs hd + 1) hd = 2; rw [upd_same, c2], c3, c4, c5, by rw [← c6]⟩
      obtain ⟨m3, e3, rfl | he⟩ := he
      · exact .inl ⟨_, rfl⟩
      obtain ⟨d1, d2, d3, d4, d5, d6⟩ := others e3 f3
      obtain ⟨x, mm', hbr⟩ := hx m3.st.user.env
      obtain ⟨hrun, hleg⟩ := hbreak hbr
      simp only at he
      rw [d4] at he
      simp only at he
      rw [if_pos hleg, hrun] at he
      rcases putS he with hs | ⟨m4, e4, he⟩
      · exact .inl hs
      obtain ⟨g1, g2, g3, -, g5, g6⟩ := others e4 (show Facts 2 (some (a, mm)) q (m.st.log ++ [.called o hd]) m3 from ⟨d1, d2, d3, d4, d5, d6⟩)
      rw [Code.andThen_run] at he
      have f4 : Facts 2 (some (a, mm')) q (m.st.log ++ [.called o hd]) { m4 with st := { m4.st with
          user := { m3.st.user with env := mm'.world, mach := upd m3.st.user.mach hd (some (a, mm')) } } } :=
        ⟨g1, g2, g3, upd_same _ _ _, g5, g6⟩
      rcases lift_runS (hA.calls hd mm'.world) _ _ _ r2 he with hs | ⟨m5, ⟨q5, c5⟩, he⟩
      · exact .inl hs
      have f5 := keep q5 c5 f4
      have he : execS OnlyEnv (fun n m o => loopS OnlyEnv wait (Fifo.body A.beh) k n 0 m o) (leave hd (release A.beh hd (.throw x))) m5 r2 := by
        rcases he with he | ⟨_, he⟩ <;> exact he
      obtain ⟨m6, e6, rfl | he⟩ := he
      · exact .inl ⟨_, rfl⟩
      have f6 := others e6 f5
      rw [execS] at he
      obtain ⟨m7, e7, rfl | he⟩ := he
      · exact .inl ⟨_, rfl⟩
      have f7 := others (R := 2) (X := some (a, mm')) (Q := q) (L := m.st.log ++ [.called o hd]) e7 f6
      simp only at he
      rw [if_neg (show ¬ m7.st.refs hd = 1 by rw [f7.2.1]; decide), execS] at he
      cases (show r2 = _ from he)
      refine .inr ⟨_, x, mm', _, hbr, rfl, f7.1, ?_, f7.2.2.1, f7.2.2.2.1, f7.2.2.2.2.1, f7.2.2.2.2.2⟩
      show upd m7.st.refs hd (m7.st.refs hd - 1) hd = 1
      rw [upd_same, f7.2.1]
    rcases item with ⟨m8, rfl⟩ | ⟨v, x, mm', m8, hbr, rfl, f8⟩
    · cases (show r1 = _ from hr1)
      exact .inl ⟨_, hr⟩
    · cases (show r1 = _ from hr1)
      exact .inr ⟨v, x, mm', _, hbr, hr, f8.2.2.2.1, f8.2.2.2.2.1, f8.2.2.2.2.2⟩

end

/-! ### Example -/

namespace Ex

/-- Another thread has created a machine and asked for its initiation. -/
def fleetSent : Wk Op (Ct (Yard Nat)) :=
  queueWorkItem (some (.user (.deliver .initiate (some 0))))
    (queueWorkItem (some (.user (.create 0 5))) { st := { user := { env := 0 }, next := 1, refs := upd (fun _ => 0) 0 1 } })

theorem fleetSent_shared (wait : Bool) : AShared wait fleet fleetSent :=
  .other (.other (.fresh 0) (.create 5 _)) (.deliver .initiate 0 _)

/-- The worker is about to execute the creation. -/
def fleetCtor : Wk Op (Ct (Yard Nat)) :=
  { fleetSent with
    queue := [some (.user (.deliver .initiate (some 0)))]
    log := fleetSent.log ++ [.start (.user (.create 0 5))] }

/-- Another thread sends event 1 and makes the constructor of state `D` throw. -/
def fleetAsked : Wk Op (Ct (Yard Nat)) :=
  queueWorkItem (some (.user (.deliver (.event 1) (some 0)))) { fleetCtor with st := { fleetCtor.st with user := { fleetCtor.st.user with env := 1 } } }

theorem fleetAsked_others : Others OnlyEnv fleetCtor fleetAsked := .step (.step (.refl _) (.user _ _ ⟨1, rfl⟩)) (.deliver (.event 1) 0 _)

/-- The outcome of the creation. -/
def fleetBuilt : Out Op (Ct (Yard Nat)) Unit := exec (fun n m => Fifo.run (Fifo.body fleet.beh) 9 n m) (Fifo.body fleet.beh (.create 0 5)) fleetAsked

/-- What is left when `operator()` has returned. -/
def fleetLeft : Out Op (Ct (Yard Nat)) Nat :=
  loop (Fifo.body fleet.beh) 9 0 1 { fleetBuilt.wk with log := fleetBuilt.wk.log ++ [.fin (.user (.create 0 5))] }

theorem fleetBuilt_ok : fleetBuilt = .ok () fleetBuilt.wk := by
  have h : (match fleetBuilt with
    | .ok _ _ => true
    | _ => false) = true := by decide +kernel
  revert h
  cases fleetBuilt with
  | ok a m => exact fun _ => rfl
  | _ => intro h; cases h

theorem fleetLeft_ok : fleetLeft = .ok 4 fleetLeft.wk := by
  have h : (match fleetLeft with
    | .ok n _ => n == 4
    | _ => false) = true := by decide +kernel
  revert h
  cases fleetLeft with
  | ok n m => intro h; rw [beq_iff_eq.1 h]; rfl
  | _ => intro h; cases h

theorem fleetLeft_runs : loopS OnlyEnv false (Fifo.body fleet.beh) 10 0 0 fleetSent fleetLeft := by
  refine ⟨fleetSent, .refl _, .inr ?_⟩
  rw [if_pos (by decide +kernel), if_neg (by simp)]
  refine ⟨.ok () { fleetBuilt.wk with log := fleetBuilt.wk.log ++ [.fin (.user (.create 0 5))] }, ⟨fleetBuilt, ?_, by rw [fleetBuilt_ok]; rfl⟩, loopS_of_loop _ 9 0 1 _⟩
  exact ⟨fleetAsked, fleetAsked_others, .inr (execS_of_exec (U := OnlyEnv) (lp := fun n m => Fifo.run (Fifo.body fleet.beh) 9 n m)
    (fun n m => loopS_of_loop (U := OnlyEnv) _ 9 n 0 m) _ fleetAsked)⟩

theorem fleetLeft_shared : AShared false fleet fleetLeft.wk := by
  refine .client 10 (.call 0 (fun _ => .ret) .throw) (fleetSent_shared false) (.inl ?_)
  have h1 := fleetLeft_runs
  have h2 := fleetLeft_ok
  generalize fleetLeft = r at h1 h2 ⊢
  rw [Code.lift, Code.run, execS]
  refine ⟨r, h1, ?_⟩
  cases r with
  | ok c m => exact rfl
  | _ => cases h2

/-- The machine got the initiation, event 1 of the other thread and event 4 of its own constructor, in this order. -/
example : fleetLeft.wk.st.user.bad = false ∧ fleetLeft.wk.st.fault = false ∧
    fleetLeft.wk.st.log = [.made 0 5, .called .initiate 0, .called (.event 1) 0, .called (.event 4) 0] ∧
    ((fleetLeft.wk.st.user.mach 0).any fun x => x.1 == 5 && x.2.act 8 && !x.2.act 0) = true := by
  refine ⟨by decide +kernel, by decide +kernel, by decide +kernel, by decide +kernel⟩

example : ∃ a cs mm, fleetLeft.wk.st.user.mach 0 = some (a, mm) ∧ Fed fleet a cs mm := by
  obtain ⟨st, obs, _, h1, h2⟩ := C51_machine (A := fleet) (fun _ => SC.Ex.wf) (fun _ => SC.Ex.contract) fleet_flat fleetLeft_shared
    (by decide +kernel) (by decide +kernel) 0
  by_cases hs : st = .alive
  · obtain ⟨a, cs, mm, _, k1, k2⟩ := h2 hs
    exact ⟨a, cs, mm, k1, k2⟩
  · have : (fleetLeft.wk.st.user.mach 0).isSome = true := by decide +kernel
    rw [h1 hs] at this
    cases this

/-- The constructor of state `E` (4) throws. -/
def unruly : SC.Prog Unit :=
  { SC.Ex.chart with
    ctor := fun s _ w => { world := w, throws := if s = 4 then some 7 else none }
    exit := fun _ _ w => { world := w }
    dtor := fun _ _ w => (w, [])
    action := fun _ _ w => { world := w }
    react := fun _ _ _ _ w => ({ world := w }, .discard)
    unconsumed := fun _ _ w => { world := w }
    alloc := fun _ w => (w, none)
    translate := fun _ => none }

def unrulyFleet : Fleet Unit where
  prog _ := unruly
  ev e := ⟨e, 0⟩
  ctor _ _ := .ret
  calls _ _ := .ret
  dtor _ := .ret
  item _ := .ret
  fuel := 3

/-- A machine is made by the first call of `operator()`; then another thread asks for its initiation. -/
def unrulyMade : Out Op (Ct (Yard Unit)) Unit :=
  exec (fun n m => Fifo.run (Fifo.body unrulyFleet.beh) 9 n m) ((Code.create (W := Unit) 0 fun _ => .call 0 (fun _ => .ret) .throw).lift.run .ret .throw) { st := { user := { env := () } } }

theorem unrulyMade_ok : unrulyMade = .ok () unrulyMade.wk := by
  have h : (match unrulyMade with
    | .ok _ _ => true
    | _ => false) = true := by decide +kernel
  revert h
  cases unrulyMade with
  | ok a m => exact fun _ => rfl
  | _ => intro h; cases h

def unrulyAsked : Wk Op (Ct (Yard Unit)) := queueWorkItem (some (.user (.deliver .initiate (handle unrulyMade.wk.st 0)))) unrulyMade.wk

theorem unrulyAsked_shared : AShared false unrulyFleet unrulyAsked := by
  refine .other (m := unrulyMade.wk) (.client 9 (.create 0 fun _ => .call 0 (fun _ => .ret) .throw) (.fresh ()) (.inl ?_)) (.deliver .initiate 0 _)
  have h := execS_of_exec (U := OnlyEnv) (lp := fun n m => Fifo.run (Fifo.body unrulyFleet.beh) 9 n m) (fun n m => loopS_of_loop (U := OnlyEnv) _ 9 n 0 m)
    ((Code.create (W := Unit) 0 fun _ => .call 0 (fun _ => .ret) .throw).lift.run .ret .throw) { st := { user := { env := () } } }
  rw [← unrulyMade_ok]
  exact h

/-- The initiation fails in any environment. -/
example : ∃ mm, AShared false unrulyFleet unrulyAsked ∧ unrulyAsked.st.user.bad = false ∧ unrulyAsked.terminated = false ∧
    unrulyAsked.queue = some (.user (.deliver .initiate (some 0))) :: [] ∧ unrulyAsked.st.user.mach 0 = some (0, mm) ∧
    ∀ v, ∃ x mm', Breaks (unrulyFleet.prog 0) unrulyFleet.ev unrulyFleet.fuel { mm with world := v } mm' x .initiate := by
  have h1 : (unrulyAsked.st.user.mach 0).any (fun p => p.1 == 0 &&
      (match SC.terminate unruly { p.2 with world := () } with
        | .ok _ m1 => m1.terminated
        | _ => true) &&
      match SC.initiate unruly 3 { p.2 with world := () } with
        | .thrown x _ => x == 7
        | _ => false) = true := by decide +kernel
  rw [Option.any_eq_true] at h1
  obtain ⟨⟨a, mm⟩, k1, k2⟩ := h1
  simp only [Bool.and_eq_true, beq_iff_eq] at k2
  obtain ⟨⟨rfl, k3⟩, k4⟩ := k2
  split at k4
  · next x mm' hr =>
    refine ⟨mm, unrulyAsked_shared, by decide +kernel, by decide +kernel, by decide +kernel, k1, fun v => ⟨x, mm', fun m1 h1 => ?_, hr⟩⟩
    have h1 : SC.terminate unruly { mm with world := () } = .ok () m1 := h1
    rw [h1] at k3
    exact k3
  · cases k4

end Ex

end SC.Fifo
