import Verif.Props.Shared

/-!
# C51: what happens to a processor when several threads use the scheduler

The specification `Serve` of C32, with other threads.
-/

namespace SC.Fifo

open Spec

variable {W : Type} {U : W → W → Prop}

/-- The code has not come to its end. -/
def Still {α : Type} (o : Out Op (Ct W) α) : Prop := ∃ m, o = .more m

/-- Other threads do not touch the processors. -/
theorem Same.env {m m' : Wk Op (Ct W)} (h : Env U m m') : Same m m' := by
  have hh : ∀ d h', handle m.st d = some h' → h' < m.st.next := by
    intro d h' hx
    unfold handle at hx
    split at hx
    · cases hx; assumption
    · cases hx
  cases h with
  | create a => exact .create a m
  | destroy d => exact .queue _ m (by simp) fun h' o ho hx => hh d h' (by cases ho; exact hx)
  | deliver o d => exact .queue _ m (by simp) fun h' o ho hx => hh d h' (by cases ho; exact hx)
  | item i => exact .queue _ m (by simp) fun h' o ho hx => by cases ho; cases hx
  | terminate => exact .queue _ m (by simp) (by simp)
  | user w => exact .user m w

theorem Same.others {m m' : Wk Op (Ct W)} (h : Others U m m') : Same m m' := by
  induction h with
  | refl => exact .refl _
  | step _ he ih => exact ih.trans (.env he)

theorem Others.trans {a b c : Wk Op (Ct W)} (h1 : Others U a b) (h2 : Others U b c) : Others U a c := by
  induction h2 with
  | refl => exact h1
  | step _ he ih => exact .step ih he

theorem Chg.after {h : Nat} {p : Phase} {o : List PEv} {m m1 m2 : Wk Op (Ct W)} (h1 : Same m m1) (h2 : Chg h p o m1 m2) : Chg h p o m m2 :=
  ⟨h2.own, fun h' hh p' hp => h2.others h' hh p' (h1.phase h' p' hp), by rw [h2.log, h1.log], h2.fault.trans h1.fault, h2.starts.trans h1.starts⟩

/-- Flat user code comes to its end and leaves the processors alone. -/
theorem Code.Flat.runS {lp : Nat → Wk Op (Ct W) → Out Op (Ct W) Nat → Prop} {c : Code W} (h : c.Flat) (kr : Prog Op (Ct W)) (kt : Nat → Prog Op (Ct W))
    (m : Wk Op (Ct W)) (o : Out Op (Ct W) Unit) (he : execS U lp (c.run kr kt) m o) :
    Still o ∨ ∃ m', Same m m' ∧ (execS U lp kr m' o ∨ ∃ x, execS U lp (kt x) m' o) := by
  have after : ∀ {m m1 : Wk Op (Ct W)}, Same m m1 → (Still o ∨ ∃ m', Same m1 m' ∧ (execS U lp kr m' o ∨ ∃ x, execS U lp (kt x) m' o)) →
      Still o ∨ ∃ m', Same m m' ∧ (execS U lp kr m' o ∨ ∃ x, execS U lp (kt x) m' o) := by
    intro m m1 hs hx
    rcases hx with hx | ⟨m', h1, h2⟩
    · exact .inl hx
    · exact .inr ⟨m', hs.trans h1, h2⟩
  induction h generalizing m with
  | ret => exact .inr ⟨m, .refl m, .inl he⟩
  | throw x => exact .inr ⟨m, .refl m, .inr ⟨x, he⟩⟩
  | create a _ ih =>
    obtain ⟨m1, h1, rfl | he⟩ := he
    · exact .inl ⟨_, rfl⟩
    rw [execS] at he
    obtain ⟨m2, h2, rfl | he⟩ := he
    · exact .inl ⟨_, rfl⟩
    exact after ((Same.others h1).trans ((Same.create a m1).trans (.others h2))) (ih _ m2 he)
  | destroy d _ ih =>
    obtain ⟨m1, h1, rfl | he⟩ := he
    · exact .inl ⟨_, rfl⟩
    obtain ⟨m2, h2, rfl | he⟩ := he
    · exact .inl ⟨_, rfl⟩
    exact after ((Same.others h1).trans ((Same.env (U := U) (.destroy d m1)).trans (.others h2))) (ih m2 he)
  | deliver op d _ ih =>
    obtain ⟨m1, h1, rfl | he⟩ := he
    · exact .inl ⟨_, rfl⟩
    obtain ⟨m2, h2, rfl | he⟩ := he
    · exact .inl ⟨_, rfl⟩
    exact after ((Same.others h1).trans ((Same.env (U := U) (.deliver op d m1)).trans (.others h2))) (ih m2 he)
  | item i _ ih =>
    obtain ⟨m0, h0, rfl | he⟩ := he
    · exact .inl ⟨_, rfl⟩
    obtain ⟨m1, h1, rfl | he⟩ := he
    · exact .inl ⟨_, rfl⟩
    cases i with
    | none => exact after ((Same.others h0).trans (.others h1)) (ih m1 he)
    | some i => exact after ((Same.others h0).trans ((Same.env (U := U) (.item i m0)).trans (.others h1))) (ih m1 he)
  | terminate _ ih =>
    obtain ⟨m0, h0, rfl | he⟩ := he
    · exact .inl ⟨_, rfl⟩
    obtain ⟨m1, h1, rfl | he⟩ := he
    · exact .inl ⟨_, rfl⟩
    exact after ((Same.others h0).trans ((Same.env (U := U) (.terminate m0)).trans (.others h1))) (ih m1 he)
  | terminated _ ih =>
    obtain ⟨m1, h1, rfl | he⟩ := he
    · exact .inl ⟨_, rfl⟩
    exact after (.others h1) (ih _ m1 he)
  | get _ ih =>
    obtain ⟨m1, h1, rfl | he⟩ := he
    · exact .inl ⟨_, rfl⟩
    exact after (.others h1) (ih _ m1 he)
  | put w _ ih =>
    obtain ⟨m1, h1, rfl | he⟩ := he
    · exact .inl ⟨_, rfl⟩
    rw [execS] at he
    exact after ((Same.others h1).trans (.user m1 w)) (ih _ he)

theorem release_moreS {lp : Nat → Wk Op (Ct W) → Out Op (Ct W) Nat → Prop} {beh : Fun → Code W} {h : Nat} {k : Prog Op (Ct W)} {m : Wk Op (Ct W)} {r : Nat} {b f : Bool}
    (hp : HInv m h (.at (r + 2) b f)) {o : Out Op (Ct W) Unit} (he : execS U lp (release beh h k) m o) :
    Still o ∨ ∃ m', execS U lp k m' o ∧ Chg h (.at (r + 1) b f) [] m m' := by
  obtain ⟨m1, h1, rfl | he⟩ := he
  · exact .inl ⟨_, rfl⟩
  have hs := Same.others h1
  have hp1 := hs.phase _ _ hp
  simp only at he
  rw [if_neg (show ¬ m1.st.refs h = 1 by rw [hp1.2.1]; omega), execS] at he
  refine .inr ⟨_, he, Chg.after hs (Chg.write hp1 rfl rfl rfl ?_ hp1.2.2.1 (fun _ _ => rfl) hp1.2.2.2.1 (fun _ _ => rfl) (by simp) ?_)⟩
  · show upd m1.st.refs h (m1.st.refs h - 1) = _
    rw [hp1.2.1]; rfl
  · show (m1.st.fault || m1.st.refs h == 0) = _
    rw [hp1.2.1]; simp

theorem release_lastS {lp : Nat → Wk Op (Ct W) → Out Op (Ct W) Nat → Prop} {beh : Fun → Code W} (hb : ∀ g, (beh g).Flat) {h : Nat} {k : Prog Op (Ct W)}
    {m : Wk Op (Ct W)} {b : Bool} (hp : HInv m h (.at 1 b true)) {o : Out Op (Ct W) Unit} (he : execS U lp (release beh h k) m o) :
    Still o ∨ ∃ m', execS U lp k m' o ∧ Chg h (.at 0 b false) [.gone h] m m' := by
  obtain ⟨m1, h1, rfl | he⟩ := he
  · exact .inl ⟨_, rfl⟩
  have hs := Same.others h1
  have hp1 := hs.phase _ _ hp
  simp only at he
  rw [if_pos hp1.2.1, if_pos hp1.2.2.2.1, execS] at he
  have hc := Chg.after hs (Chg.write (m' := { m1 with st := { m1.st with
    refs := upd m1.st.refs h 0
    full := upd m1.st.full h false
    log := m1.st.log ++ [.gone h] } }) hp1 rfl rfl rfl rfl hp1.2.2.1 (fun _ _ => rfl) (upd_same _ _ _) (fun i hi => upd_ne _ _ hi) rfl rfl)
  rcases (hb (.dtor h)).runS k (fun _ => k) _ o he with hx | ⟨m', h2, h3⟩
  · exact .inl hx
  · refine .inr ⟨m', ?_, hc.same h2⟩
    rcases h3 with h3 | ⟨_, h3⟩ <;> exact h3

theorem release_emptyS {lp : Nat → Wk Op (Ct W) → Out Op (Ct W) Nat → Prop} {beh : Fun → Code W} {h : Nat} {k : Prog Op (Ct W)} {m : Wk Op (Ct W)} {b : Bool}
    (hp : HInv m h (.at 1 b false)) {o : Out Op (Ct W) Unit} (he : execS U lp (release beh h k) m o) :
    Still o ∨ ∃ m', execS U lp k m' o ∧ Chg h (.at 0 b false) [] m m' := by
  obtain ⟨m1, h1, rfl | he⟩ := he
  · exact .inl ⟨_, rfl⟩
  have hs := Same.others h1
  have hp1 := hs.phase _ _ hp
  simp only at he
  rw [if_pos hp1.2.1, if_neg (by rw [hp1.2.2.2.1]; simp), execS] at he
  exact .inr ⟨_, he, Chg.after hs (Chg.write hp1 rfl rfl rfl rfl hp1.2.2.1 (fun _ _ => rfl) hp1.2.2.2.1 (fun _ _ => rfl) (by simp) rfl)⟩

theorem body_createS {lp : Nat → Wk Op (Ct W) → Out Op (Ct W) Nat → Prop} {beh : Fun → Code W} (hb : ∀ g, (beh g).Flat) {h a : Nat} {m : Wk Op (Ct W)}
    (hp : HInv m h (.at 1 false false)) {o : Out Op (Ct W) Unit} (he : execS U lp (body beh (.create h a)) m o) :
    Still o ∨ ∃ m', Fin o m' ∧ (Chg h (.at 1 true true) [.made h a] m m' ∨ Chg h (.at 1 true false) [.failed h] m m' ∨ Chg h (.at 0 false false) [.lost h] m m') := by
  simp only [body] at he
  split at he
  · rename_i x _
    obtain ⟨m0, h0, rfl | he⟩ := he
    · exact .inl ⟨_, rfl⟩
    have hs := Same.others h0
    have hp1 := hs.phase _ _ hp
    rw [execS] at he
    have hc := Chg.after hs (Chg.write (r' := 1) (b' := false) (f' := false) (o := [.lost h]) (m' := { m0 with st := { m0.st with
      log := m0.st.log ++ [.lost h] } }) hp1 rfl rfl rfl (by
        funext i
        by_cases hi : i = h
        · subst hi; rw [upd_same]; exact hp1.2.1
        · rw [upd_ne _ _ hi]) hp1.2.2.1 (fun _ _ => rfl) hp1.2.2.2.1 (fun _ _ => rfl) rfl rfl)
    rcases release_emptyS hc.own he with hx | ⟨m2, h2, hc2⟩
    · exact .inl hx
    · exact .inr ⟨m2, .inr ⟨x, h2⟩, .inr (.inr (by simpa using hc.trans hc2))⟩
  obtain ⟨m0, h0, rfl | he⟩ := he
  · exact .inl ⟨_, rfl⟩
  have hs := Same.others h0
  have hp1 := hs.phase _ _ hp
  rw [execS] at he
  have hc := Chg.after hs (Chg.write (r' := 2) (b' := true) (f' := false) (o := []) (m' := { m0 with st := { m0.st with
    set := upd m0.st.set h true
    refs := upd m0.st.refs h (m0.st.refs h + 1) } }) hp1 rfl rfl rfl (by rw [hp1.2.1]) (upd_same _ _ _) (fun i hi => upd_ne _ _ hi) hp1.2.2.2.1
      (fun _ _ => rfl) (by simp) rfl)
  rcases (hb (.ctor h a)).runS _ _ _ o he with hx | ⟨m2, h1, h2⟩
  · exact .inl hx
  have hc2 := hc.same h1
  rcases h2 with h2 | ⟨x, h2⟩
  · obtain ⟨m3, h3, rfl | h2⟩ := h2
    · exact .inl ⟨_, rfl⟩
    rw [execS] at h2
    have hc3 := hc2.same (.others h3)
    have hc4 := hc3.trans (Chg.write (r' := 2) (b' := true) (f' := true) (o := [.made h a]) (m' := { m3 with st := { m3.st with
      full := upd m3.st.full h true
      log := m3.st.log ++ [.made h a] } }) hc3.own rfl rfl rfl (by
        funext i
        by_cases hi : i = h
        · subst hi; rw [upd_same]; exact hc3.own.2.1
        · rw [upd_ne _ _ hi]) hc3.own.2.2.1 (fun _ _ => rfl) (upd_same _ _ _) (fun i hi => upd_ne _ _ hi) rfl rfl)
    rcases release_moreS hc4.own h2 with hx | ⟨m5, h5, hc5⟩
    · exact .inl hx
    · exact .inr ⟨m5, .inl h5, .inl (by simpa using hc4.trans hc5)⟩
  · obtain ⟨m3, h3, rfl | h2⟩ := h2
    · exact .inl ⟨_, rfl⟩
    rw [execS] at h2
    have hc3 := hc2.same (.others h3)
    have hc4 := hc3.trans (Chg.write (r' := 2) (b' := true) (f' := false) (o := [.failed h]) (m' := { m3 with st := { m3.st with
      log := m3.st.log ++ [.failed h] } }) hc3.own rfl rfl rfl (by
        funext i
        by_cases hi : i = h
        · subst hi; rw [upd_same]; exact hc3.own.2.1
        · rw [upd_ne _ _ hi]) hc3.own.2.2.1 (fun _ _ => rfl) hc3.own.2.2.2.1 (fun _ _ => rfl) rfl rfl)
    rcases release_moreS hc4.own h2 with hx | ⟨m5, h5, hc5⟩
    · exact .inl hx
    · exact .inr ⟨m5, .inr ⟨x, h5⟩, .inr (.inl (by simpa using hc4.trans hc5))⟩

theorem body_destroyS {lp : Nat → Wk Op (Ct W) → Out Op (Ct W) Nat → Prop} {beh : Fun → Code W} (hb : ∀ g, (beh g).Flat) {h : Nat} {m : Wk Op (Ct W)} {f : Bool}
    (hp : HInv m h (.at 1 true f)) {o : Out Op (Ct W) Unit} (he : execS U lp (body beh (.destroy (some h))) m o) :
    Still o ∨ ∃ m', Fin o m' ∧ Chg h (.at 0 false false) (if f then [.gone h] else []) m m' := by
  obtain ⟨m0, h0, rfl | he⟩ := he
  · exact .inl ⟨_, rfl⟩
  have hs := Same.others h0
  have hp1 := hs.phase _ _ hp
  simp only at he
  rw [if_neg (show ¬ m0.st.refs h = 0 by rw [hp1.2.1]; simp), execS] at he
  have hc := Chg.after hs (Chg.write (r' := 1) (b' := false) (f' := f) (o := []) (m' := { m0 with st := { m0.st with
    refs := upd m0.st.refs h (if m0.st.set h then m0.st.refs h else m0.st.refs h + 1)
    set := upd m0.st.set h false } }) hp1 rfl rfl rfl (by rw [hp1.2.1, hp1.2.2.1]; rfl) (upd_same _ _ _) (fun i hi => upd_ne _ _ hi) hp1.2.2.2.1
      (fun _ _ => rfl) (by simp) rfl)
  cases f with
  | true =>
    rcases release_lastS hb hc.own he with hx | ⟨m2, h2, hc2⟩
    · exact .inl hx
    · exact .inr ⟨m2, .inl h2, by simpa using hc.trans hc2⟩
  | false =>
    rcases release_emptyS hc.own he with hx | ⟨m2, h2, hc2⟩
    · exact .inl hx
    · exact .inr ⟨m2, .inl h2, by simpa using hc.trans hc2⟩

theorem body_deliverS {lp : Nat → Wk Op (Ct W) → Out Op (Ct W) Nat → Prop} {beh : Fun → Code W} (hb : ∀ g, (beh g).Flat) {h : Nat} {op : HOp} {m : Wk Op (Ct W)}
    (hp : HInv m h (.at 1 true true)) {o : Out Op (Ct W) Unit} (he : execS U lp (body beh (.deliver op (some h))) m o) :
    Still o ∨ ∃ m', Fin o m' ∧ Chg h (.at 1 true true) [.called op h] m m' := by
  obtain ⟨m0, h0, rfl | he⟩ := he
  · exact .inl ⟨_, rfl⟩
  have hs := Same.others h0
  have hp1 := hs.phase _ _ hp
  simp only at he
  rw [if_neg (show ¬ m0.st.refs h = 0 by rw [hp1.2.1]; simp), if_pos hp1.2.2.2.1, execS] at he
  have hc := Chg.after hs (Chg.write (r' := 2) (b' := true) (f' := true) (o := [.called op h]) (m' := { m0 with st := { m0.st with
    refs := upd m0.st.refs h (m0.st.refs h + 1)
    log := m0.st.log ++ [.called op h]
    busy := upd m0.st.busy h (m0.st.busy h + 1) } }) hp1 rfl rfl rfl (by rw [hp1.2.1]) hp1.2.2.1 (fun _ _ => rfl) hp1.2.2.2.1
      (fun _ _ => rfl) rfl rfl)
  have hleave : ∀ {m2 : Wk Op (Ct W)} {k : Prog Op (Ct W)}, Chg h (.at 2 true true) [.called op h] m m2 → execS U lp (leave h (release beh h k)) m2 o →
      Still o ∨ ∃ m', execS U lp k m' o ∧ Chg h (.at 1 true true) [.called op h] m m' := by
    intro m2 k hc2 h2
    obtain ⟨m3, h3, rfl | h2⟩ := h2
    · exact .inl ⟨_, rfl⟩
    rw [execS] at h2
    have hc3 := hc2.same ((Same.others h3).left h)
    rcases release_moreS hc3.own h2 with hx | ⟨m4, h4, hc4⟩
    · exact .inl hx
    · exact .inr ⟨m4, h4, by simpa using hc3.trans hc4⟩
  rcases (hb (.op op h)).runS _ _ _ o he with hx | ⟨m2, h1, h2⟩
  · exact .inl hx
  rcases h2 with h2 | ⟨x, h2⟩
  · rcases hleave (hc.same h1) h2 with hx | ⟨m4, h4, hc4⟩
    · exact .inl hx
    · exact .inr ⟨m4, .inl h4, hc4⟩
  · rcases hleave (hc.same h1) h2 with hx | ⟨m4, h4, hc4⟩
    · exact .inl hx
    · exact .inr ⟨m4, .inr ⟨x, h4⟩, hc4⟩

/-- Executing one operation. -/
theorem SInv.exec1S {lp : Nat → Wk Op (Ct W) → Out Op (Ct W) Nat → Prop} {beh : Fun → Code W} (hb : ∀ g, (beh g).Flat) {m m1 : Wk Op (Ct W)} (hS : SInv m) {op : Op}
    (hw : m.work = .user op :: m1.work) (hst : m1.st = m.st) (hl : starts m1.log = starts m.log ++ [.user op]) {r : Out Op (Ct W) Unit}
    (he : execS U lp (body beh op) m1 r) : Still r ∨ ∃ m', Fin r m' ∧ SInv m' := by
  have hpop : ∀ h, (∀ a, op ≠ .create h a) → ∀ p, HInv m h p → HInv m1 h p :=
    fun h hne p hp => hp.pop hw hst (fun a he => hne a (Work.user.inj he))
  have hno : opHandle op = none → ∀ m', Same m1 m' → SInv m' := by
    intro hop m' hs
    refine hS.noHandle hop (by rw [hs.starts, hl]) (by rw [hs.log, hst]) (by rw [hs.fault, hst]) ?_
    intro h' p hp
    exact hs.phase h' p (hpop h' (fun a he => by rw [he] at hop; cases hop) p hp)
  cases op with
  | item i =>
    rcases (hb (.item i)).runS .ret .throw m1 r he with hx | ⟨m', h1, h2⟩
    · exact .inl hx
    · exact .inr ⟨m', h2, hno rfl m' h1⟩
  | create h a =>
    obtain ⟨st, h1, h2⟩ := hS.serve h
    have hst' : st = .unborn := by
      have hbad : ∀ r b f, ¬ HInv m h (.at r b f) := by
        intro r b f hp
        exact hp.2.2.2.2 a (by rw [hw]; exact List.mem_cons_self)
      cases st with
      | unborn => rfl
      | alive => exact absurd h2 (hbad _ _ _)
      | failed => exact absurd h2 (hbad _ _ _)
      | gone => exact absurd h2 (hbad _ _ _)
    subst hst'
    rcases body_createS hb (h2.popCreate hw hst) he with hx | ⟨m', hf, hc⟩
    · exact .inl hx
    refine .inr ⟨m', hf, ?_⟩
    have hoth : ∀ h', h' ≠ h → ∀ p, HInv m h' p → HInv m1 h' p := by
      intro h' hh p hp
      refine hpop h' (fun a' he => ?_) p hp
      cases he; exact hh rfl
    rcases hc with hc | hc | hc
    rotate_left 2
    · exact hS.build (h := h) rfl (by rw [hc.starts, hl]) (by rw [hc.log, hst]) (by simp [evHandle]) (fun h' hh p hp => hc.others h' hh p (hoth h' hh p hp))
        (by rw [hc.fault, hst]; exact id) (by rw [hc.fault, hst]; exact .inl) (st' := .gone) (.createLost a (by rw [hc.fault, hst]; exact h1)) hc.own
    · exact hS.build (h := h) rfl (by rw [hc.starts, hl]) (by rw [hc.log, hst]) (by simp [evHandle]) (fun h' hh p hp => hc.others h' hh p (hoth h' hh p hp))
        (by rw [hc.fault, hst]; exact id) (by rw [hc.fault, hst]; exact .inl) (st' := .alive) (.create a (by rw [hc.fault, hst]; exact h1)) hc.own
    · exact hS.build (h := h) rfl (by rw [hc.starts, hl]) (by rw [hc.log, hst]) (by simp [evHandle]) (fun h' hh p hp => hc.others h' hh p (hoth h' hh p hp))
        (by rw [hc.fault, hst]; exact id) (by rw [hc.fault, hst]; exact .inl) (st' := .failed) (.createFails a (by rw [hc.fault, hst]; exact h1)) hc.own
  | destroy oh =>
    cases oh with
    | none => exact .inr ⟨m1, .inl he, hno rfl m1 (.refl m1)⟩
    | some h =>
      obtain ⟨st, h1, h2⟩ := hS.serve h
      have h2' : HInv m1 h st.phase := hpop h (by simp) _ h2
      have hoth : ∀ h', h' ≠ h → ∀ p, HInv m h' p → HInv m1 h' p := fun h' _ p hp => hpop h' (by simp) p hp
      cases st with
      | unborn => exact absurd h2 (fun hp => hp.born hw rfl (by simp))
      | alive =>
        rcases body_destroyS hb h2' he with hx | ⟨m', hf, hc⟩
        · exact .inl hx
        exact .inr ⟨m', hf, hS.build (h := h) (o := [.gone h]) rfl (by rw [hc.starts, hl]) (by rw [hc.log, hst]; rfl)
          (by simp [evHandle]) (fun h' hh p hp => hc.others h' hh p (hoth h' hh p hp))
          (by rw [hc.fault, hst]; exact id) (by rw [hc.fault, hst]; exact .inl) (st' := .gone) (.destroy (by rw [hc.fault, hst]; exact h1)) hc.own⟩
      | failed =>
        rcases body_destroyS hb h2' he with hx | ⟨m', hf, hc⟩
        · exact .inl hx
        exact .inr ⟨m', hf, hS.build (h := h) rfl (by rw [hc.starts, hl]) (by rw [hc.log, hst])
          (by simp) (fun h' hh p hp => hc.others h' hh p (hoth h' hh p hp)) (by rw [hc.fault, hst]; exact id) (by rw [hc.fault, hst]; exact .inl)
          (st' := .gone) (by simpa using Serve.destroyFailed (by rw [hc.fault, hst]; exact h1)) hc.own⟩
      | gone =>
        obtain ⟨m2, h3, rfl | he⟩ := he
        · exact .inl ⟨_, rfl⟩
        have hs := Same.others h3
        simp only at he
        rw [if_pos (hs.phase _ _ h2').2.1] at he
        exact .inr ⟨m2, .inl he, hS.build (h := h) (o := []) rfl (by rw [hs.starts, hl]) (by rw [hs.log, hst]; simp) (by simp)
          (fun h' hh p hp => hs.phase h' p (hoth h' hh p hp)) (by rw [hs.fault, hst]; exact id) (by rw [hs.fault, hst]; exact .inl)
          (st' := .gone) (by simpa using Serve.discardDestroy (by rw [hs.fault, hst]; exact h1)) (hs.phase _ _ h2')⟩
  | deliver o oh =>
    cases oh with
    | none => exact .inr ⟨m1, .inl he, hno rfl m1 (.refl m1)⟩
    | some h =>
      obtain ⟨st, h1, h2⟩ := hS.serve h
      have h2' : HInv m1 h st.phase := hpop h (by simp) _ h2
      have hoth : ∀ h', h' ≠ h → ∀ p, HInv m h' p → HInv m1 h' p := fun h' _ p hp => hpop h' (by simp) p hp
      cases st with
      | unborn => exact absurd h2 (fun hp => hp.born hw rfl (by simp))
      | alive =>
        rcases body_deliverS hb h2' he with hx | ⟨m', hf, hc⟩
        · exact .inl hx
        exact .inr ⟨m', hf, hS.build (h := h) rfl (by rw [hc.starts, hl]) (by rw [hc.log, hst])
          (by simp [evHandle]) (fun h' hh p hp => hc.others h' hh p (hoth h' hh p hp))
          (by rw [hc.fault, hst]; exact id) (by rw [hc.fault, hst]; exact .inl) (st' := .alive) (.call o (by rw [hc.fault, hst]; exact h1)) hc.own⟩
      | failed =>
        obtain ⟨m2, h3, rfl | he⟩ := he
        · exact .inl ⟨_, rfl⟩
        have hs := Same.others h3
        have h2'' := hs.phase _ _ h2'
        simp only at he
        rw [if_neg (show ¬ m2.st.refs h = 0 by rw [h2''.2.1]; simp), if_neg (show ¬ m2.st.full h = true by rw [h2''.2.2.2.1]; simp), execS] at he
        have hsame : ∀ h' p, HInv m2 h' p → HInv { m2 with st := { m2.st with fault := true, nulls := m2.st.nulls ++ [(h, m2.st.log)] } } h' p := by
          intro h' p hp; cases p <;> exact hp
        have hmem : PEv.failed h ∈ m.st.log := (List.mem_filter.1 (h1.failed_mem rfl)).1
        exact .inr ⟨_, .inl he, hS.build (m' := { m2 with st := { m2.st with fault := true, nulls := m2.st.nulls ++ [(h, m2.st.log)] } }) (h := h) (o := []) rfl (by rw [← hl]; exact hs.starts)
          (by show m2.st.log = _; rw [hs.log, hst]; simp)
          (by simp) (fun h' hh p hp => hsame h' p (hs.phase h' p (hoth h' hh p hp))) (fun _ => rfl)
          (fun _ => .inr (by show _ ∈ m2.st.log; rw [hs.log, hst]; exact hmem))
          (st' := .failed) (by simpa using Serve.crash o rfl (h1.mono (fun _ => rfl))) (hsame h _ h2'')⟩
      | gone =>
        obtain ⟨m2, h3, rfl | he⟩ := he
        · exact .inl ⟨_, rfl⟩
        have hs := Same.others h3
        simp only at he
        rw [if_pos (hs.phase _ _ h2').2.1] at he
        exact .inr ⟨m2, .inl he, hS.build (h := h) (o := []) rfl (by rw [hs.starts, hl]) (by rw [hs.log, hst]; simp) (by simp)
          (fun h' hh p hp => hs.phase h' p (hoth h' hh p hp)) (by rw [hs.fault, hst]; exact id) (by rw [hs.fault, hst]; exact .inl)
          (st' := .gone) (by simpa using Serve.discardCall o (by rw [hs.fault, hst]; exact h1)) (hs.phase _ _ h2')⟩

/-- Unless it has not come to its end, it leaves the invariant. -/
def Left {α : Type} (o : Out Op (Ct W) α) : Prop := Still o ∨ SInv o.wk

/-- Executing one work item. -/
theorem SInv.callItemS {lp : Nat → Wk Op (Ct W) → Out Op (Ct W) Nat → Prop} {beh : Fun → Code W} (hb : ∀ g, (beh g).Flat) {m : Wk Op (Ct W)} (hS : SInv m) {w : Work Op}
    {q : List (Option (Work Op))} (hq : m.queue = some w :: q) {o : Out Op (Ct W) Unit} (he : callItemS U (body beh) lp w { m with queue := q } o) : Left o := by
  have hw : m.work = w :: Wk.work { m with queue := q, log := m.log ++ [.start w] } := by
    unfold Wk.work; rw [hq]; rfl
  have hl : starts (m.log ++ [.start w]) = starts m.log ++ [w] := by
    simp [starts_append, Spec.starts]
  obtain ⟨r, h1, h2⟩ := he
  cases w with
  | stop =>
    cases (show r = _ from h1)
    cases (show o = _ from h2)
    refine .inr ⟨fun h => ?_, hS.bad⟩
    obtain ⟨st, h1, h2⟩ := hS.serve h
    refine ⟨st, ?_, ?_⟩
    · have : ops (starts (m.log ++ [.start .stop] ++ [.fin .stop])) = ops (starts m.log) := by
        simp [starts_append, Spec.starts, ops_append, ops]
      simp only [Out.wk]
      rw [this]
      exact h1
    · have := h2.pop hw rfl (by simp)
      revert this
      cases st.phase <;> exact id
  | user op =>
    rcases hS.exec1S hb hw rfl hl h1 with ⟨m', rfl⟩ | ⟨m', hf, hS'⟩
    · cases (show o = _ from h2); exact .inl ⟨_, rfl⟩
    · rcases hf with rfl | ⟨x, rfl⟩
      · cases (show o = _ from h2)
        exact .inr (hS'.congr rfl rfl (by simp [Out.wk, starts_append, Spec.starts]))
      · cases (show o = _ from h2)
        exact .inr (hS'.congr rfl rfl (by simp [Out.wk, starts_append, Spec.starts]))

theorem loopS_sinv {wait : Bool} {beh : Fun → Code W} (hb : ∀ g, (beh g).Flat) :
    ∀ (k max c : Nat) (m : Wk Op (Ct W)) (o : Out Op (Ct W) Nat), Inv m → SInv m → loopS U wait (body beh) k max c m o → Left o
  | 0, _, _, m, o, _, _, he => .inl ⟨m, he⟩
  | k + 1, max, c, m, o, hi, h, he => by
    obtain ⟨m1, h1, rfl | he⟩ := he
    · exact .inl ⟨_, rfl⟩
    replace h := h.same (.others h1)
    replace hi := hi.others h1
    split at he
    · rename_i hc
      have ht : m1.terminated = false := by
        cases hm : m1.terminated with
        | false => rfl
        | true => rw [hm] at hc; simp at hc
      split at he
      · exact .inl ⟨_, he⟩
      · unfold dequeueItem at he
        cases hq : m1.queue with
        | nil =>
          rw [hq] at he
          cases (show o = _ from he)
          exact .inr h
        | cons w q =>
          rw [hq] at he
          cases w with
          | none => exact absurd rfl (hi.full none (by rw [hq]; exact List.mem_cons_self))
          | some w =>
            obtain ⟨r, h2, h3⟩ := he
            have hi' := callItemS_inv (body := body beh)
              (fun n m o h he => (loopS_inv wait (body beh) k n 0 m o h (fun _ => Nat.zero_le _) he).1) hi hq ht h2
            have h' := h.callItemS hb hq h2
            cases r with
            | ok a m' =>
              rcases h' with ⟨_, h'⟩ | h'
              · cases h'
              · exact loopS_sinv hb k max (c + 1) m' o hi' h' h3
            | thrown x m' =>
              cases (show o = _ from h3)
              rcases h' with ⟨_, h'⟩ | h'
              · cases h'
              · exact .inr h'
            | more m' => exact .inl ⟨_, h3⟩
    · cases (show o = _ from he)
      exact .inr h

/-- Client code, which may call `operator()`, keeps the invariants. -/
theorem client_sinvS {lp : Nat → Wk Op (Ct W) → Out Op (Ct W) Nat → Prop} (hl : ∀ n m o, Inv m → SInv m → lp n m o → Inv o.wk ∧ Left o) :
    ∀ (c : Code W) (m : Wk Op (Ct W)) (o : Out Op (Ct W) Unit), Inv m → SInv m → execS U lp (c.run .ret .throw) m o → Left o
  | .ret, m, o, hi, h, he => by cases (show o = _ from he); exact .inr h
  | .throw x, m, o, hi, h, he => by cases (show o = _ from he); exact .inr h
  | .create a k, m, o, hi, h, he => by
    obtain ⟨m1, h1, rfl | he⟩ := he
    · exact .inl ⟨_, rfl⟩
    rw [execS] at he
    obtain ⟨m2, h2, rfl | he⟩ := he
    · exact .inl ⟨_, rfl⟩
    have hx : Others U m1 m2 := by
      refine Others.trans (.step (.refl _) (.create a m1)) h2
    exact client_sinvS hl _ m2 o ((hi.others h1).others hx) ((h.same (.others h1)).same (.others hx)) he
  | .destroy d k, m, o, hi, h, he => by
    obtain ⟨m1, h1, rfl | he⟩ := he
    · exact .inl ⟨_, rfl⟩
    obtain ⟨m2, h2, rfl | he⟩ := he
    · exact .inl ⟨_, rfl⟩
    have hx : Others U m1 m2 := Others.trans (.step (.refl _) (.destroy d m1)) h2
    exact client_sinvS hl _ m2 o ((hi.others h1).others hx) ((h.same (.others h1)).same (.others hx)) he
  | .deliver op d k, m, o, hi, h, he => by
    obtain ⟨m1, h1, rfl | he⟩ := he
    · exact .inl ⟨_, rfl⟩
    obtain ⟨m2, h2, rfl | he⟩ := he
    · exact .inl ⟨_, rfl⟩
    have hx : Others U m1 m2 := Others.trans (.step (.refl _) (.deliver op d m1)) h2
    exact client_sinvS hl _ m2 o ((hi.others h1).others hx) ((h.same (.others h1)).same (.others hx)) he
  | .item none k, m, o, hi, h, he => by
    obtain ⟨m0, h0, rfl | he⟩ := he
    · exact .inl ⟨_, rfl⟩
    obtain ⟨m1, h1, rfl | he⟩ := he
    · exact .inl ⟨_, rfl⟩
    have hx : Others U m m1 := h0.trans h1
    exact client_sinvS hl _ m1 o (hi.others hx) (h.same (.others hx)) he
  | .item (some i) k, m, o, hi, h, he => by
    obtain ⟨m0, h0, rfl | he⟩ := he
    · exact .inl ⟨_, rfl⟩
    obtain ⟨m1, h1, rfl | he⟩ := he
    · exact .inl ⟨_, rfl⟩
    have hx : Others U m m1 := h0.trans (Others.trans (.step (.refl _) (.item i m0)) h1)
    exact client_sinvS hl _ m1 o (hi.others hx) (h.same (.others hx)) he
  | .terminate k, m, o, hi, h, he => by
    obtain ⟨m0, h0, rfl | he⟩ := he
    · exact .inl ⟨_, rfl⟩
    obtain ⟨m1, h1, rfl | he⟩ := he
    · exact .inl ⟨_, rfl⟩
    have hx : Others U m m1 := h0.trans (Others.trans (.step (.refl _) (.terminate m0)) h1)
    exact client_sinvS hl _ m1 o (hi.others hx) (h.same (.others hx)) he
  | .terminated k, m, o, hi, h, he => by
    obtain ⟨m1, h1, rfl | he⟩ := he
    · exact .inl ⟨_, rfl⟩
    exact client_sinvS hl _ m1 o (hi.others h1) (h.same (.others h1)) he
  | .get k, m, o, hi, h, he => by
    obtain ⟨m1, h1, rfl | he⟩ := he
    · exact .inl ⟨_, rfl⟩
    exact client_sinvS hl _ m1 o (hi.others h1) (h.same (.others h1)) he
  | .put w k, m, o, hi, h, he => by
    obtain ⟨m1, h1, rfl | he⟩ := he
    · exact .inl ⟨_, rfl⟩
    rw [execS] at he
    exact client_sinvS hl k { m1 with st := { m1.st with user := w } } o ((hi.others h1).congr rfl rfl rfl rfl) ((h.same (.others h1)).same (.user m1 w)) he
  | .call n k c, m, o, hi, h, he => by
    rw [Code.run, execS] at he
    obtain ⟨r, h1, h2⟩ := he
    obtain ⟨h3, h4⟩ := hl n m r hi h h1
    cases r with
    | ok i m' =>
      rcases h4 with ⟨_, h4⟩ | h4
      · cases h4
      · exact client_sinvS hl (k i) m' o h3 h4 h2
    | thrown x m' =>
      rcases h4 with ⟨_, h4⟩ | h4
      · cases h4
      · exact client_sinvS hl (c x) m' o h3 h4 h2
    | more m' => exact .inl ⟨_, h2⟩

theorem Shared.sinv {wait : Bool} {beh : Fun → Code W} (hb : ∀ g, (beh g).Flat) {m : Wk Op (Ct W)} (h : Shared U wait beh m) : SInv m := by
  induction h with
  | fresh w => exact .fresh w
  | other _ he ih => exact ih.same (.env he)
  | @client m m' k c hm hr ih =>
    have hc : ∀ o, execS U (fun n m o => loopS U wait (body beh) k n 0 m o) (c.run .ret .throw) m o → Left o := fun o he =>
      client_sinvS (fun n m o hi h he => ⟨(loopS_inv wait (body beh) k n 0 m o hi (fun _ => Nat.zero_le _) he).1, loopS_sinv hb k n 0 m o hi h he⟩)
        c m o (SharedBusy.inv (.inl hm)) ih he
    rcases hr with hr | ⟨x, hr⟩
    · rcases hc _ hr with ⟨_, hx⟩ | hx
      · cases hx
      · exact hx
    · rcases hc _ hr with ⟨_, hx⟩ | hx
      · cases hx
      · exact hx

/-! ### The theorems

The hypothesis of all of them is that no processor and no work item calls `operator()` of the scheduler it is running in. -/

/-- **C51 (what happens to a processor).**  Other threads queue work items while work items are executed.  As long as no null pointer has been dereferenced, the processor
of each handle is created by the creation that was queued for the handle, receives exactly the operations queued for the handle in the order they were queued, and is
destroyed by its destruction; later operations have no effect, and operations for other handles do not matter. -/
theorem C51_serve {wait : Bool} {beh : Fun → Code W} (hb : ∀ g, (beh g).Flat) {m : Wk Op (Ct W)} (h : Shared U wait beh m) (hf : m.st.fault = false) (hd : Nat) :
    ∃ st, Serve false hd ((ops (starts m.log)).filter (fun op => opHandle op == some hd)) st (m.st.log.filter (fun e => evHandle e == hd)) := by
  obtain ⟨st, h1, -⟩ := (h.sinv hb).serve hd
  exact ⟨st, (hf ▸ h1).filter⟩

/-- **C51 (after destruction).**  Once the destruction of a processor has been executed, nothing happens to it any more. -/
theorem C51_discarded {wait : Bool} {beh : Fun → Code W} (hb : ∀ g, (beh g).Flat) {m : Wk Op (Ct W)} (h : Shared U wait beh m) (hf : m.st.fault = false)
    {hd : Nat} {l1 l2 : List Op} (hx : ops (starts m.log) = l1 ++ .destroy (some hd) :: l2) :
    Serve false hd (l1 ++ [.destroy (some hd)]) .gone (m.st.log.filter (fun e => evHandle e == hd)) := by
  obtain ⟨st, hs, -⟩ := (h.sinv hb).serve hd
  rw [hf] at hs
  obtain ⟨st1, o1, o2, h1, h2, h3⟩ := hs.prefix (l1 ++ [.destroy (some hd)]) l2 (by rw [hx]; simp)
  have hg := h1.destroyed rfl
  subst hg
  rw [h2, (h3 rfl).1, List.append_nil]
  exact h1

/-- **C51 (safety).**  A null pointer is dereferenced only if the constructor of some processor threw an exception. -/
theorem C51_safe {wait : Bool} {beh : Fun → Code W} (hb : ∀ g, (beh g).Flat) {m : Wk Op (Ct W)} (h : Shared U wait beh m) (hf : m.st.fault = true) :
    ∃ hd, PEv.failed hd ∈ m.st.log :=
  (h.sinv hb).bad hf

namespace Ex

/-- The processor of `left` was destroyed by what another thread asked for while it was created. -/
example : Serve false 0 [.create 0 5, .deliver (.event 7) (some 0), .destroy (some 0)] .gone [.made 0 5, .called (.event 7) 0, .gone 0] := by
  have h := C51_discarded (beh := still) (fun _ => .ret) left_shared (by decide +kernel) (hd := 0)
    (l1 := [.create 0 5, .deliver (.event 7) (some 0)]) (l2 := []) (by decide +kernel)
  have hl : left.wk.st.log.filter (fun e => evHandle e == 0) = [.made 0 5, .called (.event 7) 0, .gone 0] := by decide +kernel
  rw [hl] at h
  exact h

end Ex

end SC.Fifo
