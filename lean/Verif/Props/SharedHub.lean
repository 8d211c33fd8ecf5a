import Verif.Fifo.HubShared
import Verif.Props.Hub
import Verif.Props.SharedAsync

/-!
# C61: a scheduler of asynchronous machines used by several threads is a scheduler of reference machines used by several threads
-/

namespace SC.Fifo

variable {V : Type} {A : Fleet V}

/-! ### Scripts -/

theorem Hub.Others.trans {a b c : Hub V} (h1 : Hub.Others a b) (h2 : Hub.Others b c) : Hub.Others a c := by
  induction h2 with
  | refl => exact h1
  | step _ he ih => exact .step ih he

namespace Script
variable {lp : Nat → Hub V → Hub.Out V Nat → Prop} {s r : Script V} {t : Nat → Script V} {u u1 : Hub V} {o : Hub.Out V Unit}

theorem Runs.pre (h : Hub.Others u u1) (hs : s.Runs lp u1 o) : s.Runs lp u o := by
  cases s with
  | ret => obtain ⟨u2, h2, h3⟩ := hs; exact ⟨u2, h.trans h2, h3⟩
  | throw x => obtain ⟨u2, h2, h3⟩ := hs; exact ⟨u2, h.trans h2, h3⟩
  | step f k => obtain ⟨u2, h2, h3⟩ := hs; exact ⟨u2, h.trans h2, h3⟩
  | call n k c => rw [Runs] at hs ⊢; obtain ⟨u2, h2, h3⟩ := hs; exact ⟨u2, h.trans h2, h3⟩

theorem Runs.now (s : Script V) (h : Hub.Others u u1) : s.Runs lp u (.more u1) := by
  cases s with
  | ret => exact ⟨u1, h, .inl rfl⟩
  | throw x => exact ⟨u1, h, .inl rfl⟩
  | step f k => exact ⟨u1, h, .inl rfl⟩
  | call n k c => rw [Runs]; exact ⟨u1, h, .inl rfl⟩

theorem Runs.more (h : s.Runs lp u (.more u1)) : (s.andThen r t).Runs lp u (.more u1) := by
  induction s generalizing u with
  | ret =>
    obtain ⟨u2, h2, h3 | h3⟩ := h
    · cases h3; exact .now _ h2
    · cases h3
  | throw x =>
    obtain ⟨u2, h2, h3 | h3⟩ := h
    · cases h3; exact .now _ h2
    · cases h3
  | step f k ih =>
    obtain ⟨u2, h2, h3 | h3⟩ := h
    · exact ⟨u2, h2, .inl h3⟩
    · exact ⟨u2, h2, .inr (ih _ h3)⟩
  | call n k c ihk ihc =>
    rw [andThen, Runs]
    rw [Runs] at h
    obtain ⟨u2, h2, h3 | ⟨x, h3, h4⟩⟩ := h
    · exact ⟨u2, h2, .inl h3⟩
    · refine ⟨u2, h2, .inr ⟨x, h3, ?_⟩⟩
      cases x with
      | ok i u3 => exact ihk _ h4
      | thrown x u3 => exact ihc _ h4
      | more u3 => exact h4

theorem Runs.ok (h : s.Runs lp u (.ok () u1)) (hr : r.Runs lp u1 o) : (s.andThen r t).Runs lp u o := by
  induction s generalizing u with
  | ret =>
    obtain ⟨u2, h2, h3 | h3⟩ := h
    · cases h3
    · cases h3; exact hr.pre h2
  | throw x =>
    obtain ⟨u2, h2, h3 | h3⟩ := h
    · cases h3
    · cases h3
  | step f k ih =>
    obtain ⟨u2, h2, h3 | h3⟩ := h
    · cases h3
    · exact ⟨u2, h2, .inr (ih _ h3)⟩
  | call n k c ihk ihc =>
    rw [andThen, Runs]
    rw [Runs] at h
    obtain ⟨u2, h2, h3 | ⟨x, h3, h4⟩⟩ := h
    · cases h3
    · refine ⟨u2, h2, .inr ⟨x, h3, ?_⟩⟩
      cases x with
      | ok i u3 => exact ihk _ h4
      | thrown x u3 => exact ihc _ h4
      | more u3 => cases (show _ = Hub.Out.more u3 from h4)

theorem Runs.thrown {x : Nat} (h : s.Runs lp u (.thrown x u1)) (hr : (t x).Runs lp u1 o) : (s.andThen r t).Runs lp u o := by
  induction s generalizing u with
  | ret =>
    obtain ⟨u2, h2, h3 | h3⟩ := h
    · cases h3
    · cases h3
  | throw x =>
    obtain ⟨u2, h2, h3 | h3⟩ := h
    · cases h3
    · cases h3; exact hr.pre h2
  | step f k ih =>
    obtain ⟨u2, h2, h3 | h3⟩ := h
    · cases h3
    · exact ⟨u2, h2, .inr (ih _ h3)⟩
  | call n k c ihk ihc =>
    rw [andThen, Runs]
    rw [Runs] at h
    obtain ⟨u2, h2, h3 | ⟨y, h3, h4⟩⟩ := h
    · cases h3
    · refine ⟨u2, h2, .inr ⟨y, h3, ?_⟩⟩
      cases y with
      | ok i u3 => exact ihk _ h4
      | thrown x u3 => exact ihc _ h4
      | more u3 => cases (show _ = Hub.Out.more u3 from h4)

end Script

/-! ### The steps of other threads -/

theorem Hub.Env.of {m m' : Wk Op (Ct (Yard V))} (h : Fifo.Env OnlyEnv m m') : Hub.Env (Hub.of m) (Hub.of m') := by
  cases h with
  | create a =>
    rw [Hub.of_queue]
    exact .create a (Hub.of m)
  | destroy d => rw [Hub.of_queue]; exact .destroy d (Hub.of m)
  | deliver o d => rw [Hub.of_queue]; exact .deliver o d (Hub.of m)
  | item i => rw [Hub.of_queue]; exact .item i (Hub.of m)
  | terminate => rw [show Fifo.terminate m = queueWorkItem (some .stop) m from rfl, Hub.of_queue]; exact .terminate (Hub.of m)
  | user w _ hu => obtain ⟨v, rfl⟩ := hu; exact .env v (Hub.of m)

theorem Hub.Others.of {m m' : Wk Op (Ct (Yard V))} (h : Fifo.Others OnlyEnv m m') : Hub.Others (Hub.of m) (Hub.of m') := by
  induction h with
  | refl => exact .refl _
  | step _ he ih => exact .step ih (.of he)

/-- What other threads do to the queue does not depend on the state of the code. -/
theorem Others.over {m m' : Wk Op (Ct (Yard V))} (h : Others OnlyEnv m m') (y : Yard V) :
    Others OnlyEnv { m with st := { m.st with user := y } } { m' with st := { m'.st with user := y } } := by
  induction h with
  | refl => exact .refl _
  | @step m1 m2 _ he ih =>
    cases he with
    | create a => exact .step ih (.create a { m1 with st := { m1.st with user := y } })
    | destroy d => exact .step ih (.destroy d { m1 with st := { m1.st with user := y } })
    | deliver o d => exact .step ih (.deliver o d { m1 with st := { m1.st with user := y } })
    | item i => exact .step ih (.item i { m1 with st := { m1.st with user := y } })
    | terminate => exact .step ih (.terminate { m1 with st := { m1.st with user := y } })
    | user w => exact ih

/-! ### Code of the user -/

/-- Code that does not call `operator()`. -/
theorem lift_hubS {lp : Nat → Wk Op (Ct (Yard V)) → Out Op (Ct (Yard V)) Nat → Prop} {lh : Nat → Hub V → Hub.Out V Nat → Prop} {c : Code V} (h : c.Flat)
    {kr : Prog Op (Ct (Yard V))} {kt : Nat → Prog Op (Ct (Yard V))} {m : Wk Op (Ct (Yard V))} {o : Out Op (Ct (Yard V)) Unit}
    (he : execS OnlyEnv lp (c.lift.run kr kt) m o) :
    (∃ m', o = .more m' ∧ Quiet m m' ∧ (Script.code c).Runs lh (.of m) (.more (.of m'))) ∨
    ∃ m', Quiet m m' ∧ Calm m m' ∧ (((Script.code c).Runs lh (.of m) (.ok () (.of m')) ∧ execS OnlyEnv lp kr m' o) ∨
      ∃ x, (Script.code c).Runs lh (.of m) (.thrown x (.of m')) ∧ execS OnlyEnv lp (kt x) m' o) := by
  -- a step `m1 → m2` of the code after other threads' steps
  have step : ∀ {f : Hub V → Hub V} {s : Hub V → Script V} {m m1 m2 : Wk Op (Ct (Yard V))}, Others OnlyEnv m m1 → Quiet m1 m2 → Calm m1 m2 →
      f (.of m1) = .of m2 →
      ((∃ m', o = .more m' ∧ Quiet m2 m' ∧ (s (.of m1)).Runs lh (.of m2) (.more (.of m'))) ∨
        ∃ m', Quiet m2 m' ∧ Calm m2 m' ∧ (((s (.of m1)).Runs lh (.of m2) (.ok () (.of m')) ∧ execS OnlyEnv lp kr m' o) ∨
          ∃ x, (s (.of m1)).Runs lh (.of m2) (.thrown x (.of m')) ∧ execS OnlyEnv lp (kt x) m' o)) →
      (∃ m', o = .more m' ∧ Quiet m m' ∧ (Script.step f s).Runs lh (.of m) (.more (.of m'))) ∨
        ∃ m', Quiet m m' ∧ Calm m m' ∧ (((Script.step f s).Runs lh (.of m) (.ok () (.of m')) ∧ execS OnlyEnv lp kr m' o) ∨
          ∃ x, (Script.step f s).Runs lh (.of m) (.thrown x (.of m')) ∧ execS OnlyEnv lp (kt x) m' o) := by
    intro f s m m1 m2 h1 q c hf hx
    have g : ∀ {r}, (s (.of m1)).Runs lh (.of m2) r → (Script.step f s).Runs lh (.of m) r := fun hr => ⟨_, .of h1, .inr (by rw [hf]; exact hr)⟩
    have q1 := (Quiet.others h1).trans q
    have c1 := (Calm.others h1).trans c
    rcases hx with ⟨m', rfl, h2, h3⟩ | ⟨m', h2, h3, ⟨h4, h5⟩ | ⟨x, h4, h5⟩⟩
    · exact .inl ⟨m', rfl, q1.trans h2, g h3⟩
    · exact .inr ⟨m', q1.trans h2, c1.trans h3, .inl ⟨g h4, h5⟩⟩
    · exact .inr ⟨m', q1.trans h2, c1.trans h3, .inr ⟨x, g h4, h5⟩⟩
  -- steps of other threads first
  have pre : ∀ {s : Script V} {m m1 : Wk Op (Ct (Yard V))}, Others OnlyEnv m m1 →
      ((∃ m', o = .more m' ∧ Quiet m1 m' ∧ s.Runs lh (.of m1) (.more (.of m'))) ∨
        ∃ m', Quiet m1 m' ∧ Calm m1 m' ∧ ((s.Runs lh (.of m1) (.ok () (.of m')) ∧ execS OnlyEnv lp kr m' o) ∨
          ∃ x, s.Runs lh (.of m1) (.thrown x (.of m')) ∧ execS OnlyEnv lp (kt x) m' o)) →
      (∃ m', o = .more m' ∧ Quiet m m' ∧ s.Runs lh (.of m) (.more (.of m'))) ∨
        ∃ m', Quiet m m' ∧ Calm m m' ∧ ((s.Runs lh (.of m) (.ok () (.of m')) ∧ execS OnlyEnv lp kr m' o) ∨
          ∃ x, s.Runs lh (.of m) (.thrown x (.of m')) ∧ execS OnlyEnv lp (kt x) m' o) := by
    intro s m m1 h1 hx
    have g : ∀ {r}, s.Runs lh (.of m1) r → s.Runs lh (.of m) r := fun hr => hr.pre (.of h1)
    rcases hx with ⟨m', rfl, h2, h3⟩ | ⟨m', h2, h3, ⟨h4, h5⟩ | ⟨x, h4, h5⟩⟩
    · exact .inl ⟨m', rfl, (Quiet.others h1).trans h2, g h3⟩
    · exact .inr ⟨m', (Quiet.others h1).trans h2, (Calm.others h1).trans h3, .inl ⟨g h4, h5⟩⟩
    · exact .inr ⟨m', (Quiet.others h1).trans h2, (Calm.others h1).trans h3, .inr ⟨x, g h4, h5⟩⟩
  have mid : ∀ {s : Script V} {m m1 : Wk Op (Ct (Yard V))}, Others OnlyEnv m m1 → o = .more m1 →
      (∃ m', o = .more m' ∧ Quiet m m' ∧ s.Runs lh (.of m) (.more (.of m'))) ∨
        ∃ m', Quiet m m' ∧ Calm m m' ∧ ((s.Runs lh (.of m) (.ok () (.of m')) ∧ execS OnlyEnv lp kr m' o) ∨
          ∃ x, s.Runs lh (.of m) (.thrown x (.of m')) ∧ execS OnlyEnv lp (kt x) m' o) :=
    fun h1 ho => .inl ⟨_, ho, .others h1, .now _ (.of h1)⟩
  induction h generalizing m with
  | ret => exact .inr ⟨m, .refl m, .refl m, .inl ⟨⟨_, .refl _, .inr rfl⟩, he⟩⟩
  | throw x => exact .inr ⟨m, .refl m, .refl m, .inr ⟨x, ⟨_, .refl _, .inr rfl⟩, he⟩⟩
  | create a _ ih =>
    obtain ⟨m1, h1, he | he⟩ := he
    · exact mid h1 he
    rw [execS] at he
    have e1 : Env OnlyEnv m1 _ := .create a m1
    refine step h1 (.env e1) (.env e1) (by rw [Hub.of_queue]; rfl) ?_
    obtain ⟨m2, h2, he | he⟩ := he
    · exact mid h2 he
    exact pre h2 (ih _ he)
  | destroy d _ ih =>
    obtain ⟨m1, h1, he | he⟩ := he
    · exact mid h1 he
    have e1 : Env OnlyEnv m1 _ := .destroy d m1
    refine step h1 (.env e1) (.env e1) (by rw [Hub.of_queue]; rfl) ?_
    obtain ⟨m2, h2, he | he⟩ := he
    · exact mid h2 he
    exact pre h2 (ih he)
  | deliver op d _ ih =>
    obtain ⟨m1, h1, he | he⟩ := he
    · exact mid h1 he
    have e1 : Env OnlyEnv m1 _ := .deliver op d m1
    refine step h1 (.env e1) (.env e1) (by rw [Hub.of_queue]; rfl) ?_
    obtain ⟨m2, h2, he | he⟩ := he
    · exact mid h2 he
    exact pre h2 (ih he)
  | item i _ ih =>
    cases i with
    | none =>
      obtain ⟨m0, h0, he | he⟩ := he
      · exact mid h0 he
      obtain ⟨m1, h1, he | he⟩ := he
      · exact mid (h0.trans h1) he
      exact pre (h0.trans h1) (ih he)
    | some i =>
      obtain ⟨m0, h0, he | he⟩ := he
      · exact mid h0 he
      have e1 : Env OnlyEnv m0 _ := .item i m0
      refine step h0 (.env e1) (.env e1) (by rw [Hub.of_queue]) ?_
      obtain ⟨m2, h2, he | he⟩ := he
      · exact mid h2 he
      exact pre h2 (ih he)
  | terminate _ ih =>
    obtain ⟨m0, h0, he | he⟩ := he
    · exact mid h0 he
    have e1 : Env OnlyEnv m0 _ := .terminate m0
    refine step h0 (.env e1) (.env e1) (by rw [show Fifo.terminate m0 = queueWorkItem (some .stop) m0 from rfl, Hub.of_queue]) ?_
    obtain ⟨m2, h2, he | he⟩ := he
    · exact mid h2 he
    exact pre h2 (ih he)
  | terminated _ ih =>
    obtain ⟨m1, h1, he | he⟩ := he
    · exact mid h1 he
    exact step h1 (.refl m1) (.refl m1) rfl (ih _ he)
  | get _ ih =>
    obtain ⟨m1, h1, he | he⟩ := he
    · exact mid h1 he
    exact step h1 (.refl m1) (.refl m1) rfl (ih _ he)
  | put w _ ih =>
    obtain ⟨m1, h1, he | he⟩ := he
    · exact mid h1 he
    obtain ⟨m2, h2, he | he⟩ := he
    · exact mid (h1.trans h2) he
    rw [execS] at he
    have q2 := Quiet.others h2
    have hy : ({ m1.st.user with env := w } : Yard V) = { m2.st.user with env := w } := by
      rw [Yard.mk.injEq]
      exact ⟨rfl, q2.mach.symm, q2.gone.symm, q2.bad.symm, q2.fault.symm⟩
    rw [hy] at he
    exact step (m2 := { m2 with st := { m2.st with user := { m2.st.user with env := w } } }) (h1.trans h2) ⟨rfl, rfl, rfl, rfl, rfl, rfl⟩ ⟨Nat.le_refl _, fun _ _ => rfl, [], (List.append_nil _).symm⟩ rfl (ih he)

/-! ### Work items -/

/-- Machines are ones a client can have. -/
structure Safe (A : Fleet V) (c : Ct (Yard V)) : Prop where
  reach : ∀ h a mm, c.user.mach h = some (a, mm) → SC.Reach (A.prog a) mm
  fault : c.user.fault = false

theorem MInv.safe {c : Ct (Yard V)} (h : MInv A c) : Safe A c := ⟨h.reach, h.fault⟩

theorem Safe.quiet {m m' : Wk Op (Ct (Yard V))} (h : Safe A m.st) (hq : Quiet m m') : Safe A m'.st :=
  ⟨by rw [hq.mach]; exact h.reach, by rw [hq.fault]; exact h.fault⟩

theorem Safe.congr {c c' : Ct (Yard V)} (h : Safe A c) (h2 : c'.user.mach = c.user.mach) (h3 : c'.user.fault = c.user.fault) : Safe A c' :=
  ⟨by rw [h2]; exact h.reach, by rw [h3]; exact h.fault⟩

/-- The reference scheduler has the same outcome with the script. -/
structure Follows (A : Fleet V) (lh : Nat → Hub V → Hub.Out V Nat → Prop) (s : Script V) (m : Wk Op (Ct (Yard V))) (o : Out Op (Ct (Yard V)) Unit) : Prop where
  runs : s.Runs lh (.of m) o.hub
  safe : Safe A o.wk.st
  fit : Still o ∨ MInv A o.wk.st

section
variable {lp : Nat → Wk Op (Ct (Yard V)) → Out Op (Ct (Yard V)) Nat → Prop} {lh : Nat → Hub V → Hub.Out V Nat → Prop} {s : Script V} {m m1 : Wk Op (Ct (Yard V))}
  {o : Out Op (Ct (Yard V)) Unit}

theorem Follows.pre (h : Others OnlyEnv m m1) (hf : Follows A lh s m1 o) : Follows A lh s m o := ⟨hf.runs.pre (.of h), hf.safe, hf.fit⟩

/-- The state of the reference scheduler is the same. -/
theorem Follows.same (h : Hub.of m1 = Hub.of m) (hf : Follows A lh s m1 o) : Follows A lh s m o := ⟨by rw [← h]; exact hf.runs, hf.safe, hf.fit⟩

theorem Follows.mid (s : Script V) (h : Others OnlyEnv m m1) (hs : Safe A m.st) (ho : o = .more m1) : Follows A lh s m o := by
  subst ho
  exact ⟨.now _ (.of h), hs.quiet (.others h), .inl ⟨_, rfl⟩⟩

theorem Follows.step {f : Hub V → Hub V} {k : Hub V → Script V} (h : f (.of m) = .of m1) (hf : Follows A lh (k (.of m)) m1 o) : Follows A lh (.step f k) m o :=
  ⟨⟨_, .refl _, .inr (by rw [h]; exact hf.runs)⟩, hf.safe, hf.fit⟩

theorem Follows.ret (h : MInv A m.st) (ho : o = .ok () m) : Follows A lh .ret m o := by
  subst ho
  exact ⟨⟨_, .refl _, .inr rfl⟩, h.safe, .inr h⟩

theorem Follows.throw {x : Nat} (h : MInv A m.st) (ho : o = .thrown x m) : Follows A lh (.throw x) m o := by
  subst ho
  exact ⟨⟨_, .refl _, .inr rfl⟩, h.safe, .inr h⟩

/-- Code of the user, followed by other code. -/
theorem Follows.code {c : Code V} (h : c.Flat) {kr : Prog Op (Ct (Yard V))} {kt : Nat → Prog Op (Ct (Yard V))} {r : Script V} {t : Nat → Script V}
    (hs : Safe A m.st) (he : execS OnlyEnv lp (c.lift.run kr kt) m o)
    (hr : ∀ m', Quiet m m' → Calm m m' → execS OnlyEnv lp kr m' o → Follows A lh r m' o)
    (ht : ∀ m' x, Quiet m m' → Calm m m' → execS OnlyEnv lp (kt x) m' o → Follows A lh (t x) m' o) :
    Follows A lh ((Script.code c).andThen r t) m o := by
  rcases lift_hubS (lh := lh) h he with ⟨m', rfl, h1, h2⟩ | ⟨m', h1, h2, ⟨h3, h4⟩ | ⟨x, h3, h4⟩⟩
  · exact ⟨h2.more, hs.quiet h1, .inl ⟨_, rfl⟩⟩
  · have := hr m' h1 h2 h4
    exact ⟨h3.ok this.runs, this.safe, this.fit⟩
  · have := ht m' x h1 h2 h4
    exact ⟨h3.thrown this.runs, this.safe, this.fit⟩

theorem Script.andThen_ret : ∀ s : Script V, s.andThen .ret .throw = s
  | .ret => rfl
  | .throw _ => rfl
  | .step f k => by rw [Script.andThen]; congr 1; funext u; exact andThen_ret (k u)
  | .call n k c => by
    rw [Script.andThen]
    congr 1
    · funext i; exact andThen_ret (k i)
    · funext x; exact andThen_ret (c x)

/-- The end of a work item. -/
inductive Closes : Prog Op (Ct (Yard V)) → Script V → Prop where
  | ret : Closes .ret .ret
  | throw (x : Nat) : Closes (.throw x) (.throw x)

theorem Closes.follows {k : Prog Op (Ct (Yard V))} (hk : Closes k s) (hm : MInv A m.st) (he : execS OnlyEnv lp k m o) : Follows A lh s m o := by
  cases hk with
  | ret => exact .ret hm he
  | throw x => exact .throw hm he

/-- Releasing a reference that is not the last one. -/
theorem release_hubS {k : Prog Op (Ct (Yard V))} (hk : Closes k s) {h : Nat} (hn : h < m.st.next) (hr : m.st.refs h = 2) (hm : MInv A m.st)
    (he : execS OnlyEnv lp (release A.beh h k) m o) : Follows A lh s m o := by
  obtain ⟨m1, h1, he | he⟩ := he
  · exact .mid _ h1 hm.safe he
  have hr1 : m1.st.refs h = 2 := by rw [(Calm.others h1).refs h hn]; exact hr
  have hm1 := hm.quiet (.others h1)
  simp only at he
  rw [if_neg (by rw [hr1]; decide), execS] at he
  refine .pre h1 (.same (m1 := { m1 with st := { m1.st with refs := upd m1.st.refs h (m1.st.refs h - 1), fault := m1.st.fault || m1.st.refs h == 0 } }) rfl ?_)
  exact hk.follows (hm1.congr rfl rfl rfl) he

/-- The call of a processor ends. -/
theorem leave_hubS {k : Prog Op (Ct (Yard V))} (hk : Closes k s) {h : Nat} (hn : h < m.st.next) (hr : m.st.refs h = 2) (hm : MInv A m.st)
    (he : execS OnlyEnv lp (leave h (release A.beh h k)) m o) : Follows A lh s m o := by
  obtain ⟨m1, h1, he | he⟩ := he
  · exact .mid _ h1 hm.safe he
  have c1 := Calm.others h1
  rw [execS] at he
  refine .pre h1 (.same (m1 := { m1 with st := { m1.st with busy := upd m1.st.busy h (m1.st.busy h - 1) } }) rfl ?_)
  exact release_hubS hk (Nat.lt_of_lt_of_le hn c1.next) (by rw [← hr]; exact c1.refs h hn) ((hm.quiet (.others h1)).congr rfl rfl rfl) he

theorem create_hubS (hA : A.Flat) {h a : Nat} (hm : MInv A m.st) (hp : HInv m h (.at 1 false false)) (he : execS OnlyEnv lp (body A.beh (.create h a)) m o) :
    Follows A lh (Script.create A h a) m o := by
  unfold Script.create
  cases hno : A.node h with
  | some x =>
    rw [body_create_some hno] at he
    obtain ⟨m1, h1, he | he⟩ := he
    · exact .mid _ h1 hm.safe he
    rw [execS] at he
    have hp1 := (Same.others h1).phase _ _ hp
    have hm1 := hm.quiet (.others h1)
    refine .pre h1 (.step (m1 := { m1 with st := { m1.st with log := m1.st.log ++ [.lost h] } }) rfl ?_)
    obtain ⟨m2, h2, he | he⟩ := he
    · exact .mid _ h2 (hm1.safe.congr rfl rfl) he
    have hp2 : HInv m2 h (.at 1 false false) := (Same.others h2).phase _ (.at 1 false false) hp1
    have hm2 : MInv A m2.st := MInv.quiet (m := { m1 with st := { m1.st with log := m1.st.log ++ [.lost h] } }) (hm1.congr rfl rfl rfl) (.others h2)
    simp only at he
    rw [if_pos hp2.2.1, if_neg (by rw [hp2.2.2.2.1]; simp), execS] at he
    refine .pre h2 (.same (m1 := { m2 with st := { m2.st with refs := upd m2.st.refs h 0 } }) rfl ?_)
    exact .throw (hm2.congr rfl rfl rfl) he
  | none =>
    rw [body_create_none hno] at he
    obtain ⟨m1, h1, he | he⟩ := he
    · exact .mid _ h1 hm.safe he
    have hp1 := (Same.others h1).phase _ _ hp
    have hm1 := hm.quiet (.others h1)
    rw [execS, Fleet.make, Code.andThen_run] at he
    let m2 : Wk Op (Ct (Yard V)) := { m1 with st := { m1.st with
        set := upd m1.st.set h true
        refs := upd m1.st.refs h (m1.st.refs h + 1) } }
    have hm2 : MInv A m2.st := hm1.congr rfl rfl rfl
    have hr2 : m2.st.refs h = 2 := by
      show upd m1.st.refs h (m1.st.refs h + 1) h = 2
      rw [upd_same, hp1.2.1]
    refine .pre h1 (.same (m1 := m2) rfl ?_)
    refine .code (hA.ctor h a) hm2.safe he (fun m3 q3 c3 he => ?_) (fun m3 x q3 c3 he => ?_)
    · have hm3 := hm2.quiet q3
      have hr3 : m3.st.refs h = 2 := by rw [c3.refs h hp1.1]; exact hr2
      have hn3 : h < m3.st.next := Nat.lt_of_lt_of_le hp1.1 c3.next
      obtain ⟨m4, h4, he | he⟩ := he
      · exact .mid _ h4 hm3.safe he
      obtain ⟨m5, h5, he | he⟩ := he
      · exact .mid _ (h4.trans h5) hm3.safe he
      have hm4 := hm3.quiet (.others h4)
      have c4 := Calm.others h4
      have c5 := Calm.others h5
      have q5 := Quiet.others h5
      let y : Yard V := { m4.st.user with mach := upd m4.st.user.mach h (some (a, Mach.fresh m4.st.user.env)) }
      have hs5 : ∀ c : Ct (Yard V), c.user = y → Safe A c := by
        intro c hc
        refine ⟨fun h' a' mm hh => ?_, by rw [hc]; exact hm4.fault⟩
        rw [hc] at hh
        replace hh : upd m4.st.user.mach h (some (a, Mach.fresh m4.st.user.env)) h' = some (a', mm) := hh
        by_cases hx : h' = h
        · subst hx; rw [upd_same] at hh; cases hh; exact .fresh _
        · rw [upd_ne _ _ hx] at hh; exact hm4.reach h' a' mm hh
      refine .pre h4 (.step (m1 := { m4 with st := { m4.st with user := y } }) ?_ (.pre (h5.over y) ?_))
      · unfold Hub.of
        simp only [y, Hub.mk.injEq, true_and, and_true]
        funext h'
        by_cases hx : h' = h
        · subst hx; rw [upd_same, upd_same]; rfl
        · rw [upd_ne _ _ hx, upd_ne _ _ hx]
      rw [execS] at he
      replace he : execS OnlyEnv lp (.get fun c => .put { c with full := upd c.full h true, log := c.log ++ [.made h a] } (release A.beh h .ret))
        { m5 with st := { m5.st with user := y } } o := he
      obtain ⟨m6, h6, he | he⟩ := he
      · exact .mid _ h6 (hs5 _ rfl) he
      rw [execS] at he
      have q6 := Quiet.others h6
      have c6 := Calm.others h6
      let m7 : Wk Op (Ct (Yard V)) := { m6 with st := { m6.st with full := upd m6.st.full h true, log := m6.st.log ++ [.made h a] } }
      refine .pre h6 (.step (m1 := m7) rfl ?_)
      have hn4 : h < m4.st.next := Nat.lt_of_lt_of_le hn3 c4.next
      have hn5 : h < m5.st.next := Nat.lt_of_lt_of_le hn4 c5.next
      refine release_hubS .ret (h := h) (m := m7) (Nat.lt_of_lt_of_le hn5 c6.next) ?_ ?_ he
      · show m6.st.refs h = 2
        rw [c6.refs h hn5]
        show m5.st.refs h = 2
        rw [c5.refs h hn4, c4.refs h hn3]; exact hr3
      · have hs7 : Safe A m7.st := ((hs5 { m5.st with user := y } rfl).quiet (m := { m5 with st := { m5.st with user := y } }) q6).congr rfl rfl
        refine ⟨fun h' => ?_, hs7.reach, hs7.fault⟩
        show upd m6.st.full h true h' = true ↔ m6.st.user.mach h' ≠ none
        rw [q6.mach, q6.full]
        show upd m5.st.full h true h' = true ↔ upd m4.st.user.mach h (some (a, Mach.fresh m4.st.user.env)) h' ≠ none
        by_cases hx : h' = h
        · subst hx; rw [upd_same, upd_same]; simp
        · rw [upd_ne _ _ hx, upd_ne _ _ hx, q5.full]; exact hm4.full h'
    · have hm3 := hm2.quiet q3
      replace he : execS OnlyEnv lp (.get fun c => .put { c with log := c.log ++ [.failed h] } (release A.beh h (.throw x))) m3 o := he
      obtain ⟨m4, h4, he | he⟩ := he
      · exact .mid _ h4 hm3.safe he
      rw [execS] at he
      have c4 := Calm.others h4
      have hn3 : h < m3.st.next := Nat.lt_of_lt_of_le hp1.1 c3.next
      refine .pre h4 (.step (m1 := { m4 with st := { m4.st with log := m4.st.log ++ [.failed h] } }) rfl ?_)
      refine release_hubS (.throw x) (h := h) (Nat.lt_of_lt_of_le hn3 c4.next) ?_ ((hm3.quiet (.others h4)).congr rfl rfl rfl) he
      show m4.st.refs h = 2
      rw [c4.refs h hn3, c3.refs h hp1.1]; exact hr2

theorem Follows.end (hr : Still o ∨ MInv A o.wk.st) {m' : Wk Op (Ct (Yard V))} (ho : o = .ok () m' ∨ ∃ x, o = .thrown x m') : MInv A m'.st := by
  rcases hr with ⟨_, rfl⟩ | hr
  · rcases ho with ho | ⟨_, ho⟩ <;> cases ho
  · rcases ho with rfl | ⟨_, rfl⟩ <;> exact hr

/-- Code of the user changes its state. Other threads may do something between reading and writing it; it is as if they did it afterwards. -/
theorem Follows.put {f : Hub V → Hub V} {k : Hub V → Script V} {y : Yard V} {c : Code (Yard V)} {kr : Prog Op (Ct (Yard V))} {kt : Nat → Prog Op (Ct (Yard V))}
    (hs : Safe A m.st) (hf : f (.of m) = .of { m with st := { m.st with user := y } }) (he : execS OnlyEnv lp ((Code.put y c).run kr kt) m o)
    (hc : ∀ m', Others OnlyEnv { m with st := { m.st with user := y } } m' → execS OnlyEnv lp (c.run kr kt) m' o → Follows A lh (k (.of m)) m' o) :
    Follows A lh (.step f k) m o := by
  obtain ⟨m1, h1, he | he⟩ := he
  · exact .mid _ h1 hs he
  rw [execS] at he
  exact .step hf (.pre (h1.over y) (hc _ (h1.over y) he))

section
variable (hA : A.Flat) (hwf : ∀ a, (A.prog a).toChart.WF) (hok : ∀ a, Contract (A.prog a)) (hpl : ∀ a, Plain (A.prog a))
include hA hwf hok hpl

/-- The destructor of a machine. -/
theorem unmake_hubS {h a : Nat} {mm : Mach V} (hs : Safe A m.st) (hmm : m.st.user.mach h = some (a, mm)) (hf : ∀ h', h' ≠ h → (m.st.full h' = true ↔ m.st.user.mach h' ≠ none))
    (hh : m.st.full h = false) (he : execS OnlyEnv lp ((A.unmake h).run .ret (fun _ => .ret)) m o) : Follows A lh (Script.leave A h) m o := by
  obtain ⟨m1, h1, he | he⟩ := he
  · exact .mid _ h1 hs he
  refine .pre h1 ?_
  have q1 := Quiet.others h1
  have hs1 := hs.quiet q1
  rw [← q1.mach] at hmm
  obtain ⟨mm', d1, d2⟩ := destruct_hub hwf hok hpl (h := (hs1.reach h a mm hmm).world m1.st.user.env)
  have d3 : Ref.leaveAll (A.prog a) false { abs mm with world := (Hub.of m1).env } = .ok () (abs mm') := d2
  let y : Yard V := { m1.st.user with env := mm'.world, mach := upd m1.st.user.mach h none, gone := m1.st.user.gone ++ [(h, a, mm')] }
  replace he : execS OnlyEnv lp ((match m1.st.user.mach h with
            | none => .put { m1.st.user with fault := true } .ret
            | some (a, mm) => match SC.destruct (A.prog a) { mm with world := m1.st.user.env } with
              | .ok _ m' => .put { m1.st.user with env := m'.world, mach := upd m1.st.user.mach h none, gone := m1.st.user.gone ++ [(h, a, m')] } (A.calls h m'.world).lift
              | _ => .put { m1.st.user with fault := true } .ret : Code (Yard V)).run .ret (fun _ => .ret)) m1 o := he
  rw [hmm] at he
  simp only [d1] at he
  unfold Script.leave
  refine .put (y := y) hs1 ?_ he ?_
  · rw [Hub.of_mach hmm]
    simp only [d3]
    have := Hub.of_upd (m := m1) (h := h) none
    unfold Hub.of
    simp only [y]
    rw [this]
    rfl
  · intro m2 h2 he
    rw [Hub.of_mach hmm]
    simp only [d3]
    have hm2 : MInv A m2.st := by
      refine MInv.quiet (m := { m1 with st := { m1.st with user := y } }) ⟨fun h' => ?_, fun h' a' mm hx => ?_, hs1.fault⟩ (.others h2)
      · show m1.st.full h' = true ↔ upd m1.st.user.mach h none h' ≠ none
        by_cases hx : h' = h
        · subst hx; rw [upd_same, q1.full, hh]; simp
        · rw [upd_ne _ _ hx, q1.full, q1.mach]; exact hf h' hx
      · replace hx : upd m1.st.user.mach h none h' = some (a', mm) := hx
        by_cases hy : h' = h
        · subst hy; rw [upd_same] at hx; cases hx
        · rw [upd_ne _ _ hy] at hx; exact hs1.reach h' a' mm hx
    exact .code (hA.calls h mm'.world) hm2.safe he (fun m' q _ he => .ret (hm2.quiet q) he) (fun m' _ q _ he => .ret (hm2.quiet q) he)

theorem destroy_hubS {h : Nat} (hm : MInv A m.st) {f : Bool} (hp : HInv m h (.at 1 true f) ∨ HInv m h (.at 0 false false))
    (he : execS OnlyEnv lp (body A.beh (.destroy (some h))) m o) : Follows A lh (Script.destroy A h) m o := by
  obtain ⟨m1, h1, he | he⟩ := he
  · exact .mid _ h1 hm.safe he
  have hm1 := hm.quiet (.others h1)
  have hp1 : HInv m1 h (.at 1 true f) ∨ HInv m1 h (.at 0 false false) := hp.imp ((Same.others h1).phase _ _) ((Same.others h1).phase _ _)
  refine .pre h1 ?_
  have absent : m1.st.user.mach h = none → ∀ m2, Hub.of m2 = Hub.of m1 → MInv A m2.st → o = .ok () m2 → Follows A lh (Script.destroy A h) m1 o := by
    intro hmm m2 hf hm2 ho
    have hn : (Hub.of m1).mach h = none := by unfold Hub.of; simp [hmm]
    refine .step (m1 := m2) ?_ ?_
    · rw [hn]; exact hf.symm
    · rw [hn]; exact .ret hm2 ho
  simp only at he
  rcases hp1 with hp1 | hp1
  · rw [if_neg (by rw [hp1.2.1]; simp), execS] at he
    let m2 : Wk Op (Ct (Yard V)) := { m1 with st := { m1.st with
      refs := upd m1.st.refs h (if m1.st.set h then m1.st.refs h else m1.st.refs h + 1)
      set := upd m1.st.set h false } }
    have hr2 : m2.st.refs h = 1 := by
      show upd m1.st.refs h (if m1.st.set h then m1.st.refs h else m1.st.refs h + 1) h = 1
      rw [upd_same, hp1.2.1, hp1.2.2.1]; rfl
    have hm2 : MInv A m2.st := hm1.congr rfl rfl rfl
    refine .same (m1 := m2) rfl ?_
    obtain ⟨m3, h3, he | he⟩ := he
    · exact .mid _ h3 hm2.safe he
    have hm3 := hm2.quiet (.others h3)
    have hr3 : m3.st.refs h = 1 := by rw [(Calm.others h3).refs h hp1.1]; exact hr2
    refine .pre h3 ?_
    simp only at he
    rw [if_pos hr3] at he
    cases hmm : m3.st.user.mach h with
    | none =>
      have hf : m3.st.full h ≠ true := fun hc => (hm3.full h).1 hc hmm
      rw [if_neg hf, execS, execS] at he
      have hn : (Hub.of m3).mach h = none := by unfold Hub.of; simp [hmm]
      refine .step (m1 := { m3 with st := { m3.st with refs := upd m3.st.refs h 0 } }) ?_ ?_
      · rw [hn]; rfl
      · rw [hn]; exact .ret (hm3.congr rfl rfl rfl) he
    | some x =>
      obtain ⟨a, mm⟩ := x
      have hf : m3.st.full h = true := (hm3.full h).2 (by rw [hmm]; simp)
      let m4 : Wk Op (Ct (Yard V)) := { m3 with st := { m3.st with
        refs := upd m3.st.refs h 0
        full := upd m3.st.full h false
        log := m3.st.log ++ [.gone h] } }
      rw [if_pos hf, execS] at he
      replace he : execS OnlyEnv lp (((A.dtor h).lift.andThen (A.unmake h) (fun _ => A.unmake h)).run .ret (fun _ => .ret)) m4 o := he
      rw [Code.andThen_run] at he
      refine .step (m1 := m4) ?_ ?_
      · rw [Hub.of_mach hmm]; rfl
      · rw [Hub.of_mach hmm]
        have hs4 : Safe A m4.st := hm3.safe.congr rfl rfl
        have key : ∀ m5, Quiet m4 m5 → execS OnlyEnv lp ((A.unmake h).run .ret (fun _ => .ret)) m5 o → Follows A lh (Script.leave A h) m5 o := by
          intro m5 q5 he
          refine unmake_hubS hA hwf hok hpl (hs4.quiet q5) (a := a) (mm := mm) (by rw [q5.mach]; exact hmm) (fun h' hx => ?_) ?_ he
          · rw [q5.full, q5.mach]
            show upd m3.st.full h false h' = true ↔ m3.st.user.mach h' ≠ none
            rw [upd_ne _ _ hx]; exact hm3.full h'
          · rw [q5.full]
            exact upd_same ..
        exact .code (hA.dtor h) hs4 he (fun m5 q _ he => key m5 q he) (fun m5 _ q _ he => key m5 q he)
  · rw [if_pos hp1.2.1, execS] at he
    have hf : m1.st.full h ≠ true := by rw [hp1.2.2.2.1]; decide
    refine absent ?_ m1 rfl hm1 he
    cases hmm : m1.st.user.mach h with
    | none => rfl
    | some x => exact absurd ((hm1.full h).2 (by rw [hmm]; simp)) hf

omit hA in
theorem operate_hubS {h a : Nat} {mm : Mach V} (hA : A.Flat) (op : HOp) (hm : MInv A m.st) (hmm : m.st.user.mach h = some (a, mm)) (hn : h < m.st.next) (hr : m.st.refs h = 2)
    (he : execS OnlyEnv lp ((A.operate op h).run (leave h (release A.beh h .ret)) (fun x => leave h (release A.beh h (.throw x)))) m o) :
    Follows A lh (Script.operate A op h) m o := by
  obtain ⟨m1, h1, he | he⟩ := he
  · exact .mid _ h1 hm.safe he
  refine .pre h1 ?_
  have q1 := Quiet.others h1
  have c1 := Calm.others h1
  have hm1 := hm.quiet q1
  rw [← q1.mach] at hmm
  have hr1 : m1.st.refs h = 2 := by rw [c1.refs h hn]; exact hr
  have hn1 : h < m1.st.next := Nat.lt_of_lt_of_le hn c1.next
  have hf : m1.st.full h = true := (hm1.full h).2 (by rw [hmm]; simp)
  let kr : Prog Op (Ct (Yard V)) := leave h (release A.beh h .ret)
  let kt : Nat → Prog Op (Ct (Yard V)) := fun x => leave h (release A.beh h (.throw x))
  replace he : execS OnlyEnv lp ((match m1.st.user.mach h with
        | none => .put { m1.st.user with fault := true } .ret
        | some (a, mm) =>
          if Fleet.legal (A.prog a) { mm with world := m1.st.user.env } (A.call op) then
            match (A.call op).run (A.prog a) { mm with world := m1.st.user.env } with
            | .ok true m' => .put { m1.st.user with env := m'.world, mach := upd m1.st.user.mach h (some (a, m')) } (A.calls h m'.world).lift
            | .ok false _ => .put { m1.st.user with bad := true } .ret
            | .thrown x m' => .put { m1.st.user with env := m'.world, mach := upd m1.st.user.mach h (some (a, m')) }
                ((A.calls h m'.world).lift.andThen (.throw x) (fun _ => .throw x))
            | .fault _ => .put { m1.st.user with fault := true } .ret
          else .put { m1.st.user with bad := true } .ret : Code (Yard V)).run kr kt) m1 o := he
  rw [hmm] at he
  simp only at he
  -- the call has ended
  have fin : ∀ {k s}, Closes k s → ∀ m2 m3, m2.st.refs h = 2 → h < m2.st.next → MInv A m2.st → Quiet m2 m3 → Calm m2 m3 →
      execS OnlyEnv lp (leave h (release A.beh h k)) m3 o → Follows A lh s m3 o := by
    intro k s hk m2 m3 hr2 hn2 hm2 q3 c3 he
    exact leave_hubS hk (Nat.lt_of_lt_of_le hn2 c3.next) (by rw [c3.refs h hn2]; exact hr2) (hm2.quiet q3) he
  have hre := (hm1.reach h a mm hmm).world m1.st.user.env
  obtain ⟨l1, l2⟩ := call_hub hwf hok hpl hre op
  have l3 : Hub.legal (A.prog a) { abs mm with world := (Hub.of m1).env } op = Fleet.legal (A.prog a) { mm with world := m1.st.user.env } (A.call op) := l1.symm
  -- the machine did not do anything
  have bad : ∀ {f : Hub V → Hub V} {k : Hub V → Script V}, f (.of m1) = { Hub.of m1 with bad := true } → k (.of m1) = .ret →
      execS OnlyEnv lp ((Code.put { m1.st.user with bad := true } .ret).run kr kt) m1 o → Follows A lh (.step f k) m1 o := by
    intro f k e1 e2 he
    refine .put hm1.safe (by rw [e1]; rfl) he fun m2 h2 he => ?_
    rw [e2]
    exact fin .ret { m1 with st := { m1.st with user := { m1.st.user with bad := true } } } m2 hr1 hn1 (hm1.congr rfl rfl rfl) (.others h2) (.others h2) he
  -- the machine is another one
  have step : ∀ mm' : Mach V, SC.Reach (A.prog a) mm' → MInv A { m1.st with user := { m1.st.user with env := mm'.world, mach := upd m1.st.user.mach h (some (a, mm')) } } := by
    intro mm' hre
    refine ⟨fun h' => ?_, fun h' a' mm hh => ?_, hm1.fault⟩
    · show m1.st.full h' = true ↔ upd m1.st.user.mach h (some (a, mm')) h' ≠ none
      by_cases hx : h' = h
      · subst hx; rw [upd_same, hf]; simp
      · rw [upd_ne _ _ hx]; exact hm1.full h'
    · replace hh : upd m1.st.user.mach h (some (a, mm')) h' = some (a', mm) := hh
      by_cases hx : h' = h
      · subst hx; rw [upd_same] at hh; cases hh; exact hre
      · rw [upd_ne _ _ hx] at hh; exact hm1.reach h' a' mm hh
  have eqn : ∀ mm' : Mach V, ({ Hub.of m1 with env := (abs mm').world, mach := upd (Hub.of m1).mach h (some (a, abs mm')) } : Hub V) =
      Hub.of { m1 with st := { m1.st with user := { m1.st.user with env := mm'.world, mach := upd m1.st.user.mach h (some (a, mm')) } } } := by
    intro mm'
    have := Hub.of_upd (m := m1) (h := h) (some (a, mm'))
    unfold Hub.of
    rw [this]
    rfl
  unfold Script.operate
  by_cases hl : Fleet.legal (A.prog a) { mm with world := m1.st.user.env } (A.call op) = true
  · rw [if_pos hl] at he
    rcases l2 hl with ⟨b, mm', r1, r2, r3⟩ | ⟨x, mm', r1, r2, r3⟩
    · replace r2 : Ref.run (A.prog a) (Hub.op A op) { abs mm with world := (Hub.of m1).env } = _ := r2
      rw [r1] at he
      cases b with
      | false =>
        refine bad ?_ ?_ he
        · rw [Hub.of_mach hmm]; simp only [l3, hl, r2, if_true]
        · rw [Hub.of_mach hmm]; simp only [l3, hl, r2, if_true]
      | true =>
        refine .put hm1.safe ?_ he fun m2 h2 he => ?_
        · rw [Hub.of_mach hmm]; simp only [l3, hl, r2, if_true]; exact eqn mm'
        · rw [Hub.of_mach hmm]; simp only [l3, hl, r2, if_true]
          have hm2 := (MInv.quiet (m' := m2) (m := { m1 with st := _ }) (step mm' (r3 rfl)) (.others h2))
          have c2 := Calm.others h2
          have := Follows.code (lh := lh) (r := .ret) (t := .throw) (hA.calls h mm'.world) hm2.safe he
            (fun m3 q3 c3 he => fin .ret m2 m3 (by rw [c2.refs h hn1]; exact hr1) (Nat.lt_of_lt_of_le hn1 c2.next) hm2 q3 c3 he)
            (fun m3 x q3 c3 he => fin (.throw x) m2 m3 (by rw [c2.refs h hn1]; exact hr1) (Nat.lt_of_lt_of_le hn1 c2.next) hm2 q3 c3 he)
          rw [Script.andThen_ret] at this
          exact this
    · replace r2 : Ref.run (A.prog a) (Hub.op A op) { abs mm with world := (Hub.of m1).env } = _ := r2
      rw [r1] at he
      refine .put hm1.safe ?_ he fun m2 h2 he => ?_
      · rw [Hub.of_mach hmm]; simp only [l3, hl, r2, if_true]; exact eqn mm'
      · rw [Hub.of_mach hmm]; simp only [l3, hl, r2, if_true]
        have hm2 := (MInv.quiet (m' := m2) (m := { m1 with st := _ }) (step mm' r3) (.others h2))
        have c2 := Calm.others h2
        rw [Code.andThen_run] at he
        exact .code (hA.calls h mm'.world) hm2.safe he
          (fun m3 q3 c3 he => fin (.throw x) m2 m3 (by rw [c2.refs h hn1]; exact hr1) (Nat.lt_of_lt_of_le hn1 c2.next) hm2 q3 c3 he)
          (fun m3 _ q3 c3 he => fin (.throw x) m2 m3 (by rw [c2.refs h hn1]; exact hr1) (Nat.lt_of_lt_of_le hn1 c2.next) hm2 q3 c3 he)
  · rw [if_neg hl] at he
    refine bad ?_ ?_ he
    · rw [Hub.of_mach hmm]; simp only [l3, hl, if_false]; rfl
    · rw [Hub.of_mach hmm]; simp only [l3, hl, if_false]; rfl

theorem deliver_hubS {h : Nat} (op : HOp) (hm : MInv A m.st) {f : Bool} (hp : HInv m h (.at 1 true f) ∨ HInv m h (.at 0 false false))
    (he : execS OnlyEnv lp (body A.beh (.deliver op (some h))) m o) : Follows A lh (Script.deliver A op h) m o := by
  obtain ⟨m1, h1, he | he⟩ := he
  · exact .mid _ h1 hm.safe he
  have hm1 := hm.quiet (.others h1)
  have hp1 : HInv m1 h (.at 1 true f) ∨ HInv m1 h (.at 0 false false) := hp.imp ((Same.others h1).phase _ _) ((Same.others h1).phase _ _)
  refine .pre h1 ?_
  have absent : m1.st.user.mach h = none → ∀ m2, Hub.of m2 = Hub.of m1 → MInv A m2.st → o = .ok () m2 → Follows A lh (Script.deliver A op h) m1 o := by
    intro hmm m2 hf hm2 ho
    have hn : (Hub.of m1).mach h = none := by unfold Hub.of; simp [hmm]
    refine .step (m1 := m2) ?_ ?_
    · rw [hn]; exact hf.symm
    · rw [hn]; exact .ret hm2 ho
  simp only at he
  cases hmm : m1.st.user.mach h with
  | none =>
    have hf : m1.st.full h ≠ true := fun hc => (hm1.full h).1 hc hmm
    rcases hp1 with hp1 | hp1
    · rw [if_neg (by rw [hp1.2.1]; simp), if_neg hf, execS, execS] at he
      exact absent hmm { m1 with st := { m1.st with fault := true, nulls := m1.st.nulls ++ [(h, m1.st.log)] } } rfl (hm1.congr rfl rfl rfl) he
    · rw [if_pos hp1.2.1, execS] at he
      exact absent hmm m1 rfl hm1 he
  | some x =>
    obtain ⟨a, mm⟩ := x
    have hf : m1.st.full h = true := (hm1.full h).2 (by rw [hmm]; simp)
    have hr : m1.st.refs h = 1 ∧ h < m1.st.next := by
      rcases hp1 with hp1 | hp1
      · exact ⟨hp1.2.1, hp1.1⟩
      · have := hp1.2.2.2.1; rw [hf] at this; cases this
    rw [if_neg (by rw [hr.1]; simp), if_pos hf, execS] at he
    refine .step (m1 := { m1 with st := { m1.st with
      refs := upd m1.st.refs h (m1.st.refs h + 1)
      log := m1.st.log ++ [.called op h]
      busy := upd m1.st.busy h (m1.st.busy h + 1) } }) ?_ ?_
    · rw [Hub.of_mach hmm]; rfl
    · rw [Hub.of_mach hmm]
      refine operate_hubS hwf hok hpl hA op (hm1.congr rfl rfl rfl) hmm hr.2 ?_ he
      show upd m1.st.refs h (m1.st.refs h + 1) h = 2
      rw [upd_same, hr.1]

/-- One work item. -/
theorem work_hubS (hS : SInv m) (hm : MInv A m.st) {w : Work Op} {q : List (Option (Work Op))} (hq : m.queue = some w :: q)
    (he : callItemS OnlyEnv (body A.beh) lp w { m with queue := q } o) : Follows A lh (Script.work A w) { m with queue := q } o := by
  let m1 : Wk Op (Ct (Yard V)) := { m with queue := q, log := m.log ++ [.start w] }
  have hw : m.work = w :: m1.work := by unfold Wk.work; rw [hq]; rfl
  obtain ⟨r, h1, h2⟩ := he
  have key : ∀ op, w = .user op → Follows A lh (Script.work A w) m1 r → Follows A lh (Script.work A w) { m with queue := q } o := by
    intro op ho hf
    cases r with
    | ok u m' =>
      cases (show o = _ from h2)
      exact ⟨hf.runs, hf.safe, hf.fit.elim (fun ⟨_, h⟩ => by cases h) .inr⟩
    | thrown x m' =>
      cases (show o = _ from h2)
      exact ⟨hf.runs, hf.safe, hf.fit.elim (fun ⟨_, h⟩ => by cases h) .inr⟩
    | more m' =>
      cases (show o = _ from h2)
      exact ⟨hf.runs, hf.safe, hf.fit⟩
  -- the holder of a handle that is in the queue
  have held : ∀ op h, w = .user op → Spec.opHandle op = some h → (∀ a, op ≠ .create h a) →
      ∃ f, HInv m1 h (.at 1 true f) ∨ HInv m1 h (.at 0 false false) := by
    intro op h ho hh hc
    obtain ⟨st, -, h2⟩ := hS.serve h
    have h2' : HInv m1 h st.phase := h2.pop hw rfl (by rw [ho]; intro a he; exact hc a (Work.user.inj he))
    cases st with
    | unborn => exact absurd h2 (fun hp => hp.born (by rw [hw, ho]) hh hc)
    | alive => exact ⟨true, .inl h2'⟩
    | failed => exact ⟨false, .inl h2'⟩
    | gone => exact ⟨true, .inr h2'⟩
  have hm1 : MInv A m1.st := hm
  cases w with
  | stop =>
    cases (show r = _ from h1)
    cases (show o = _ from h2)
    exact .step (m1 := { m with queue := q, terminated := true, log := m.log ++ [.start .stop] ++ [.fin .stop] }) rfl (.ret hm rfl)
  | user op =>
    refine key op rfl ?_
    replace h1 : execS OnlyEnv lp (body A.beh op) m1 r := h1
    cases op with
    | item i =>
      have := Follows.code (lh := lh) (r := .ret) (t := .throw) (hA.item i) hm1.safe h1 (fun m' q _ he => .ret (hm1.quiet q) he) (fun m' x q _ he => .throw (hm1.quiet q) he)
      rw [Script.andThen_ret] at this
      exact this
    | create h a =>
      obtain ⟨st, -, h2⟩ := hS.serve h
      have hst' : st = .unborn := by
        have hbad : ∀ r b f, ¬ HInv m h (.at r b f) := by
          intro r b f hp
          exact hp.2.2.2.2 a (by rw [hw]; exact List.mem_cons_self)
        cases st with
        | unborn => rfl
        | alive => exact absurd h2 (hbad _ _ _)
        | failed => exact absurd h2 (hbad _ _ _)
        | gone => exact absurd h2 (hbad _ _ _)
      subst hst'
      exact create_hubS hA hm1 (h2.popCreate hw rfl) h1
    | destroy oh =>
      cases oh with
      | none => exact .ret hm1 h1
      | some h =>
        obtain ⟨f, hp⟩ := held _ h rfl rfl (by simp)
        exact destroy_hubS hA hwf hok hpl hm1 hp h1
    | deliver op oh =>
      cases oh with
      | none => exact .ret hm1 h1
      | some h =>
        obtain ⟨f, hp⟩ := held _ h rfl rfl (by simp)
        exact deliver_hubS hA hwf hok hpl op hm1 hp h1

end

/-! ### The worker and its clients -/

theorem HubInv.others (h : HubInv A m) (ho : Others OnlyEnv m m1) : HubInv A m1 :=
  ⟨h.queue.others ho, h.holders.same (.others ho), h.machines.quiet (.others ho)⟩

/-- What holds of an outcome. -/
structure Held {α : Type} (A : Fleet V) (o : Out Op (Ct (Yard V)) α) : Prop where
  queue : Inv o.wk
  safe : Safe A o.wk.st
  fit : Still o ∨ HubInv A o.wk

theorem HubInv.more {α : Type} {o : Out Op (Ct (Yard V)) α} (h : HubInv A m) (ho : o = .more m) : Held A o := by
  subst ho; exact ⟨h.queue, h.machines.safe, .inl ⟨_, rfl⟩⟩

theorem HubInv.ok {α : Type} {o : Out Op (Ct (Yard V)) α} {a : α} (h : HubInv A m) (ho : o = .ok a m) : Held A o := by
  subst ho; exact ⟨h.queue, h.machines.safe, .inr h⟩

theorem HubInv.thrown {α : Type} {o : Out Op (Ct (Yard V)) α} {x : Nat} (h : HubInv A m) (ho : o = .thrown x m) : Held A o := by
  subst ho; exact ⟨h.queue, h.machines.safe, .inr h⟩

section
variable (hA : A.Flat) (hwf : ∀ a, (A.prog a).toChart.WF) (hok : ∀ a, Contract (A.prog a)) (hpl : ∀ a, Plain (A.prog a))
include hA hwf hok hpl

theorem loop_hubS {wait : Bool} : ∀ (k max c : Nat) (m : Wk Op (Ct (Yard V))) (o : Out Op (Ct (Yard V)) Nat), HubInv A m →
    loopS OnlyEnv wait (body A.beh) k max c m o → Hub.Loops wait A k max c (.of m) o.hub ∧ Held A o
  | 0, _, _, m, o, h, he => by
    cases (show o = _ from he)
    exact ⟨rfl, h.more rfl⟩
  | k + 1, max, c, m, o, h, he => by
    rw [Hub.Loops]
    obtain ⟨m1, h1, rfl | he⟩ := he
    · exact ⟨⟨_, .of h1, .inl rfl⟩, (h.others h1).more rfl⟩
    replace h := h.others h1
    have hcond : (!m1.terminated && (max == 0 || decide (c < max))) = true ↔ ¬ ((Hub.of m1).terminated = true ∨ (max ≠ 0 ∧ max ≤ c)) := by
      show _ ↔ ¬ (m1.terminated = true ∨ _)
      cases m1.terminated
      · by_cases hx : max = 0
        · simp [hx]
        · simp [hx]
      · simp
    split at he
    · rename_i hc
      have ht : m1.terminated = false := by
        cases hm : m1.terminated with
        | false => rfl
        | true => rw [hm] at hc; simp at hc
      split at he
      · subst he
        exact ⟨⟨_, .of h1, .inl rfl⟩, h.more rfl⟩
      · rename_i hw
        unfold dequeueItem at he
        cases hq : m1.queue with
        | nil =>
          rw [hq] at he
          cases (show o = _ from he)
          refine ⟨⟨_, .of h1, .inr ?_⟩, h.ok rfl⟩
          rw [if_neg (hcond.1 hc), show (Hub.of m1).queue = [] by unfold Hub.of; simp [hq]]
          refine ⟨?_, rfl⟩
          cases wait with
          | false => rfl
          | true => exact absurd ⟨rfl, hq⟩ hw
        | cons w q =>
          rw [hq] at he
          cases w with
          | none => exact absurd rfl (h.queue.full none (by rw [hq]; exact List.mem_cons_self))
          | some w =>
            obtain ⟨r, h2, h3⟩ := he
            have i1 := callItemS_inv (fun n m o h he => (loopS_inv wait (body A.beh) k n 0 m o h (fun _ => Nat.zero_le _) he).1) h.queue hq ht h2
            have i2 := h.holders.callItemS hA.beh hq h2
            have i3 := work_hubS (lh := fun _ u o => o = .more u) hA hwf hok hpl h.holders h.machines hq h2
            have run : (∃ r', (Script.work A w).Runs (fun _ u o => o = .more u) (.of { m1 with queue := q }) r' ∧ match r' with
                | .ok _ u => Hub.Loops wait A k max (c + 1) u o.hub
                | .thrown x u => o.hub = .thrown x u
                | .more u => o.hub = .more u) → ∃ u1, Hub.Others (.of m) u1 ∧ (o.hub = .more u1 ∨
                if u1.terminated = true ∨ (max ≠ 0 ∧ max ≤ c) then o.hub = .ok c u1
                else match u1.queue with
                  | [] => wait = false ∧ o.hub = .ok c u1
                  | w :: q => ∃ r, (Script.work A w).Runs (fun _ u o => o = .more u) { u1 with queue := q } r ∧ match r with
                    | .ok _ u => Hub.Loops wait A k max (c + 1) u o.hub
                    | .thrown x u => o.hub = .thrown x u
                    | .more u => o.hub = .more u) := by
              intro hx
              refine ⟨_, .of h1, .inr ?_⟩
              rw [if_neg (hcond.1 hc), show (Hub.of m1).queue = w :: q.filterMap id by unfold Hub.of; simp [hq]]
              exact hx
            have hu : ∀ {m' : Wk Op (Ct (Yard V))}, (r = .ok () m' ∨ ∃ x, r = .thrown x m') → HubInv A m' := by
              intro m' hr
              refine ⟨?_, ?_, Follows.end i3.fit hr⟩
              · rcases hr with rfl | ⟨_, rfl⟩ <;> exact i1
              · rcases i2 with ⟨_, rfl⟩ | i2
                · rcases hr with hr | ⟨_, hr⟩ <;> cases hr
                · rcases hr with rfl | ⟨_, rfl⟩ <;> exact i2
            cases r with
            | ok a m' =>
              obtain ⟨l1, l2⟩ := loop_hubS k max (c + 1) m' o (hu (.inl rfl)) h3
              exact ⟨run ⟨_, i3.runs, l1⟩, l2⟩
            | thrown x m' =>
              cases (show o = _ from h3)
              exact ⟨run ⟨_, i3.runs, rfl⟩, (hu (.inr ⟨_, rfl⟩)).thrown rfl⟩
            | more m' =>
              cases (show o = _ from h3)
              exact ⟨run ⟨_, i3.runs, rfl⟩, i1, i3.safe, .inl ⟨_, rfl⟩⟩
    · rename_i hc
      cases (show o = _ from he)
      refine ⟨⟨_, .of h1, .inr ?_⟩, h.ok rfl⟩
      rw [if_pos (Classical.byContradiction fun hn => hc (hcond.2 hn))]
      rfl

omit hA hwf hok hpl in
theorem client_hubS {lp : Nat → Wk Op (Ct (Yard V)) → Out Op (Ct (Yard V)) Nat → Prop} {lh : Nat → Hub V → Hub.Out V Nat → Prop}
    (hl : ∀ n m o, HubInv A m → lp n m o → lh n (.of m) o.hub ∧ Held A o) :
    ∀ (c : Code V) (m : Wk Op (Ct (Yard V))) (o : Out Op (Ct (Yard V)) Unit), HubInv A m → execS OnlyEnv lp (c.lift.run .ret .throw) m o →
      (Script.code c).Runs lh (.of m) o.hub ∧ Held A o := by
  have mid : ∀ {s : Script V} {m m1 : Wk Op (Ct (Yard V))} {o : Out Op (Ct (Yard V)) Unit}, HubInv A m → Others OnlyEnv m m1 → o = .more m1 → s.Runs lh (.of m) o.hub ∧ Held A o := by
    rintro s m m1 o h h1 rfl
    exact ⟨.now _ (.of h1), (h.others h1).more rfl⟩
  have step : ∀ {f : Hub V → Hub V} {k : Hub V → Script V} {m m1 m2 m3 : Wk Op (Ct (Yard V))} {o : Out Op (Ct (Yard V)) Unit}, Others OnlyEnv m m1 →
      f (.of m1) = .of m2 → Others OnlyEnv m2 m3 → (k (.of m1)).Runs lh (.of m3) o.hub ∧ Held A o → (Script.step f k).Runs lh (.of m) o.hub ∧ Held A o := by
    rintro f k m m1 m2 m3 o h1 hf h2 ⟨hr, hh⟩
    exact ⟨⟨_, .of h1, .inr (by rw [hf]; exact hr.pre (.of h2))⟩, hh⟩
  intro c
  induction c with
  | ret => intro m o h he; cases (show o = _ from he); exact ⟨⟨_, .refl _, .inr rfl⟩, h.ok rfl⟩
  | throw x => intro m o h he; cases (show o = _ from he); exact ⟨⟨_, .refl _, .inr rfl⟩, h.thrown rfl⟩
  | create a k ih =>
    intro m o h he
    obtain ⟨m1, h1, he | he⟩ := he
    · exact mid h h1 he
    rw [execS] at he
    obtain ⟨m2, h2, he | he⟩ := he
    · have hx : Others OnlyEnv m1 m2 := Others.trans (.step (.refl _) (.create a m1)) h2
      exact mid h (h1.trans hx) he
    have hx : Others OnlyEnv m1 m2 := Others.trans (.step (.refl _) (.create a m1)) h2
    exact step h1 (by rw [Option.map_some, Hub.of_queue]; rfl) h2 (ih _ m2 o (h.others (h1.trans hx)) he)
  | destroy d k ih =>
    intro m o h he
    obtain ⟨m1, h1, he | he⟩ := he
    · exact mid h h1 he
    obtain ⟨m2, h2, he | he⟩ := he
    · have hx : Others OnlyEnv m1 m2 := Others.trans (.step (.refl _) (.destroy d m1)) h2
      exact mid h (h1.trans hx) he
    have hx : Others OnlyEnv m1 m2 := Others.trans (.step (.refl _) (.destroy d m1)) h2
    exact step h1 (by rw [Option.map_some, Hub.of_queue]; rfl) h2 (ih m2 o (h.others (h1.trans hx)) he)
  | deliver op d k ih =>
    intro m o h he
    obtain ⟨m1, h1, he | he⟩ := he
    · exact mid h h1 he
    obtain ⟨m2, h2, he | he⟩ := he
    · have hx : Others OnlyEnv m1 m2 := Others.trans (.step (.refl _) (.deliver op d m1)) h2
      exact mid h (h1.trans hx) he
    have hx : Others OnlyEnv m1 m2 := Others.trans (.step (.refl _) (.deliver op d m1)) h2
    exact step h1 (by rw [Option.map_some, Hub.of_queue]; rfl) h2 (ih m2 o (h.others (h1.trans hx)) he)
  | item i k ih =>
    intro m o h he
    cases i with
    | none =>
      obtain ⟨m0, h0, he | he⟩ := he
      · exact mid h h0 he
      obtain ⟨m1, h1, he | he⟩ := he
      · exact mid h (h0.trans h1) he
      obtain ⟨hr, hh⟩ := ih m1 o (h.others (h0.trans h1)) he
      exact ⟨hr.pre (.of (h0.trans h1)), hh⟩
    | some i =>
      obtain ⟨m0, h0, he | he⟩ := he
      · exact mid h h0 he
      obtain ⟨m2, h2, he | he⟩ := he
      · have hx : Others OnlyEnv m m2 := h0.trans (Others.trans (.step (.refl _) (.item i m0)) h2)
        exact mid h hx he
      have hx : Others OnlyEnv m m2 := h0.trans (Others.trans (.step (.refl _) (.item i m0)) h2)
      exact step h0 (by rw [Option.map_some, Option.map_some, Hub.of_queue]) h2 (ih m2 o (h.others hx) he)
  | terminate k ih =>
    intro m o h he
    obtain ⟨m0, h0, he | he⟩ := he
    · exact mid h h0 he
    obtain ⟨m2, h2, he | he⟩ := he
    · have hx : Others OnlyEnv m m2 := h0.trans (Others.trans (.step (.refl _) (.terminate m0)) h2)
      exact mid h hx he
    have hx : Others OnlyEnv m m2 := h0.trans (Others.trans (.step (.refl _) (.terminate m0)) h2)
    exact step h0 (by rw [show Fifo.terminate m0 = queueWorkItem (some .stop) m0 from rfl, Hub.of_queue]) h2 (ih m2 o (h.others hx) he)
  | terminated k ih =>
    intro m o h he
    obtain ⟨m1, h1, he | he⟩ := he
    · exact mid h h1 he
    exact step h1 rfl (.refl _) (ih _ m1 o (h.others h1) he)
  | get k ih =>
    intro m o h he
    obtain ⟨m1, h1, he | he⟩ := he
    · exact mid h h1 he
    exact step h1 rfl (.refl _) (ih _ m1 o (h.others h1) he)
  | put w k ih =>
    intro m o h he
    obtain ⟨m1, h1, he | he⟩ := he
    · exact mid h h1 he
    obtain ⟨m2, h2, he | he⟩ := he
    · exact mid h (h1.trans h2) he
    rw [execS] at he
    have q2 := Quiet.others h2
    have hy : ({ m1.st.user with env := w } : Yard V) = { m2.st.user with env := w } := by
      rw [Yard.mk.injEq]
      exact ⟨rfl, q2.mach.symm, q2.gone.symm, q2.bad.symm, q2.fault.symm⟩
    rw [hy] at he
    have hx : Others OnlyEnv m2 { m2 with st := { m2.st with user := { m2.st.user with env := w } } } := .step (.refl _) (.user _ m2 ⟨w, rfl⟩)
    exact step (m2 := { m2 with st := { m2.st with user := { m2.st.user with env := w } } }) (h1.trans h2) rfl (.refl _)
      (ih _ o (h.others ((h1.trans h2).trans hx)) he)
  | call n k c ihk ihc =>
    intro m o h he
    rw [Code.lift, Code.run, execS] at he
    rw [Script.code, Script.Runs]
    obtain ⟨r, h1, h2⟩ := he
    obtain ⟨l1, l2⟩ := hl n m r h h1
    cases r with
    | ok i m' =>
      rcases l2.fit with ⟨_, h4⟩ | h4
      · cases h4
      · obtain ⟨a1, a2⟩ := ihk i m' o h4 h2
        exact ⟨⟨_, .refl _, .inr ⟨_, l1, a1⟩⟩, a2⟩
    | thrown x m' =>
      rcases l2.fit with ⟨_, h4⟩ | h4
      · cases h4
      · obtain ⟨a1, a2⟩ := ihc x m' o h4 h2
        exact ⟨⟨_, .refl _, .inr ⟨_, l1, a1⟩⟩, a2⟩
    | more m' =>
      cases (show o = _ from h2)
      exact ⟨⟨_, .refl _, .inr ⟨_, l1, rfl⟩⟩, l2.queue, l2.safe, .inl ⟨_, rfl⟩⟩

end

end

/-! ### Without other threads -/

namespace Script

theorem Runs.of_run {lp : Nat → Hub V → Hub.Out V Nat} {lh : Nat → Hub V → Hub.Out V Nat → Prop} (hl : ∀ n u, lh n u (lp n u)) :
    ∀ (s : Script V) (u : Hub V), s.Runs lh u (s.run lp u)
  | .ret, u => ⟨u, .refl _, .inr rfl⟩
  | .throw _, u => ⟨u, .refl _, .inr rfl⟩
  | .step f k, u => ⟨u, .refl _, .inr (of_run hl (k u) (f u))⟩
  | .call n k c, u => by
    rw [Runs, run]
    refine ⟨u, .refl _, .inr ⟨lp n u, hl n u, ?_⟩⟩
    cases lp n u with
    | ok i u => exact of_run hl (k i) u
    | thrown x u => exact of_run hl (c x) u
    | more u => rfl

theorem code_run (lp : Nat → Hub V → Hub.Out V Nat) : ∀ (c : Code V) (u : Hub V), (code c).run lp u = Hub.exec lp c u
  | .ret, _ => rfl
  | .throw _, _ => rfl
  | .create a k, u => code_run lp (k u.next) _
  | .destroy h k, u => code_run lp k _
  | .deliver o h k, u => code_run lp k _
  | .item none k, u => code_run lp k u
  | .item (some i) k, u => code_run lp k _
  | .terminate k, u => code_run lp k _
  | .terminated k, u => code_run lp (k u.terminated) u
  | .get k, u => code_run lp (k u.env) u
  | .put v k, u => code_run lp k _
  | .call n k c, u => by
    rw [code, run, Hub.exec]
    cases lp n u with
    | ok i u => exact code_run lp (k i) u
    | thrown x u => exact code_run lp (c x) u
    | more u => rfl

theorem andThen_run (lp : Nat → Hub V → Hub.Out V Nat) (r : Script V) (t : Nat → Script V) : ∀ (s : Script V) (u : Hub V),
    (s.andThen r t).run lp u = match s.run lp u with
      | .ok _ u => r.run lp u
      | .thrown x u => (t x).run lp u
      | .more u => .more u
  | .ret, _ => rfl
  | .throw _, _ => rfl
  | .step f k, u => andThen_run lp r t (k u) (f u)
  | .call n k c, u => by
    rw [andThen, run, run]
    cases lp n u with
    | ok i u => exact andThen_run lp r t (k i) u
    | thrown x u => exact andThen_run lp r t (c x) u
    | more u => rfl

/-- Code that does not call `operator()` ends. -/
theorem code_flat {c : Code V} (h : c.Flat) : ∀ u : Hub V, (∃ u', Hub.code c u = .ok () u') ∨ ∃ x u', Hub.code c u = .thrown x u' := by
  induction h with
  | ret => exact fun u => .inl ⟨u, rfl⟩
  | throw x => exact fun u => .inr ⟨x, u, rfl⟩
  | create a _ ih => exact fun u => ih _ _
  | destroy d _ ih => exact fun u => ih _
  | deliver o d _ ih => exact fun u => ih _
  | item i _ ih =>
    cases i with
    | none => exact fun u => ih _
    | some i => exact fun u => ih _
  | terminate _ ih => exact fun u => ih _
  | terminated _ ih => exact fun u => ih _ _
  | get _ ih => exact fun u => ih _ _
  | put v _ ih => exact fun u => ih _

/-- Without other threads, a work item is that of `Fifo.Hub`. -/
theorem work_run (hA : A.Flat) (w : Work Op) (u : Hub V) : (work A w).run (fun _ u => .more u) u = Hub.work A w u := by
  have hc : ∀ c (u : Hub V), (code c).run (fun _ u => .more u) u = Hub.code c u := fun c u => code_run _ c u
  cases w with
  | stop => rfl
  | user op =>
    cases op with
    | item i => exact hc _ _
    | create h a =>
      show (create A h a).run _ u = Hub.create A h a u
      unfold create Hub.create
      cases A.node h with
      | some x => rfl
      | none =>
        simp only
        rw [andThen_run, hc]
        cases Hub.code (A.ctor h a) u <;> rfl
    | destroy oh =>
      cases oh with
      | none => rfl
      | some h =>
        show (destroy A h).run _ u = Hub.destroy A h u
        unfold destroy Hub.destroy
        rw [run]
        cases hm : u.mach h with
        | none => rfl
        | some x =>
          obtain ⟨a, st⟩ := x
          simp only
          have key : ∀ u' : Hub V, u'.mach h = some (a, st) → (leave A h).run (fun _ u => .more u) u' = match Ref.leaveAll (A.prog a) false { st with world := u'.env } with
              | .ok _ st => .ok () (Hub.code (A.calls h st.world) { u' with
                  env := st.world
                  mach := upd u'.mach h none }).hub
              | .thrown _ _ => .ok () u' := by
            intro u' hu
            unfold leave
            rw [run, hu]
            simp only
            cases Ref.leaveAll (A.prog a) false { st with world := u'.env } with
            | thrown x st => rfl
            | ok y st =>
              simp only
              rw [andThen_run, hc]
              rcases code_flat (hA.calls h st.world) { u' with env := st.world, mach := upd u'.mach h none } with ⟨u2, h2⟩ | ⟨x, u2, h2⟩ <;> rw [h2] <;> rfl
          have kept : ∀ {c : Code V}, c.Flat → ∀ u : Hub V, (Hub.code c u).hub.mach = u.mach := by
            intro c hf
            induction hf with
            | ret => exact fun u => rfl
            | throw x => exact fun u => rfl
            | create a _ ih => exact fun u => ih _ _
            | destroy d _ ih => exact fun u => ih _
            | deliver o d _ ih => exact fun u => ih _
            | item i _ ih =>
              cases i with
              | none => exact fun u => ih _
              | some i => exact fun u => ih _
            | terminate _ ih => exact fun u => ih _
            | terminated _ ih => exact fun u => ih _ _
            | get _ ih => exact fun u => ih _ _
            | put v _ ih => exact fun u => ih _
          have hk := kept (hA.dtor h) { u with log := u.log ++ [.gone h] }
          rw [andThen_run, hc]
          rcases code_flat (hA.dtor h) { u with log := u.log ++ [.gone h] } with ⟨u2, h2⟩ | ⟨x, u2, h2⟩ <;> rw [h2] at hk ⊢ <;> exact key u2 (by rw [show u2.mach = u.mach from hk, hm])
    | deliver o oh =>
      cases oh with
      | none => rfl
      | some h =>
        show (deliver A o h).run _ u = Hub.deliver A o h u
        unfold deliver Hub.deliver
        rw [run]
        cases hm : u.mach h with
        | none => rfl
        | some x =>
          obtain ⟨a, st⟩ := x
          simp only
          unfold operate
          rw [run]
          simp only [hm]
          by_cases hl : Hub.legal (A.prog a) { st with world := u.env } o = true
          · simp only [hl, if_true]
            cases hr : Ref.run (A.prog a) (Hub.op A o) { st with world := u.env } with
            | thrown x st =>
              simp only
              rw [andThen_run, hc]
              rcases code_flat (hA.calls h st.world) { u with log := u.log ++ [.called o h], env := st.world, mach := upd u.mach h (some (a, st)) } with ⟨u2, h2⟩ | ⟨x, u2, h2⟩ <;> rw [h2] <;> rfl
            | ok b st =>
              cases b with
              | false => rfl
              | true => exact hc _ _
          · simp only [hl]
            rfl

end Script

theorem Hub.Loops.of_loop (hA : A.Flat) : ∀ (k max c : Nat) (u : Hub V), Hub.Loops false A k max c u (Hub.loop A k max c u)
  | 0, _, _, u => rfl
  | k + 1, max, c, u => by
    rw [Hub.Loops]
    refine ⟨u, .refl _, .inr ?_⟩
    rw [Hub.loop]
    by_cases hc : u.terminated = true ∨ (max ≠ 0 ∧ max ≤ c)
    · rw [if_pos hc, if_pos hc]
    · rw [if_neg hc, if_neg hc]
      cases hq : u.queue with
      | nil => exact ⟨rfl, rfl⟩
      | cons w q =>
        simp only
        have := Script.Runs.of_run (lp := fun _ u => .more u) (lh := fun _ u o => o = .more u) (fun _ _ => rfl) (Script.work A w) { u with queue := q }
        rw [Script.work_run hA] at this
        refine ⟨_, this, ?_⟩
        cases Hub.work A w { u with queue := q } with
        | ok a u => exact of_loop hA k max (c + 1) u
        | thrown x u => rfl
        | more u => rfl

/-! ### C61 -/

namespace Spec

/-- A client's turn with a scheduler that other threads use at the same time. `unfinished` stands for any moment. -/
inductive Turn.LibS (wait : Bool) (A : Fleet V) (m : Wk Op (Ct (Yard V))) : Turn V → TurnEnd → Wk Op (Ct (Yard V)) → Prop where
  | returns {k c m'} : execS OnlyEnv (fun n m o => loopS OnlyEnv wait (body A.beh) k n 0 m o) (c.lift.run .ret .throw) m (.ok () m') → LibS wait A m (.client k c) (.returned 0) m'
  | throws {k c x m'} : execS OnlyEnv (fun n m o => loopS OnlyEnv wait (body A.beh) k n 0 m o) (c.lift.run .ret .throw) m (.thrown x m') → LibS wait A m (.client k c) (.threw x) m'
  | pauses {k c m'} : execS OnlyEnv (fun n m o => loopS OnlyEnv wait (body A.beh) k n 0 m o) (c.lift.run .ret .throw) m (.more m') → LibS wait A m (.client k c) .unfinished m'
  | runReturns {k n i m'} : loopS OnlyEnv wait (body A.beh) k n 0 m (.ok i m') → LibS wait A m (.run k n) (.returned i) m'
  | runThrows {k n x m'} : loopS OnlyEnv wait (body A.beh) k n 0 m (.thrown x m') → LibS wait A m (.run k n) (.threw x) m'
  | runPauses {k n m'} : loopS OnlyEnv wait (body A.beh) k n 0 m (.more m') → LibS wait A m (.run k n) .unfinished m'

/-- The same with a scheduler of reference machines. -/
inductive Turn.HubS (wait : Bool) (A : Fleet V) (u : Hub V) : Turn V → TurnEnd → Hub V → Prop where
  | returns {k c u'} : (Script.code c).Runs (fun n u o => Hub.Loops wait A k n 0 u o) u (.ok () u') → HubS wait A u (.client k c) (.returned 0) u'
  | throws {k c x u'} : (Script.code c).Runs (fun n u o => Hub.Loops wait A k n 0 u o) u (.thrown x u') → HubS wait A u (.client k c) (.threw x) u'
  | pauses {k c u'} : (Script.code c).Runs (fun n u o => Hub.Loops wait A k n 0 u o) u (.more u') → HubS wait A u (.client k c) .unfinished u'
  | runReturns {k n i u'} : Hub.Loops wait A k n 0 u (.ok i u') → HubS wait A u (.run k n) (.returned i) u'
  | runThrows {k n x u'} : Hub.Loops wait A k n 0 u (.thrown x u') → HubS wait A u (.run k n) (.threw x) u'
  | runPauses {k n u'} : Hub.Loops wait A k n 0 u (.more u') → HubS wait A u (.run k n) .unfinished u'

/-- The turns of a client, and how they ended, with whatever other threads did in between. -/
inductive Tale {S : Type} (other : S → S → Prop) (turn : S → Turn V → TurnEnd → S → Prop) (s0 : S) : List (Turn V × TurnEnd) → S → Prop where
  | start : Tale other turn s0 [] s0
  | other {l s s'} : Tale other turn s0 l s → other s s' → Tale other turn s0 l s'
  | turn {l s t e s'} : Tale other turn s0 l s → turn s t e s' → e ≠ .unfinished → Tale other turn s0 (l ++ [(t, e)]) s'

end Spec

open Spec

theorem Hub.of_fits' {m : Wk Op (Ct (Yard V))} (hwf : ∀ a, (A.prog a).toChart.WF) (hok : ∀ a, Contract (A.prog a)) (hq : Inv m) (hs : Safe A m.st) : Fits m (.of m) := by
  refine ⟨?_, rfl, rfl, rfl, rfl, rfl, fun i => ?_⟩
  · show m.queue = (m.queue.filterMap id).map some
    have : ∀ l : List (Option (Work Op)), (∀ w ∈ l, w ≠ none) → l = (l.filterMap id).map some := by
      intro l
      induction l with
      | nil => intro _; rfl
      | cons w l ih =>
        intro hl
        cases w with
        | none => exact absurd rfl (hl none List.mem_cons_self)
        | some w =>
          show some w :: l = some w :: (l.filterMap id).map some
          rw [← ih fun w hw => hl w (List.mem_cons_of_mem _ hw)]
    exact this m.queue hq.full
  · cases hm : m.st.user.mach i with
    | none => exact .inl ⟨rfl, by unfold Hub.of; simp [hm]⟩
    | some x =>
      obtain ⟨a, mm⟩ := x
      exact .inr ⟨a, mm, abs mm, rfl, Hub.of_mach hm, matches_abs (((hs.reach i a mm hm).stable (hwf a) (hok a)).1.inv.filled)⟩

section
variable (hA : A.Flat) (hwf : ∀ a, (A.prog a).toChart.WF) (hok : ∀ a, Contract (A.prog a)) (hpl : ∀ a, Plain (A.prog a))
include hA hwf hok hpl

theorem Turn.libS_hub {wait : Bool} {m m' : Wk Op (Ct (Yard V))} {t : Turn V} {e : TurnEnd} (h : HubInv A m) (ht : Turn.LibS wait A m t e m') :
    Turn.HubS wait A (.of m) t e (.of m') ∧ Inv m' ∧ Safe A m'.st ∧ (e ≠ .unfinished → HubInv A m') := by
  have hl := fun k n m o h he => loop_hubS (wait := wait) hA hwf hok hpl k n 0 m o h he
  cases ht with
  | returns he =>
    obtain ⟨h1, h2⟩ := client_hubS (hl _) _ _ _ h he
    exact ⟨.returns h1, h2.queue, h2.safe, fun _ => h2.fit.elim (fun ⟨_, hx⟩ => by cases hx) id⟩
  | throws he =>
    obtain ⟨h1, h2⟩ := client_hubS (hl _) _ _ _ h he
    exact ⟨.throws h1, h2.queue, h2.safe, fun _ => h2.fit.elim (fun ⟨_, hx⟩ => by cases hx) id⟩
  | pauses he =>
    obtain ⟨h1, h2⟩ := client_hubS (hl _) _ _ _ h he
    exact ⟨.pauses h1, h2.queue, h2.safe, fun hx => absurd rfl hx⟩
  | runReturns he =>
    obtain ⟨h1, h2⟩ := hl _ _ _ _ h he
    exact ⟨.runReturns h1, h2.queue, h2.safe, fun _ => h2.fit.elim (fun ⟨_, hx⟩ => by cases hx) id⟩
  | runThrows he =>
    obtain ⟨h1, h2⟩ := hl _ _ _ _ h he
    exact ⟨.runThrows h1, h2.queue, h2.safe, fun _ => h2.fit.elim (fun ⟨_, hx⟩ => by cases hx) id⟩
  | runPauses he =>
    obtain ⟨h1, h2⟩ := hl _ _ _ _ h he
    exact ⟨.runPauses h1, h2.queue, h2.safe, fun hx => absurd rfl hx⟩

theorem Tale.lib_hub {wait : Bool} {m0 m : Wk Op (Ct (Yard V))} {l : List (Turn V × TurnEnd)} (h0 : HubInv A m0)
    (h : Tale (Env OnlyEnv) (Turn.LibS wait A) m0 l m) : Tale Hub.Env (Turn.HubS wait A) (.of m0) l (.of m) ∧ HubInv A m := by
  induction h with
  | start => exact ⟨.start, h0⟩
  | other _ he ih => exact ⟨.other ih.1 (.of he), ih.2.others (.step (.refl _) he)⟩
  | turn _ ht he ih =>
    obtain ⟨h1, -, -, h2⟩ := Turn.libS_hub hA hwf hok hpl ih.2 ht
    exact ⟨.turn ih.1 h1 he, h2 he⟩

/-- **C61 (several threads).** Whatever clients and other threads do with a `fifo_scheduler` of asynchronous machines, all calls end in a way in which they can end
with a queue of operations on reference machines, and leave the same behind. No machine faults; the container does so only after the constructor of a processor
has thrown. -/
theorem C61_equivalent {wait : Bool} {v : V} {l : List (Turn V × TurnEnd)} {m : Wk Op (Ct (Yard V))}
    (h : Tale (Env OnlyEnv) (Turn.LibS wait A) { st := { user := { env := v } } } l m) :
    ∃ u, Tale Hub.Env (Turn.HubS wait A) { env := v } l u ∧ Fits m u ∧ m.st.user.fault = false ∧ (m.st.fault = true → ∃ h, PEv.failed h ∈ u.log) := by
  obtain ⟨h1, h2⟩ := Tale.lib_hub hA hwf hok hpl (HubInv.fresh v) h
  exact ⟨.of m, h1, Hub.of_fits hwf hok h2, h2.machines.fault, h2.holders.bad⟩

/-- **C61 (at any moment).** The same at any moment during a call. -/
theorem C61_moment {wait : Bool} {v : V} {l : List (Turn V × TurnEnd)} {m m' : Wk Op (Ct (Yard V))} {t : Turn V}
    (h : Tale (Env OnlyEnv) (Turn.LibS wait A) { st := { user := { env := v } } } l m) (ht : Turn.LibS wait A m t .unfinished m') :
    ∃ u u', Tale Hub.Env (Turn.HubS wait A) { env := v } l u ∧ Turn.HubS wait A u t .unfinished u' ∧ Fits m' u' ∧ m'.st.user.fault = false := by
  obtain ⟨h1, h2⟩ := Tale.lib_hub hA hwf hok hpl (HubInv.fresh v) h
  obtain ⟨h3, h4, h5, -⟩ := Turn.libS_hub hA hwf hok hpl h2 ht
  exact ⟨.of m, .of m', h1, h3, Hub.of_fits' hwf hok h4 h5, h5.fault⟩

end

/-- The schedulers of C51 are those at the end of such a tale. -/
theorem C61_reach {wait : Bool} {m : Wk Op (Ct (Yard V))} :
    AShared wait A m ↔ ∃ v l, Tale (Env OnlyEnv) (Turn.LibS wait A) { st := { user := { env := v } } } l m := by
  constructor
  · intro h
    induction h with
    | fresh v => exact ⟨v, [], .start⟩
    | other _ he ih => obtain ⟨v, l, h⟩ := ih; exact ⟨v, l, .other h he⟩
    | client k c _ hr ih =>
      obtain ⟨v, l, h⟩ := ih
      rcases hr with hr | ⟨x, hr⟩
      · exact ⟨v, _, .turn h (.returns hr) (by simp)⟩
      · exact ⟨v, _, .turn h (.throws hr) (by simp)⟩
  · rintro ⟨v, l, h⟩
    induction h with
    | start => exact .fresh v
    | other _ he ih => exact .other ih he
    | turn _ ht he ih =>
      cases ht with
      | returns hr => exact .client _ _ ih (.inl hr)
      | throws hr => exact .client _ _ ih (.inr ⟨_, hr⟩)
      | pauses _ => exact absurd rfl he
      | @runReturns k n i m' hr =>
        refine .client k (.call n (fun _ => .ret) .throw) ih (.inl ?_)
        rw [Code.lift, Code.run, execS]
        exact ⟨_, hr, rfl⟩
      | @runThrows k n x m' hr =>
        refine .client k (.call n (fun _ => .ret) .throw) ih (.inr ⟨x, ?_⟩)
        rw [Code.lift, Code.run, execS]
        exact ⟨_, hr, rfl⟩
      | runPauses _ => exact absurd rfl he

/-- Alone, a client can get what C58 says. -/
theorem C61_alone (hA : A.Flat) (t : Turn V) (u : Hub V) : Turn.HubS false A u t (Turn.hub A u t).1 (Turn.hub A u t).2 := by
  cases t with
  | client k c =>
    have h := Script.Runs.of_run (lp := fun n u => Hub.run A k n u) (lh := fun n u o => Hub.Loops false A k n 0 u o)
      (fun n u => Hub.Loops.of_loop hA k n 0 u) (Script.code c) u
    rw [Script.code_run] at h
    unfold Turn.hub
    simp only
    cases hr : Hub.client A k c u <;> rw [show Hub.exec (fun n u => Hub.run A k n u) c u = _ from hr] at h
    · exact .returns h
    · exact .throws h
    · exact .pauses h
  | run k n =>
    have h := Hub.Loops.of_loop hA k n 0 u
    unfold Turn.hub
    simp only
    cases hr : Hub.run A k n u <;> rw [show Hub.loop A k n 0 u = _ from hr] at h
    · exact .runReturns h
    · exact .runThrows h
    · exact .runPauses h

namespace Ex

theorem fleet_plain : Plain SC.Ex.prog := by
  constructor
  all_goals intros
  all_goals rfl

/-- Another thread makes a machine and asks for its initiation; while the machine is created, it asks for event 1. -/
theorem fleetLeft_tale : Tale (Env OnlyEnv) (Turn.LibS false fleet) { st := { user := { env := 0 } } } [(.run 10 0, .returned 4)] fleetLeft.wk := by
  have h1 := fleetLeft_runs
  rw [fleetLeft_ok] at h1
  exact .turn (.other (.other .start (.create 5 _)) (.deliver .initiate 0 _)) (.runReturns h1) (by decide)

/-- The scheduler of reference machines does the same. -/
example : ∃ u : Hub Nat, Tale Hub.Env (Turn.HubS false fleet) { env := 0 } [(.run 10 0, .returned 4)] u ∧ Fits fleetLeft.wk u ∧ u.queue = [] ∧
    u.log = [.made 0 5, .called .initiate 0, .called (.event 1) 0, .called (.event 4) 0] ∧ ∃ st, u.mach 0 = some (5, st) ∧ ∃ mm, Matches mm st ∧ mm.act 8 = true := by
  obtain ⟨u, h1, h2, -, -⟩ := C61_equivalent (A := fleet) fleet_flat (fun _ => SC.Ex.wf) (fun _ => SC.Ex.contract) (fun _ => fleet_plain) fleetLeft_tale
  refine ⟨u, h1, h2, ?_, ?_, ?_⟩
  · have h3 := h2.queue
    rw [show fleetLeft.wk.queue = [] by decide +kernel] at h3
    exact List.map_eq_nil_iff.1 h3.symm
  · rw [← h2.log]; decide +kernel
  · have h4 : ((fleetLeft.wk.st.user.mach 0).any fun x => x.1 == 5 && x.2.act 8) = true := by decide +kernel
    rcases h2.machines 0 with ⟨h5, -⟩ | ⟨a, mm, st, h5, h6, h7⟩
    · rw [h5] at h4; cases h4
    · rw [h5] at h4
      replace h4 : (a == 5 && mm.act 8) = true := h4
      rw [Bool.and_eq_true, beq_iff_eq] at h4
      obtain ⟨rfl, h8⟩ := h4
      exact ⟨st, h6, mm, h7, h8⟩

/-- While the machine is created. -/
example : ∃ u u' : Hub Nat, Tale Hub.Env (Turn.HubS false fleet) { env := 0 } [] u ∧ Turn.HubS false fleet u (.run 10 0) .unfinished u' ∧
    Fits fleetAsked u' ∧ u'.queue = [.user (.deliver .initiate (some 0)), .user (.deliver (.event 1) (some 0))] := by
  have h1 : Tale (Env OnlyEnv) (Turn.LibS false fleet) { st := { user := { env := 0 } } } [] fleetSent := .other (.other .start (.create 5 _)) (.deliver .initiate 0 _)
  have h2 : loopS OnlyEnv false (Fifo.body fleet.beh) 10 0 0 fleetSent (.more fleetAsked) := by
    refine ⟨fleetSent, .refl _, .inr ?_⟩
    rw [if_pos (by decide +kernel), if_neg (by simp)]
    exact ⟨.more fleetAsked, ⟨.more fleetAsked, ⟨fleetAsked, fleetAsked_others, .inl rfl⟩, rfl⟩, rfl⟩
  obtain ⟨u, u', h3, h4, h5, -⟩ := C61_moment (A := fleet) fleet_flat (fun _ => SC.Ex.wf) (fun _ => SC.Ex.contract) (fun _ => fleet_plain) h1 (.runPauses h2)
  refine ⟨u, u', h3, h4, h5, ?_⟩
  have h6 := h5.queue
  rw [show fleetAsked.queue = [.user (.deliver .initiate (some 0)), .user (.deliver (.event 1) (some 0))].map some by decide +kernel] at h6
  exact ((List.map_inj_right fun _ _ h => Option.some.inj h).1 h6).symm

end Ex

end SC.Fifo
