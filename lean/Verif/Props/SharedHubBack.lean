import Verif.Props.SharedHub

/-!
# C61, the other direction: what a scheduler of reference machines used by several threads can do, the library can do
-/

namespace SC.Fifo

variable {V : Type} {A : Fleet V}

/-! ### Other threads may be ahead -/

theorem Hub.Env.lib {m : Wk Op (Ct (Yard V))} {u : Hub V} (h : Hub.Env (.of m) u) : ∃ m', Fifo.Env OnlyEnv m m' ∧ Hub.of m' = u := by
  cases h with
  | create a => exact ⟨_, .create a m, by rw [Hub.of_queue]; rfl⟩
  | destroy d => exact ⟨_, .destroy d m, by rw [Hub.of_queue]; rfl⟩
  | deliver o d => exact ⟨_, .deliver o d m, by rw [Hub.of_queue]; rfl⟩
  | item i => exact ⟨_, .item i m, by rw [Hub.of_queue]⟩
  | terminate => exact ⟨_, .terminate m, by rw [show Fifo.terminate m = queueWorkItem (some .stop) m from rfl, Hub.of_queue]⟩
  | env v => exact ⟨_, .user _ m ⟨v, rfl⟩, rfl⟩

theorem Hub.Others.lib {m : Wk Op (Ct (Yard V))} {u u' : Hub V} (hu : u = .of m) (h : Hub.Others u u') : ∃ m', Fifo.Others OnlyEnv m m' ∧ Hub.of m' = u' := by
  induction h with
  | refl => exact ⟨m, .refl m, hu.symm⟩
  | step _ he ih =>
    obtain ⟨m1, h1, h2⟩ := ih
    subst h2
    obtain ⟨m2, h3, h4⟩ := he.lib
    exact ⟨m2, .step h1 h3, h4⟩

/-- No other thread sees whether the loop has ended. -/
theorem Hub.Others.stop {u u' : Hub V} (h : Hub.Others u u') : Hub.Others { u with terminated := true } { u' with terminated := true } := by
  induction h with
  | refl => exact .refl _
  | @step u1 u2 _ he ih =>
    refine .step ih ?_
    cases he with
    | create a => exact .create a { u1 with terminated := true }
    | destroy d => exact .destroy d { u1 with terminated := true }
    | deliver o d => exact .deliver o d { u1 with terminated := true }
    | item i => exact .item i { u1 with terminated := true }
    | terminate => exact .terminate { u1 with terminated := true }
    | env v => exact .env v { u1 with terminated := true }

/-- The reference scheduler has the same outcome, but other threads may have done more there. -/
inductive Lag {α : Type} : Out Op (Ct (Yard V)) α → Hub.Out V α → Prop where
  | ok {a : α} {m u} : Hub.Others (.of m) u → Lag (.ok a m) (.ok a u)
  | thrown {x : Nat} {m u} : Hub.Others (.of m) u → Lag (.thrown x m) (.thrown x u)

/-- The call has ended. -/
def Done {α : Type} (o : Hub.Out V α) : Prop := ∀ u, o ≠ .more u

/-- The library can have this outcome. -/
def Does (lp : Nat → Wk Op (Ct (Yard V)) → Out Op (Ct (Yard V)) Nat → Prop) (p : Prog Op (Ct (Yard V))) (m : Wk Op (Ct (Yard V))) (o : Hub.Out V Unit) : Prop :=
  ∃ o', execS OnlyEnv lp p m o' ∧ Lag o' o

section
variable {lp : Nat → Wk Op (Ct (Yard V)) → Out Op (Ct (Yard V)) Nat → Prop} {lh : Nat → Hub V → Hub.Out V Nat → Prop}
  {m m1 : Wk Op (Ct (Yard V))} {u : Hub V} {o : Hub.Out V Unit}

theorem Does.get {k : Ct (Yard V) → Prog Op (Ct (Yard V))} (h : Others OnlyEnv m m1) (hd : Does lp (k m1.st) m1 o) : Does lp (.get k) m o := by
  obtain ⟨o', h1, h2⟩ := hd
  exact ⟨o', ⟨m1, h, .inr h1⟩, h2⟩

theorem Does.put {c : Ct (Yard V)} {k : Prog Op (Ct (Yard V))} (hd : Does lp k { m with st := c } o) : Does lp (.put c k) m o := hd

/-- A step of the reference scheduler; other threads act first. -/
theorem Script.Runs.stepped {f : Hub V → Hub V} {k : Hub V → Script V} (hu : Hub.Others (.of m) u) (hr : (Script.step f k).Runs lh u o) (hd : Done o) :
    ∃ m1, Others OnlyEnv m m1 ∧ (k (.of m1)).Runs lh (f (.of m1)) o := by
  obtain ⟨u1, h1, h2 | h2⟩ := hr
  · exact absurd h2 (hd _)
  · obtain ⟨m1, h3, rfl⟩ := (hu.trans h1).lib rfl
    exact ⟨m1, h3, h2⟩

theorem Does.ret (hu : Hub.Others (.of m) u) (hr : Script.ret.Runs lh u o) (hd : Done o) : Does lp .ret m o := by
  obtain ⟨u1, h1, h2 | rfl⟩ := hr
  · exact absurd h2 (hd _)
  · exact ⟨_, rfl, .ok (hu.trans h1)⟩

theorem Does.throw {x : Nat} (hu : Hub.Others (.of m) u) (hr : (Script.throw x).Runs lh u o) (hd : Done o) : Does lp (.throw x) m o := by
  obtain ⟨u1, h1, h2 | rfl⟩ := hr
  · exact absurd h2 (hd _)
  · exact ⟨_, rfl, .thrown (hu.trans h1)⟩

theorem Closes.does {k : Prog Op (Ct (Yard V))} {s : Script V} (hk : Closes k s) (hu : Hub.Others (.of m) u) (hr : s.Runs lh u o) (hd : Done o) : Does lp k m o := by
  cases hk with
  | ret => exact .ret hu hr hd
  | throw x => exact .throw hu hr hd

/-- Code of the user. -/
theorem Does.code {c : Code V} (h : c.Flat) {kr : Prog Op (Ct (Yard V))} {kt : Nat → Prog Op (Ct (Yard V))} {r : Script V} {t : Nat → Script V} (hd : Done o)
    (hu : Hub.Others (.of m) u) (hr : ((Script.code c).andThen r t).Runs lh u o)
    (kok : ∀ m' u', Quiet m m' → Calm m m' → Hub.Others (.of m') u' → r.Runs lh u' o → Does lp kr m' o)
    (kth : ∀ m' u' x, Quiet m m' → Calm m m' → Hub.Others (.of m') u' → (t x).Runs lh u' o → Does lp (kt x) m' o) :
    Does lp (c.lift.run kr kt) m o := by
  induction h generalizing m u with
  | ret => exact kok m u (.refl m) (.refl m) hu hr
  | throw x => exact kth m u x (.refl m) (.refl m) hu hr
  | create a _ ih =>
    obtain ⟨m1, h1, hr⟩ := hr.stepped hu hd
    have e1 : Env OnlyEnv m1 _ := .create a m1
    have q1 := (Quiet.others h1).trans (.env e1)
    have c1 := (Calm.others h1).trans (.env e1)
    obtain ⟨o', h2, h3⟩ := ih m1.st.next (m := queueWorkItem (some (.user (.create m1.st.next a))) _) (by rw [Hub.of_queue]; exact .refl _) hr
      (fun m' u' q c => kok m' u' (q1.trans q) (c1.trans c)) (fun m' u' x q c => kth m' u' x (q1.trans q) (c1.trans c))
    exact ⟨o', ⟨m1, h1, .inr ⟨_, .refl _, .inr h2⟩⟩, h3⟩
  | destroy d _ ih =>
    obtain ⟨m1, h1, hr⟩ := hr.stepped hu hd
    have e1 : Env OnlyEnv m1 _ := .destroy d m1
    have q1 := (Quiet.others h1).trans (.env e1)
    have c1 := (Calm.others h1).trans (.env e1)
    obtain ⟨o', h2, h3⟩ := ih (m := queueWorkItem (some (.user (.destroy (handle m1.st d)))) m1) (by rw [Hub.of_queue]; exact .refl _) hr
      (fun m' u' q c => kok m' u' (q1.trans q) (c1.trans c)) (fun m' u' x q c => kth m' u' x (q1.trans q) (c1.trans c))
    exact ⟨o', ⟨m1, h1, .inr ⟨_, .refl _, .inr h2⟩⟩, h3⟩
  | deliver op d _ ih =>
    obtain ⟨m1, h1, hr⟩ := hr.stepped hu hd
    have e1 : Env OnlyEnv m1 _ := .deliver op d m1
    have q1 := (Quiet.others h1).trans (.env e1)
    have c1 := (Calm.others h1).trans (.env e1)
    obtain ⟨o', h2, h3⟩ := ih (m := queueWorkItem (some (.user (.deliver op (handle m1.st d)))) m1) (by rw [Hub.of_queue]; exact .refl _) hr
      (fun m' u' q c => kok m' u' (q1.trans q) (c1.trans c)) (fun m' u' x q c => kth m' u' x (q1.trans q) (c1.trans c))
    exact ⟨o', ⟨m1, h1, .inr ⟨_, .refl _, .inr h2⟩⟩, h3⟩
  | item i _ ih =>
    cases i with
    | none =>
      obtain ⟨o', h2, h3⟩ := ih hu hr kok kth
      exact ⟨o', ⟨m, .refl _, .inr ⟨m, .refl _, .inr h2⟩⟩, h3⟩
    | some i =>
      obtain ⟨m1, h1, hr⟩ := hr.stepped hu hd
      have e1 : Env OnlyEnv m1 _ := .item i m1
      have q1 := (Quiet.others h1).trans (.env e1)
      have c1 := (Calm.others h1).trans (.env e1)
      obtain ⟨o', h2, h3⟩ := ih (m := queueWorkItem (some (.user (.item i))) m1) (by rw [Hub.of_queue]; exact .refl _) hr
        (fun m' u' q c => kok m' u' (q1.trans q) (c1.trans c)) (fun m' u' x q c => kth m' u' x (q1.trans q) (c1.trans c))
      exact ⟨o', ⟨m1, h1, .inr ⟨_, .refl _, .inr h2⟩⟩, h3⟩
  | terminate _ ih =>
    obtain ⟨m1, h1, hr⟩ := hr.stepped hu hd
    have e1 : Env OnlyEnv m1 _ := .terminate m1
    have q1 := (Quiet.others h1).trans (.env e1)
    have c1 := (Calm.others h1).trans (.env e1)
    obtain ⟨o', h2, h3⟩ := ih (m := queueWorkItem (some .stop) m1) (by rw [Hub.of_queue]; exact .refl _) hr
      (fun m' u' q c => kok m' u' (q1.trans q) (c1.trans c)) (fun m' u' x q c => kth m' u' x (q1.trans q) (c1.trans c))
    exact ⟨o', ⟨m1, h1, .inr ⟨_, .refl _, .inr h2⟩⟩, h3⟩
  | terminated _ ih =>
    obtain ⟨m1, h1, hr⟩ := hr.stepped hu hd
    obtain ⟨o', h2, h3⟩ := ih m1.terminated (m := m1) (.refl _) hr
      (fun m' u' q c => kok m' u' ((Quiet.others h1).trans q) ((Calm.others h1).trans c)) (fun m' u' x q c => kth m' u' x ((Quiet.others h1).trans q) ((Calm.others h1).trans c))
    exact ⟨o', ⟨m1, h1, .inr h2⟩, h3⟩
  | get _ ih =>
    obtain ⟨m1, h1, hr⟩ := hr.stepped hu hd
    obtain ⟨o', h2, h3⟩ := ih m1.st.user.env (m := m1) (.refl _) hr
      (fun m' u' q c => kok m' u' ((Quiet.others h1).trans q) ((Calm.others h1).trans c)) (fun m' u' x q c => kth m' u' x ((Quiet.others h1).trans q) ((Calm.others h1).trans c))
    exact ⟨o', ⟨m1, h1, .inr h2⟩, h3⟩
  | put w _ ih =>
    obtain ⟨m1, h1, hr⟩ := hr.stepped hu hd
    have e1 : Env OnlyEnv m1 { m1 with st := { m1.st with user := { m1.st.user with env := w } } } := .user _ m1 ⟨w, rfl⟩
    have q1 := (Quiet.others h1).trans (.env e1)
    have c1 := (Calm.others h1).trans (.env e1)
    obtain ⟨o', h2, h3⟩ := ih (m := { m1 with st := { m1.st with user := { m1.st.user with env := w } } }) (.refl _) hr
      (fun m' u' q c => kok m' u' (q1.trans q) (c1.trans c)) (fun m' u' x q c => kth m' u' x (q1.trans q) (c1.trans c))
    exact ⟨o', ⟨m1, h1, .inr ⟨m1, .refl _, .inr h2⟩⟩, h3⟩

/-! ### Work items -/

/-- Code of the user changes its state. -/
theorem Does.user {y : Yard V} {c : Code (Yard V)} {kr : Prog Op (Ct (Yard V))} {kt : Nat → Prog Op (Ct (Yard V))}
    (hd : Does lp (c.run kr kt) { m with st := { m.st with user := y } } o) : Does lp ((Code.put y c).run kr kt) m o :=
  .get (.refl _) (.put hd)

/-- Releasing a reference that is not the last one. -/
theorem release_lib {k : Prog Op (Ct (Yard V))} {s : Script V} (hk : Closes k s) {h : Nat} (hr : m.st.refs h = 2) (hu : Hub.Others (.of m) u) (hs : s.Runs lh u o)
    (hd : Done o) : Does lp (release A.beh h k) m o := by
  refine .get (.refl _) ?_
  rw [if_neg (by rw [hr]; decide)]
  exact .put (hk.does (m := { m with st := { m.st with refs := upd m.st.refs h (m.st.refs h - 1), fault := m.st.fault || m.st.refs h == 0 } }) hu hs hd)

/-- The call of a processor ends. -/
theorem leave_lib {k : Prog Op (Ct (Yard V))} {s : Script V} (hk : Closes k s) {h : Nat} (hr : m.st.refs h = 2) (hu : Hub.Others (.of m) u) (hs : s.Runs lh u o)
    (hd : Done o) : Does lp (leave h (release A.beh h k)) m o :=
  .get (.refl _) (.put (release_lib (m := { m with st := { m.st with busy := upd m.st.busy h (m.st.busy h - 1) } }) hk hr hu hs hd))

theorem create_lib (hA : A.Flat) {h a : Nat} (hp : HInv m h (.at 1 false false)) (hu : Hub.Others (.of m) u) (hs : (Script.create A h a).Runs lh u o)
    (hd : Done o) : Does lp (body A.beh (.create h a)) m o := by
  unfold Script.create at hs
  cases hno : A.node h with
  | some x =>
    rw [hno] at hs
    rw [body_create_some hno]
    obtain ⟨m1, h1, hs⟩ := hs.stepped hu hd
    have hp1 := (Same.others h1).phase _ _ hp
    refine .get h1 (.put (.get (.refl _) ?_))
    rw [if_pos hp1.2.1, if_neg (by rw [hp1.2.2.2.1]; simp)]
    exact .put (.throw (m := { m1 with st := { m1.st with log := m1.st.log ++ [.lost h], refs := upd m1.st.refs h 0 } }) (.refl _) hs hd)
  | none =>
    rw [hno] at hs
    rw [body_create_none hno]
    refine .get (.refl _) (.put ?_)
    rw [Fleet.make, Code.andThen_run]
    let m2 : Wk Op (Ct (Yard V)) := { m with st := { m.st with
        set := upd m.st.set h true
        refs := upd m.st.refs h (m.st.refs h + 1) } }
    have hr2 : m2.st.refs h = 2 := by
      show upd m.st.refs h (m.st.refs h + 1) h = 2
      rw [upd_same, hp.2.1]
    refine Does.code (m := m2) (hA.ctor h a) hd hu hs (fun m3 u3 q3 c3 hu hs => ?_) (fun m3 u3 x q3 c3 hu hs => ?_)
    · obtain ⟨m4, h4, hs⟩ := hs.stepped hu hd
      have hn3 : h < m3.st.next := Nat.lt_of_lt_of_le hp.1 c3.next
      have c4 := Calm.others h4
      let m5 : Wk Op (Ct (Yard V)) := { m4 with st := { m4.st with user := { m4.st.user with mach := upd m4.st.user.mach h (some (a, Mach.fresh m4.st.user.env)) } } }
      refine .get h4 (.user ?_)
      have e5 : ({ Hub.of m4 with mach := upd (Hub.of m4).mach h (some (a, Ref.start (Hub.of m4).env)) } : Hub V) = Hub.of m5 := by
        unfold Hub.of
        simp only [m5, Hub.mk.injEq, true_and, and_true]
        funext h'
        by_cases hx : h' = h
        · subst hx; rw [upd_same, upd_same]; rfl
        · rw [upd_ne _ _ hx, upd_ne _ _ hx]
      simp only [e5] at hs
      obtain ⟨m6, h6, hs⟩ := hs.stepped (m := m5) (.refl _) hd
      have c6 := Calm.others h6
      refine .get h6 (.put ?_)
      refine release_lib (m := { m6 with st := { m6.st with full := upd m6.st.full h true, log := m6.st.log ++ [.made h a] } }) .ret ?_ (.refl _) hs hd
      have hn4 : h < m5.st.next := Nat.lt_of_lt_of_le hn3 c4.next
      show m6.st.refs h = 2
      rw [c6.refs h hn4]
      show m4.st.refs h = 2
      rw [c4.refs h hn3, c3.refs h hp.1]; exact hr2
    · obtain ⟨m4, h4, hs⟩ := hs.stepped hu hd
      have hn3 : h < m3.st.next := Nat.lt_of_lt_of_le hp.1 c3.next
      refine .get h4 (.put ?_)
      refine release_lib (m := { m4 with st := { m4.st with log := m4.st.log ++ [.failed h] } }) (.throw x) ?_ (.refl _) hs hd
      show m4.st.refs h = 2
      rw [(Calm.others h4).refs h hn3, c3.refs h hp.1]; exact hr2

section
variable (hA : A.Flat) (hwf : ∀ a, (A.prog a).toChart.WF) (hok : ∀ a, Contract (A.prog a)) (hpl : ∀ a, Plain (A.prog a))
include hA hwf hok hpl

/-- The destructor of a machine. -/
theorem unmake_lib {h a : Nat} {mm : Mach V} (hs : Safe A m.st) (hmm : m.st.user.mach h = some (a, mm)) (hu : Hub.Others (.of m) u) (hr : (Script.leave A h).Runs lh u o)
    (hd : Done o) : Does lp ((A.unmake h).run .ret (fun _ => .ret)) m o := by
  obtain ⟨m1, h1, hr⟩ := hr.stepped hu hd
  have q1 := Quiet.others h1
  have hs1 := hs.quiet q1
  rw [← q1.mach] at hmm
  obtain ⟨mm', d1, d2⟩ := destruct_hub hwf hok hpl (h := (hs1.reach h a mm hmm).world m1.st.user.env)
  have d3 : Ref.leaveAll (A.prog a) false { abs mm with world := (Hub.of m1).env } = .ok () (abs mm') := d2
  let m2 : Wk Op (Ct (Yard V)) := { m1 with st := { m1.st with
    user := { m1.st.user with env := mm'.world, mach := upd m1.st.user.mach h none, gone := m1.st.user.gone ++ [(h, a, mm')] } } }
  have e2 : ({ Hub.of m1 with env := (abs mm').world, mach := upd (Hub.of m1).mach h none } : Hub V) = Hub.of m2 := by
    have := Hub.of_upd (m := m1) (h := h) none
    unfold Hub.of
    simp only [m2]
    rw [this]
    rfl
  rw [Hub.of_mach hmm] at hr
  simp only [d3, e2] at hr
  refine .get h1 ?_
  show Does lp ((match m1.st.user.mach h with
            | none => .put { m1.st.user with fault := true } .ret
            | some (a, mm) => match SC.destruct (A.prog a) { mm with world := m1.st.user.env } with
              | .ok _ m' => .put { m1.st.user with env := m'.world, mach := upd m1.st.user.mach h none, gone := m1.st.user.gone ++ [(h, a, m')] } (A.calls h m'.world).lift
              | _ => .put { m1.st.user with fault := true } .ret : Code (Yard V)).run .ret (fun _ => .ret)) m1 o
  rw [hmm]
  simp only [d1]
  refine .user ?_
  exact Does.code (m := m2) (hA.calls h mm'.world) hd (.refl _) hr (fun m' u' _ _ hu hs => .ret hu hs hd) (fun m' u' _ _ _ hu hs => .ret hu hs hd)

theorem destroy_lib {h : Nat} (hm : MInv A m.st) {f : Bool} (hp : HInv m h (.at 1 true f) ∨ HInv m h (.at 0 false false))
    (hu : Hub.Others (.of m) u) (hs : (Script.destroy A h).Runs lh u o) (hd : Done o) : Does lp (body A.beh (.destroy (some h))) m o := by
  obtain ⟨m1, h1, hs⟩ := hs.stepped hu hd
  have hm1 := hm.quiet (.others h1)
  have hp1 : HInv m1 h (.at 1 true f) ∨ HInv m1 h (.at 0 false false) := hp.imp ((Same.others h1).phase _ _) ((Same.others h1).phase _ _)
  refine .get h1 ?_
  rcases hp1 with hp1 | hp1
  · rw [if_neg (by rw [hp1.2.1]; simp)]
    let m2 : Wk Op (Ct (Yard V)) := { m1 with st := { m1.st with
      refs := upd m1.st.refs h (if m1.st.set h then m1.st.refs h else m1.st.refs h + 1)
      set := upd m1.st.set h false } }
    have hr2 : m2.st.refs h = 1 := by
      show upd m1.st.refs h (if m1.st.set h then m1.st.refs h else m1.st.refs h + 1) h = 1
      rw [upd_same, hp1.2.1, hp1.2.2.1]; rfl
    refine Does.put (Does.get (m := m2) (.refl _) ?_)
    rw [if_pos hr2]
    cases hmm : m1.st.user.mach h with
    | none =>
      have hf : m2.st.full h ≠ true := fun hc => (hm1.full h).1 hc hmm
      have hn : (Hub.of m1).mach h = none := by unfold Hub.of; simp [hmm]
      rw [hn] at hs
      rw [if_neg hf]
      exact .put (.ret (m := { m2 with st := { m2.st with refs := upd m2.st.refs h 0 } }) (.refl _) hs hd)
    | some x =>
      obtain ⟨a, mm⟩ := x
      have hf : m2.st.full h = true := (hm1.full h).2 (by rw [hmm]; simp)
      rw [Hub.of_mach hmm] at hs
      rw [if_pos hf]
      let m4 : Wk Op (Ct (Yard V)) := { m2 with st := { m2.st with
        refs := upd m2.st.refs h 0
        full := upd m2.st.full h false
        log := m2.st.log ++ [.gone h] } }
      refine .put ?_
      show Does lp (((A.dtor h).lift.andThen (A.unmake h) (fun _ => A.unmake h)).run .ret (fun _ => .ret)) m4 o
      rw [Code.andThen_run]
      have hs4 : Safe A m4.st := hm1.safe.congr rfl rfl
      have key : ∀ m5 u5, Quiet m4 m5 → Hub.Others (.of m5) u5 → (Script.leave A h).Runs lh u5 o → Does lp ((A.unmake h).run .ret (fun _ => .ret)) m5 o := by
        intro m5 u5 q5 hu hs
        exact unmake_lib hA hwf hok hpl (hs4.quiet q5) (a := a) (mm := mm) (by rw [q5.mach]; exact hmm) hu hs hd
      exact Does.code (m := m4) (hA.dtor h) hd (.refl _) hs (fun m5 u5 q _ hu hs => key m5 u5 q hu hs) (fun m5 u5 _ q _ hu hs => key m5 u5 q hu hs)
  · rw [if_pos hp1.2.1]
    have hmm : m1.st.user.mach h = none := by
      cases hmm : m1.st.user.mach h with
      | none => rfl
      | some x => exact absurd ((hm1.full h).2 (by rw [hmm]; simp)) (by rw [hp1.2.2.2.1]; decide)
    have hn : (Hub.of m1).mach h = none := by unfold Hub.of; simp [hmm]
    rw [hn] at hs
    exact .ret (.refl _) hs hd

theorem operate_lib {h a : Nat} {mm : Mach V} (op : HOp) (hs : Safe A m.st) (hmm : m.st.user.mach h = some (a, mm)) (hn : h < m.st.next) (hr : m.st.refs h = 2)
    (hu : Hub.Others (.of m) u) (hx : (Script.operate A op h).Runs lh u o) (hd : Done o) :
    Does lp ((A.operate op h).run (leave h (release A.beh h .ret)) (fun x => leave h (release A.beh h (.throw x)))) m o := by
  obtain ⟨m1, h1, hx⟩ := hx.stepped hu hd
  have q1 := Quiet.others h1
  have c1 := Calm.others h1
  have hs1 := hs.quiet q1
  rw [← q1.mach] at hmm
  have hr1 : m1.st.refs h = 2 := by rw [c1.refs h hn]; exact hr
  have hn1 : h < m1.st.next := Nat.lt_of_lt_of_le hn c1.next
  let kr : Prog Op (Ct (Yard V)) := leave h (release A.beh h .ret)
  let kt : Nat → Prog Op (Ct (Yard V)) := fun x => leave h (release A.beh h (.throw x))
  refine .get h1 ?_
  show Does lp ((match m1.st.user.mach h with
        | none => .put { m1.st.user with fault := true } .ret
        | some (a, mm) =>
          if Fleet.legal (A.prog a) { mm with world := m1.st.user.env } (A.call op) then
            match (A.call op).run (A.prog a) { mm with world := m1.st.user.env } with
            | .ok true m' => .put { m1.st.user with env := m'.world, mach := upd m1.st.user.mach h (some (a, m')) } (A.calls h m'.world).lift
            | .ok false _ => .put { m1.st.user with bad := true } .ret
            | .thrown x m' => .put { m1.st.user with env := m'.world, mach := upd m1.st.user.mach h (some (a, m')) }
                ((A.calls h m'.world).lift.andThen (.throw x) (fun _ => .throw x))
            | .fault _ => .put { m1.st.user with fault := true } .ret
          else .put { m1.st.user with bad := true } .ret : Code (Yard V)).run kr kt) m1 o
  rw [hmm]
  simp only
  rw [Hub.of_mach hmm] at hx
  obtain ⟨l1, l2⟩ := call_hub hwf hok hpl ((hs1.reach h a mm hmm).world m1.st.user.env) op
  have l3 : Hub.legal (A.prog a) { abs mm with world := (Hub.of m1).env } op = Fleet.legal (A.prog a) { mm with world := m1.st.user.env } (A.call op) := l1.symm
  have eqn : ∀ mm' : Mach V, ({ Hub.of m1 with env := (abs mm').world, mach := upd (Hub.of m1).mach h (some (a, abs mm')) } : Hub V) =
      Hub.of { m1 with st := { m1.st with user := { m1.st.user with env := mm'.world, mach := upd m1.st.user.mach h (some (a, mm')) } } } := by
    intro mm'
    have := Hub.of_upd (m := m1) (h := h) (some (a, mm'))
    unfold Hub.of
    rw [this]
    rfl
  -- the call has ended
  have fin : ∀ {k s}, Closes k s → ∀ m3 u3, Calm m1 m3 → Hub.Others (.of m3) u3 → s.Runs lh u3 o → Does lp (leave h (release A.beh h k)) m3 o := by
    intro k s hk m3 u3 c3 hu hs
    exact leave_lib hk (by rw [c3.refs h hn1]; exact hr1) hu hs hd
  have calm : ∀ {y : Yard V} {m3}, Calm { m1 with st := { m1.st with user := y } } m3 → Calm m1 m3 := fun c => ⟨c.next, c.refs, c.queue⟩
  have bad : Script.ret.Runs lh { Hub.of m1 with bad := true } o → Does lp ((Code.put { m1.st.user with bad := true } .ret).run kr kt) m1 o :=
    fun hx => .user (fin .ret { m1 with st := { m1.st with user := { m1.st.user with bad := true } } } _ (calm (.refl _)) (.refl _) hx)
  by_cases hl : Fleet.legal (A.prog a) { mm with world := m1.st.user.env } (A.call op) = true
  · rw [if_pos hl]
    rcases l2 hl with ⟨b, mm', r1, r2, -⟩ | ⟨x, mm', r1, r2, -⟩
    · replace r2 : Ref.run (A.prog a) (Hub.op A op) { abs mm with world := (Hub.of m1).env } = _ := r2
      rw [r1]
      cases b with
      | false =>
        simp only [l3, hl, r2, if_true] at hx
        exact bad hx
      | true =>
        simp only [l3, hl, r2, if_true, eqn] at hx
        refine .user ?_
        rw [← Script.andThen_ret (Script.code _)] at hx
        exact Does.code (m := { m1 with st := { m1.st with user := { m1.st.user with env := mm'.world, mach := upd m1.st.user.mach h (some (a, mm')) } } })
          (hA.calls h mm'.world) hd (.refl _) hx (fun m3 u3 _ c hu hs => fin .ret m3 u3 (calm c) hu hs) (fun m3 u3 x _ c hu hs => fin (.throw x) m3 u3 (calm c) hu hs)
    · replace r2 : Ref.run (A.prog a) (Hub.op A op) { abs mm with world := (Hub.of m1).env } = _ := r2
      rw [r1]
      simp only [l3, hl, r2, if_true, eqn] at hx
      refine .user ?_
      rw [Code.andThen_run]
      exact Does.code (m := { m1 with st := { m1.st with user := { m1.st.user with env := mm'.world, mach := upd m1.st.user.mach h (some (a, mm')) } } })
        (hA.calls h mm'.world) hd (.refl _) hx (fun m3 u3 _ c hu hs => fin (.throw x) m3 u3 (calm c) hu hs) (fun m3 u3 _ _ c hu hs => fin (.throw x) m3 u3 (calm c) hu hs)
  · rw [if_neg hl]
    simp only [l3, hl] at hx
    exact bad hx

theorem deliver_lib {h : Nat} (op : HOp) (hm : MInv A m.st) {f : Bool} (hp : HInv m h (.at 1 true f) ∨ HInv m h (.at 0 false false))
    (hu : Hub.Others (.of m) u) (hs : (Script.deliver A op h).Runs lh u o) (hd : Done o) : Does lp (body A.beh (.deliver op (some h))) m o := by
  obtain ⟨m1, h1, hs⟩ := hs.stepped hu hd
  have hm1 := hm.quiet (.others h1)
  have hp1 : HInv m1 h (.at 1 true f) ∨ HInv m1 h (.at 0 false false) := hp.imp ((Same.others h1).phase _ _) ((Same.others h1).phase _ _)
  refine .get h1 ?_
  cases hmm : m1.st.user.mach h with
  | none =>
    have hf : m1.st.full h ≠ true := fun hc => (hm1.full h).1 hc hmm
    have hn : (Hub.of m1).mach h = none := by unfold Hub.of; simp [hmm]
    rw [hn] at hs
    rcases hp1 with hp1 | hp1
    · rw [if_neg (by rw [hp1.2.1]; simp), if_neg hf]
      exact .put (.ret (m := { m1 with st := { m1.st with fault := true, nulls := m1.st.nulls ++ [(h, m1.st.log)] } }) (.refl _) hs hd)
    · rw [if_pos hp1.2.1]
      exact .ret (.refl _) hs hd
  | some x =>
    obtain ⟨a, mm⟩ := x
    have hf : m1.st.full h = true := (hm1.full h).2 (by rw [hmm]; simp)
    have hr : m1.st.refs h = 1 ∧ h < m1.st.next := by
      rcases hp1 with hp1 | hp1
      · exact ⟨hp1.2.1, hp1.1⟩
      · have := hp1.2.2.2.1; rw [hf] at this; cases this
    rw [Hub.of_mach hmm] at hs
    rw [if_neg (by rw [hr.1]; simp), if_pos hf]
    refine .put (operate_lib hA hwf hok hpl (m := { m1 with st := { m1.st with
      refs := upd m1.st.refs h (m1.st.refs h + 1)
      log := m1.st.log ++ [.called op h]
      busy := upd m1.st.busy h (m1.st.busy h + 1) } }) op (hm1.safe.congr rfl rfl) hmm hr.2 ?_ (.refl _) hs hd)
    show upd m1.st.refs h (m1.st.refs h + 1) h = 2
    rw [upd_same, hr.1]

/-- One work item. -/
theorem work_lib (hS : SInv m) (hm : MInv A m.st) {w : Work Op} {q : List (Option (Work Op))} (hq : m.queue = some w :: q)
    (hs : (Script.work A w).Runs lh (.of { m with queue := q }) o) (hd : Done o) :
    ∃ o', callItemS OnlyEnv (body A.beh) lp w { m with queue := q } o' ∧ Lag o' o := by
  let m1 : Wk Op (Ct (Yard V)) := { m with queue := q, log := m.log ++ [.start w] }
  have hw : m.work = w :: m1.work := by unfold Wk.work; rw [hq]; rfl
  have key : ∀ op, w = .user op → Does lp (body A.beh op) m1 o → ∃ o', callItemS OnlyEnv (body A.beh) lp w { m with queue := q } o' ∧ Lag o' o := by
    rintro op rfl ⟨o', h1, h2⟩
    cases h2 with
    | ok h => exact ⟨_, ⟨_, h1, rfl⟩, .ok h⟩
    | thrown h => exact ⟨_, ⟨_, h1, rfl⟩, .thrown h⟩
  -- the holder of a handle that is in the queue
  have held : ∀ op h, w = .user op → Spec.opHandle op = some h → (∀ a, op ≠ .create h a) →
      ∃ f, HInv m1 h (.at 1 true f) ∨ HInv m1 h (.at 0 false false) := by
    intro op h ho hh hc
    obtain ⟨st, -, h2⟩ := hS.serve h
    have h2' : HInv m1 h st.phase := h2.pop hw rfl (by rw [ho]; intro a he; exact hc a (Work.user.inj he))
    cases st with
    | unborn => exact absurd h2 (fun hp => hp.born (by rw [hw, ho]) hh hc)
    | alive => exact ⟨true, .inl h2'⟩
    | failed => exact ⟨false, .inl h2'⟩
    | gone => exact ⟨true, .inr h2'⟩
  have hm1 : MInv A m1.st := hm
  replace hs : (Script.work A w).Runs lh (.of m1) o := hs
  cases w with
  | stop =>
    obtain ⟨u1, h1, h2 | ⟨u2, h2, h3 | rfl⟩⟩ := hs
    · exact absurd h2 (hd _)
    · exact absurd h3 (hd _)
    · exact ⟨_, ⟨_, rfl, rfl⟩, .ok (h1.stop.trans h2)⟩
  | user op =>
    refine key op rfl ?_
    cases op with
    | item i =>
      rw [← Script.andThen_ret (Script.work A _)] at hs
      exact Does.code (hA.item i) hd (.refl _) hs (fun m' u' _ _ hu hs => .ret hu hs hd) (fun m' u' x _ _ hu hs => .throw hu hs hd)
    | create h a =>
      obtain ⟨st, -, h2⟩ := hS.serve h
      have hst' : st = .unborn := by
        have hbad : ∀ r b f, ¬ HInv m h (.at r b f) := by
          intro r b f hp
          exact hp.2.2.2.2 a (by rw [hw]; exact List.mem_cons_self)
        cases st with
        | unborn => rfl
        | alive => exact absurd h2 (hbad _ _ _)
        | failed => exact absurd h2 (hbad _ _ _)
        | gone => exact absurd h2 (hbad _ _ _)
      subst hst'
      exact create_lib hA (h2.popCreate hw rfl) (.refl _) hs hd
    | destroy oh =>
      cases oh with
      | none => exact .ret (.refl _) hs hd
      | some h =>
        obtain ⟨f, hp⟩ := held _ h rfl rfl (by simp)
        exact destroy_lib hA hwf hok hpl hm1 hp (.refl _) hs hd
    | deliver op oh =>
      cases oh with
      | none => exact .ret (.refl _) hs hd
      | some h =>
        obtain ⟨f, hp⟩ := held _ h rfl rfl (by simp)
        exact deliver_lib hA hwf hok hpl op hm1 hp (.refl _) hs hd

/-! ### The worker and its clients -/

theorem Lag.done {α : Type} {o' : Out Op (Ct (Yard V)) α} {o : Hub.Out V α} (h : Lag o' o) : ¬ Still o' := by
  rintro ⟨m, rfl⟩
  cases h

/-- `operator()` of the library can end as that of the reference scheduler. -/
theorem loop_lib {wait : Bool} : ∀ (k max c : Nat) (m : Wk Op (Ct (Yard V))) (u : Hub V) (o : Hub.Out V Nat), HubInv A m → Hub.Others (.of m) u →
    Hub.Loops wait A k max c u o → Done o → ∃ o', loopS OnlyEnv wait (body A.beh) k max c m o' ∧ Lag o' o
  | 0, _, _, _, _, _, _, _, he, hd => absurd he (hd _)
  | k + 1, max, c, m, u, o, h, hu, he, hd => by
    rw [Hub.Loops] at he
    obtain ⟨u1, h0, he | he⟩ := he
    · exact absurd he (hd _)
    obtain ⟨m1, h1, rfl⟩ := (hu.trans h0).lib rfl
    replace h := h.others h1
    have hcond : (!m1.terminated && (max == 0 || decide (c < max))) = true ↔ ¬ ((Hub.of m1).terminated = true ∨ (max ≠ 0 ∧ max ≤ c)) := by
      show _ ↔ ¬ (m1.terminated = true ∨ _)
      cases m1.terminated
      · by_cases hx : max = 0
        · simp [hx]
        · simp [hx]
      · simp
    split at he
    · rename_i hc
      subst he
      refine ⟨_, ⟨m1, h1, .inr ?_⟩, .ok (.refl _)⟩
      rw [if_neg (fun hx => hcond.1 hx hc)]
    · rename_i hc
      have hc' := hcond.2 hc
      have ht : m1.terminated = false := by
        cases hm : m1.terminated with
        | false => rfl
        | true => exact absurd (.inl hm) hc
      cases hq : m1.queue with
      | nil =>
        rw [show (Hub.of m1).queue = [] by unfold Hub.of; simp [hq]] at he
        obtain ⟨rfl, rfl⟩ := he
        refine ⟨_, ⟨m1, h1, .inr ?_⟩, .ok (.refl _)⟩
        rw [if_pos hc', if_neg (by simp)]
        unfold dequeueItem
        rw [hq]
      | cons w q =>
        cases w with
        | none => exact absurd rfl (h.queue.full none (by rw [hq]; exact List.mem_cons_self))
        | some w =>
          rw [show (Hub.of m1).queue = w :: q.filterMap id by unfold Hub.of; simp [hq]] at he
          obtain ⟨r, h2, h3⟩ := he
          have hd' : Done r := by
            rintro u rfl
            exact absurd h3 (hd _)
          obtain ⟨r', h4, h5⟩ := work_lib (lp := fun n m o => loopS OnlyEnv wait (body A.beh) k n 0 m o) hA hwf hok hpl h.holders h.machines hq h2 hd'
          have i1 := callItemS_inv (fun n m o h he => (loopS_inv wait (body A.beh) k n 0 m o h (fun _ => Nat.zero_le _) he).1) h.queue hq ht h4
          have i2 := h.holders.callItemS hA.beh hq h4
          have i3 := work_hubS (lh := fun _ u o => o = .more u) hA hwf hok hpl h.holders h.machines hq h4
          have run : ∀ o', (match r' with
              | .ok _ m3 => loopS OnlyEnv wait (body A.beh) k max (c + 1) m3 o'
              | .thrown x m3 => o' = .thrown x m3
              | .more m3 => o' = .more m3) → loopS OnlyEnv wait (body A.beh) (k + 1) max c m o' := by
            intro o' hx
            refine ⟨m1, h1, .inr ?_⟩
            rw [if_pos hc', if_neg (by rw [hq]; simp)]
            unfold dequeueItem
            rw [hq]
            refine ⟨r', h4, ?_⟩
            cases r' <;> exact hx
          cases h5 with
          | @ok a m' u' h5 =>
            have hu : HubInv A m' := ⟨i1, i2.resolve_left (fun ⟨_, hx⟩ => by cases hx), Follows.end i3.fit (.inl rfl)⟩
            obtain ⟨o', l1, l2⟩ := loop_lib k max (c + 1) m' u' o hu h5 h3 hd
            exact ⟨o', run o' l1, l2⟩
          | @thrown x m' u' h5 =>
            cases (show o = _ from h3)
            exact ⟨_, run _ rfl, .thrown h5⟩

omit hA hwf hok hpl in
/-- Code of clients. -/
theorem client_lib {lp : Nat → Wk Op (Ct (Yard V)) → Out Op (Ct (Yard V)) Nat → Prop} {lh : Nat → Hub V → Hub.Out V Nat → Prop}
    (hl : ∀ n m u o, HubInv A m → Hub.Others (.of m) u → lh n u o → Done o → ∃ o', lp n m o' ∧ Lag o' o ∧ Held A o') :
    ∀ (c : Code V) (m : Wk Op (Ct (Yard V))) (u : Hub V) (o : Hub.Out V Unit), HubInv A m → Hub.Others (.of m) u → (Script.code c).Runs lh u o → Done o →
      Does lp (c.lift.run .ret .throw) m o := by
  intro c
  induction c with
  | ret => intro m u o _ hu hr hd; exact .ret hu hr hd
  | throw x => intro m u o _ hu hr hd; exact .throw hu hr hd
  | create a k ih =>
    intro m u o h hu hr hd
    obtain ⟨m1, h1, hr⟩ := hr.stepped hu hd
    obtain ⟨o', h2, h3⟩ := ih m1.st.next (queueWorkItem (some (.user (.create m1.st.next a))) _) _ o ((h.others h1).others (.step (.refl _) (.create a m1)))
      (by rw [Hub.of_queue]; exact .refl _) hr hd
    exact ⟨o', ⟨m1, h1, .inr ⟨_, .refl _, .inr h2⟩⟩, h3⟩
  | destroy d k ih =>
    intro m u o h hu hr hd
    obtain ⟨m1, h1, hr⟩ := hr.stepped hu hd
    obtain ⟨o', h2, h3⟩ := ih (queueWorkItem (some (.user (.destroy (handle m1.st d)))) m1) _ o ((h.others h1).others (.step (.refl _) (.destroy d m1)))
      (by rw [Hub.of_queue]; exact .refl _) hr hd
    exact ⟨o', ⟨m1, h1, .inr ⟨_, .refl _, .inr h2⟩⟩, h3⟩
  | deliver op d k ih =>
    intro m u o h hu hr hd
    obtain ⟨m1, h1, hr⟩ := hr.stepped hu hd
    obtain ⟨o', h2, h3⟩ := ih (queueWorkItem (some (.user (.deliver op (handle m1.st d)))) m1) _ o ((h.others h1).others (.step (.refl _) (.deliver op d m1)))
      (by rw [Hub.of_queue]; exact .refl _) hr hd
    exact ⟨o', ⟨m1, h1, .inr ⟨_, .refl _, .inr h2⟩⟩, h3⟩
  | item i k ih =>
    intro m u o h hu hr hd
    cases i with
    | none =>
      obtain ⟨o', h2, h3⟩ := ih m u o h hu hr hd
      exact ⟨o', ⟨m, .refl _, .inr ⟨m, .refl _, .inr h2⟩⟩, h3⟩
    | some i =>
      obtain ⟨m1, h1, hr⟩ := hr.stepped hu hd
      obtain ⟨o', h2, h3⟩ := ih (queueWorkItem (some (.user (.item i))) m1) _ o ((h.others h1).others (.step (.refl _) (.item i m1)))
        (by rw [Hub.of_queue]; exact .refl _) hr hd
      exact ⟨o', ⟨m1, h1, .inr ⟨_, .refl _, .inr h2⟩⟩, h3⟩
  | terminate k ih =>
    intro m u o h hu hr hd
    obtain ⟨m1, h1, hr⟩ := hr.stepped hu hd
    obtain ⟨o', h2, h3⟩ := ih (queueWorkItem (some .stop) m1) _ o ((h.others h1).others (.step (.refl _) (.terminate m1)))
      (by rw [Hub.of_queue]; exact .refl _) hr hd
    exact ⟨o', ⟨m1, h1, .inr ⟨_, .refl _, .inr h2⟩⟩, h3⟩
  | terminated k ih =>
    intro m u o h hu hr hd
    obtain ⟨m1, h1, hr⟩ := hr.stepped hu hd
    obtain ⟨o', h2, h3⟩ := ih m1.terminated m1 _ o (h.others h1) (.refl _) hr hd
    exact ⟨o', ⟨m1, h1, .inr h2⟩, h3⟩
  | get k ih =>
    intro m u o h hu hr hd
    obtain ⟨m1, h1, hr⟩ := hr.stepped hu hd
    obtain ⟨o', h2, h3⟩ := ih m1.st.user.env m1 _ o (h.others h1) (.refl _) hr hd
    exact ⟨o', ⟨m1, h1, .inr h2⟩, h3⟩
  | put w k ih =>
    intro m u o h hu hr hd
    obtain ⟨m1, h1, hr⟩ := hr.stepped hu hd
    obtain ⟨o', h2, h3⟩ := ih { m1 with st := { m1.st with user := { m1.st.user with env := w } } } _ o ((h.others h1).others (.step (.refl _) (.user _ m1 ⟨w, rfl⟩))) (.refl _) hr hd
    exact ⟨o', ⟨m1, h1, .inr ⟨m1, .refl _, .inr h2⟩⟩, h3⟩
  | call n k c ihk ihc =>
    intro m u o h hu hr hd
    rw [Script.code, Script.Runs] at hr
    obtain ⟨u1, h1, hr | ⟨r, h2, h3⟩⟩ := hr
    · exact absurd hr (hd _)
    have hd' : Done r := by
      rintro u rfl
      exact absurd h3 (hd _)
    obtain ⟨r', h4, h5, h6⟩ := hl n m u1 r h (hu.trans h1) h2 hd'
    unfold Does
    rw [Code.lift, Code.run]
    simp only [execS]
    cases h5 with
    | @ok i m' u' h5 =>
      obtain ⟨o', l1, l2⟩ := ihk i m' u' o (h6.fit.resolve_left (fun ⟨_, hx⟩ => by cases hx)) h5 h3 hd
      exact ⟨o', ⟨_, h4, l1⟩, l2⟩
    | @thrown x m' u' h5 =>
      obtain ⟨o', l1, l2⟩ := ihc x m' u' o (h6.fit.resolve_left (fun ⟨_, hx⟩ => by cases hx)) h5 h3 hd
      exact ⟨o', ⟨_, h4, l1⟩, l2⟩

end

end

/-! ### C61 -/

open Spec

section
variable (hA : A.Flat) (hwf : ∀ a, (A.prog a).toChart.WF) (hok : ∀ a, Contract (A.prog a)) (hpl : ∀ a, Plain (A.prog a))
include hA hwf hok hpl

theorem Turn.hubS_lib {wait : Bool} {m : Wk Op (Ct (Yard V))} {u' : Hub V} {t : Turn V} {e : TurnEnd} (h : HubInv A m) (ht : Turn.HubS wait A (.of m) t e u')
    (he : e ≠ .unfinished) : ∃ m', Turn.LibS wait A m t e m' ∧ Hub.Others (.of m') u' := by
  have hl := fun k n m u o h hu hr hd => loop_lib (wait := wait) hA hwf hok hpl k n 0 m u o h hu hr hd
  have hl' : ∀ k n m u o, HubInv A m → Hub.Others (.of m) u → Hub.Loops wait A k n 0 u o → Done o →
      ∃ o', loopS OnlyEnv wait (body A.beh) k n 0 m o' ∧ Lag o' o ∧ Held A o' := by
    intro k n m u o h hu hr hd
    obtain ⟨o', h1, h2⟩ := hl k n m u o h hu hr hd
    exact ⟨o', h1, h2, (loop_hubS hA hwf hok hpl k n 0 m o' h h1).2⟩
  cases ht with
  | @returns k c u' hr =>
    obtain ⟨o', h1, h2⟩ := client_lib (hl' _) c m _ _ h (.refl _) hr (fun _ hx => by cases hx)
    cases h2 with
    | ok h2 => exact ⟨_, .returns h1, h2⟩
  | @throws k c x u' hr =>
    obtain ⟨o', h1, h2⟩ := client_lib (hl' _) c m _ _ h (.refl _) hr (fun _ hx => by cases hx)
    cases h2 with
    | thrown h2 => exact ⟨_, .throws h1, h2⟩
  | pauses _ => exact absurd rfl he
  | runReturns hr =>
    obtain ⟨o', h1, h2⟩ := hl _ _ m _ _ h (.refl _) hr (fun _ hx => by cases hx)
    cases h2 with
    | ok h2 => exact ⟨_, .runReturns h1, h2⟩
  | runThrows hr =>
    obtain ⟨o', h1, h2⟩ := hl _ _ m _ _ h (.refl _) hr (fun _ hx => by cases hx)
    cases h2 with
    | thrown h2 => exact ⟨_, .runThrows h1, h2⟩
  | runPauses _ => exact absurd rfl he

omit hA hwf hok hpl in
theorem Tale.others {turn : Wk Op (Ct (Yard V)) → Turn V → TurnEnd → Wk Op (Ct (Yard V)) → Prop} {m0 m m' : Wk Op (Ct (Yard V))} {l : List (Turn V × TurnEnd)}
    (h : Tale (Env OnlyEnv) turn m0 l m) (ho : Others OnlyEnv m m') : Tale (Env OnlyEnv) turn m0 l m' := by
  induction ho with
  | refl => exact h
  | step _ he ih => exact .other ih he

theorem Tale.hub_lib {wait : Bool} {m0 : Wk Op (Ct (Yard V))} {u : Hub V} {l : List (Turn V × TurnEnd)} (h0 : HubInv A m0)
    (h : Tale Hub.Env (Turn.HubS wait A) (.of m0) l u) : ∃ m, Tale (Env OnlyEnv) (Turn.LibS wait A) m0 l m ∧ Hub.of m = u := by
  induction h with
  | start => exact ⟨m0, .start, rfl⟩
  | other _ he ih =>
    obtain ⟨m, h1, rfl⟩ := ih
    obtain ⟨m', h2, h3⟩ := he.lib
    exact ⟨m', .other h1 h2, h3⟩
  | turn _ ht he ih =>
    obtain ⟨m, h1, rfl⟩ := ih
    obtain ⟨m', h2, h3⟩ := Turn.hubS_lib hA hwf hok hpl (Tale.lib_hub hA hwf hok hpl h0 h1).2 ht he
    obtain ⟨m'', h4, h5⟩ := h3.lib rfl
    exact ⟨m'', Tale.others (.turn h1 h2 he) h4, h5⟩

/-- **C61 (the other direction).** Whatever can happen with a queue of operations on reference machines used by several threads can happen with the library: all
calls can end in the same way and leave the same behind. -/
theorem C61_complete {wait : Bool} {v : V} {l : List (Turn V × TurnEnd)} {u : Hub V} (h : Tale Hub.Env (Turn.HubS wait A) { env := v } l u) :
    ∃ m : Wk Op (Ct (Yard V)), Tale (Env OnlyEnv) (Turn.LibS wait A) { st := { user := { env := v } } } l m ∧ Fits m u := by
  obtain ⟨m, h1, rfl⟩ := Tale.hub_lib hA hwf hok hpl (HubInv.fresh v) h
  exact ⟨m, h1, Hub.of_fits hwf hok (Tale.lib_hub hA hwf hok hpl (HubInv.fresh v) h1).2⟩

/-- **C61 (exactly).** The ways in which the calls of a client can end are the same. -/
theorem C61_exactly {wait : Bool} {v : V} {l : List (Turn V × TurnEnd)} :
    (∃ m : Wk Op (Ct (Yard V)), Tale (Env OnlyEnv) (Turn.LibS wait A) { st := { user := { env := v } } } l m) ↔
      ∃ u, Tale Hub.Env (Turn.HubS wait A) { env := v } l u :=
  ⟨fun ⟨_, h⟩ => (C61_equivalent hA hwf hok hpl h).imp fun _ h => h.1, fun ⟨_, h⟩ => (C61_complete hA hwf hok hpl h).imp fun _ h => h.1⟩

end

namespace Ex

/-- Another thread makes a machine and asks for its initiation. -/
def hubSent : Hub Nat :=
  let u : Hub Nat := { env := 0 }
  let u := { u.push (.user (.create u.next 5)) with next := u.next + 1 }
  u.push (.user (.deliver .initiate (u.known 0)))

/-- While the machine is created, before its constructor sends it event 4, the other thread requests termination. -/
def hubMade : Hub Nat :=
  let u := { hubSent with queue := hubSent.queue.tail }.push .stop
  let u := u.push (.user (.deliver (.event 4) (u.known 0)))
  let u := { u with mach := upd u.mach 0 (some (5, Ref.start u.env)) }
  { u with log := u.log ++ [.made 0 5] }

def hubStopped : Hub Nat := (Hub.loop fleet 9 0 1 hubMade).hub

theorem hubStopped_ok : Hub.loop fleet 9 0 1 hubMade = .ok 3 hubStopped := by
  have h : (match Hub.loop fleet 9 0 1 hubMade with | .ok c _ => c == 3 | _ => false) = true := by decide +kernel
  unfold hubStopped
  cases hl : Hub.loop fleet 9 0 1 hubMade with
  | ok c u => rw [hl] at h; rw [beq_iff_eq.1 h]; rfl
  | thrown x u => rw [hl] at h; cases h
  | more u => rw [hl] at h; cases h

theorem hubStopped_tale : Tale Hub.Env (Turn.HubS false fleet) { env := 0 } [(.run 10 0, .returned 3)] hubStopped := by
  refine .turn (s := hubSent) (.other (.other .start (.create 5 _)) (.deliver .initiate 0 _)) (.runReturns ?_) (by decide)
  rw [Hub.Loops]
  refine ⟨hubSent, .refl _, .inr ?_⟩
  rw [if_neg (by decide)]
  have h := Hub.Loops.of_loop fleet_flat 9 0 1 hubMade
  rw [hubStopped_ok] at h
  exact ⟨.ok () hubMade, ⟨_, .step (.refl _) (.terminate _), .inr ⟨_, .refl _, .inr ⟨_, .refl _, .inr ⟨_, .refl _, .inr rfl⟩⟩⟩⟩, h⟩

/-- The library can do the same: `operator()` executes three items and leaves event 4 in the queue. -/
example : ∃ m : Wk Op (Ct (Yard Nat)), Tale (Env OnlyEnv) (Turn.LibS false fleet) { st := { user := { env := 0 } } } [(.run 10 0, .returned 3)] m ∧
    m.queue = [some (.user (.deliver (.event 4) (some 0)))] ∧ m.terminated = true ∧ m.st.log = [.made 0 5, .called .initiate 0] ∧
    ∃ mm, m.st.user.mach 0 = some (5, mm) := by
  obtain ⟨m, h1, h2⟩ := C61_complete (A := fleet) fleet_flat (fun _ => SC.Ex.wf) (fun _ => SC.Ex.contract) (fun _ => fleet_plain) hubStopped_tale
  refine ⟨m, h1, ?_, ?_, ?_, ?_⟩
  · rw [h2.queue]; decide +kernel
  · rw [h2.terminated]; decide +kernel
  · rw [h2.log]; decide +kernel
  · have h4 : (hubStopped.mach 0).map (·.1) = some 5 := by decide +kernel
    rcases h2.machines 0 with ⟨-, h5⟩ | ⟨a, mm, st, h5, h6, -⟩
    · rw [h5] at h4; cases h4
    · rw [h6] at h4; cases h4; exact ⟨mm, h5⟩

end Ex

end SC.Fifo
