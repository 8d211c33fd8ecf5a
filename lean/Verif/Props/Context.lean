import Verif.Props.Query
/-!
# Property C42: `terminated()`, `context<>()` and `outermost_context()` inside user code
-/

namespace SC
open Spec Chart
variable {W V : Type} {P : Prog W}

namespace Spec

/-- `r` is the innermost of `s` and its outer states that `this` holds of; none: the machine itself. -/
def Nearest (C : Chart) (this : Sid → Bool) (s : Sid) : Option Sid → Prop
  | some t => Below C t s ∧ this t = true ∧ ∀ u, Below C u s → Outer C t u → this u = false
  | none => ∀ u, Below C u s → this u = false

/-- The state a call of user code belongs to. -/
def subject : Obs → Option Sid
  | .enter s | .enterFail s | .exit s | .exitFail s | .destroy s | .react s _ | .defer s => some s
  | .act _ | .unconsumed => none

/-- The constructor of a `simple_state` is running: its object does not know its context yet. -/
def Rootless (C : Chart) (o : Obs) (s : Sid) : Prop := making o = some s ∧ C.isSimple s = true

end Spec

/-! ### The outermost state -/

theorem topOf_iff (hwf : P.toChart.WF) {tr : List Obs} : ∀ {st : Life}, life P.toChart tr = some st →
    ∀ s, topOf P.toChart tr = some s ↔ (alive tr s = true ∧ P.parent s = none) := by
  have hpos : ∀ s, s < P.n → P.parent s = none → P.pos s = 0 := fun s hs hp => by
    have := hwf.pos_lt hs; rw [hp] at this; exact Nat.lt_one_iff.1 this
  induction tr using snocInd with
  | nil =>
    intro st _ s
    constructor
    · intro h; cases h
    · intro h; cases h.1
  | snoc tr o ih =>
    intro st h s
    obtain ⟨st1, st2, h1, h2, _⟩ := life_split (a := tr) (b := []) h
    have ha := life_act h1
    have hb := life_alive_bound h1
    have hi := ih h1
    have hempty : ∀ x, x < P.n → P.parent x = none → regionEmpty P.toChart st1.act x = true → ∀ y, alive tr y = true → P.parent y ≠ none := by
      intro x hx hp hr y hy hq
      have hyn := hb y hy
      unfold regionEmpty at hr
      rw [List.all_eq_true] at hr
      have := hr y (List.mem_range.2 hyn)
      rw [ha, hy, hp, hq, hpos x hx hp, hpos y hyn hq] at this
      simp at this
    rw [topOf_snoc, alive_snoc]
    cases o with
    | enter x =>
      simp only [lifeStep] at h2
      split at h2
      · next hc =>
        simp only [topStep, aliveStep]
        by_cases hp : P.parent x = none
        · rw [if_pos hp]
          constructor
          · intro he; cases he; exact ⟨if_pos rfl, hp⟩
          · rintro ⟨hs, hq⟩
            split at hs
            · next he => rw [he]
            · exact absurd hq (hempty x hc.2.1 hp hc.2.2.2.2 s hs)
        · rw [if_neg hp, hi]
          constructor
          · rintro ⟨hs, hq⟩
            exact ⟨by rw [hs]; simp, hq⟩
          · rintro ⟨hs, hq⟩
            split at hs
            · next he => subst he; exact absurd hq hp
            · exact ⟨hs, hq⟩
      · cases h2
    | enterFail x =>
      simp only [lifeStep] at h2
      split at h2
      · next hc =>
        simp only [topStep, aliveStep]
        split
        · next hp =>
          constructor
          · intro he; cases he
          · rintro ⟨hs, hq⟩
            exact absurd hq (hempty x hc.2.1 hp.1 hc.2.2.2.2 s hs)
        · exact hi s
      · cases h2
    | destroy x =>
      simp only [lifeStep] at h2
      split at h2
      · next hc =>
        simp only [topStep, aliveStep]
        have hx : alive tr x = true := by rw [← ha]; exact hc.2.1
        by_cases hp : P.parent x = none
        · rw [if_pos hp]
          constructor
          · intro he; cases he
          · rintro ⟨hs, hq⟩
            split at hs
            · cases hs
            · next he =>
              have e1 := (hi s).2 ⟨hs, hq⟩
              have e2 := (hi x).2 ⟨hx, hp⟩
              rw [e1] at e2; cases e2; exact absurd rfl he
        · rw [if_neg hp, hi]
          constructor
          · rintro ⟨hs, hq⟩
            refine ⟨?_, hq⟩
            rw [if_neg (by rintro rfl; exact hp hq)]; exact hs
          · rintro ⟨hs, hq⟩
            split at hs
            · cases hs
            · exact ⟨hs, hq⟩
      · cases h2
    | _ => exact hi s

/-- Above every state that is alive there is an outermost one. -/
theorem alive_root (hwf : P.toChart.WF) {tr : List Obs} {st : Life} (h : life P.toChart tr = some st) :
    ∀ (n s : Nat), s ≤ n → alive tr s = true → ∃ r, alive tr r = true ∧ P.parent r = none := by
  intro n
  induction n with
  | zero =>
    intro s hn hs
    cases hp : P.parent s with
    | none => exact ⟨s, hs, hp⟩
    | some p =>
      have : p < s := hwf.parent_lt (life_alive_bound h s hs) hp
      omega
  | succ n ih =>
    intro s hn hs
    cases hp : P.parent s with
    | none => exact ⟨s, hs, hp⟩
    | some p =>
      have : p < s := hwf.parent_lt (life_alive_bound h s hs) hp
      exact ih p (by omega) (life_forest hwf h s p hs hp)

/-! ### Walking outwards -/

theorem contextUp_step {this : Sid → Bool} {m : Mach W} {f : Nat} {s : Sid} {ob : Obj} (h : m.heap s = some ob) :
    contextUp P this (f + 1) (some s) m =
      if this s then .ok (some s) m else if ob.ctxSet then contextUp P this f (P.parent s) m else .fault .assertFail := by
  rw [contextUp]
  show M.bnd (getObj s) _ m = _
  unfold M.bnd
  simp only [getObj, h]
  split
  · rfl
  · split <;> rfl

theorem outermostContextUp_step {m : Mach W} {f : Nat} {s : Sid} {ob : Obj} (h : m.heap s = some ob) :
    outermostContextUp P (f + 1) (some s) m =
      if ob.ctxSet then outermostContextUp P f (P.parent s) m else .fault .assertFail := by
  rw [outermostContextUp]
  show M.bnd (getObj s) _ m = _
  unfold M.bnd
  simp only [getObj, h]
  split <;> rfl

theorem below_root {C : Chart} {u s : Sid} (hp : C.parent s = none) (h : Below C u s) : u = s := by
  cases h with
  | refl => rfl
  | step h1 => rw [hp] at h1; cases h1

theorem below_step {C : Chart} {u s p : Sid} (hp : C.parent s = some p) (h : Below C u s) : u = s ∨ Below C u p := by
  cases h with
  | refl => exact .inl rfl
  | step h1 h2 => rw [hp] at h1; cases h1; exact .inr h2

theorem contextUp_ok (hwf : P.toChart.WF) {this : Sid → Bool} {m : Mach W} : ∀ (f s : Nat), s < f → s < P.n →
    (∀ u, Below P.toChart u s → ∃ ob, m.heap u = some ob ∧ ob.ctxSet = true) →
    ∃ r, contextUp P this f (some s) m = .ok r m ∧ Nearest P.toChart this s r := by
  intro f
  induction f with
  | zero => intro s h; cases h
  | succ f ih =>
    intro s hf hs hob
    obtain ⟨ob, h1, h2⟩ := hob s .refl
    rw [contextUp_step h1, h2, if_pos rfl]
    by_cases ht : this s = true
    · rw [if_pos ht]
      refine ⟨some s, rfl, .refl, ht, fun u hu ho => ?_⟩
      have h3 := hu.le hwf hs
      have h4 := ho.lt hwf (hu.bound hwf hs)
      exact absurd (Nat.lt_of_lt_of_le h4 h3) (Nat.lt_irrefl _)
    · rw [if_neg ht]
      cases hp : P.parent s with
      | none =>
        refine ⟨none, by rw [contextUp]; rfl, fun u hu => ?_⟩
        rw [below_root hp hu]; simpa using ht
      | some p =>
        have hlt := hwf.parent_lt hs hp
        obtain ⟨r, k1, k2⟩ := ih p (by omega) (by omega) fun u hu => hob u (.step hp hu)
        refine ⟨r, k1, ?_⟩
        cases r with
        | none =>
          intro u hu
          rcases below_step hp hu with rfl | hu
          · simpa using ht
          · exact k2 u hu
        | some t =>
          refine ⟨.step hp k2.1, k2.2.1, fun u hu ho => ?_⟩
          rcases below_step hp hu with rfl | hu
          · simpa using ht
          · exact k2.2.2 u hu ho

theorem outermostContextUp_ok (hwf : P.toChart.WF) {m : Mach W} : ∀ (f s : Nat), s < f → s < P.n →
    (∀ u, Below P.toChart u s → ∃ ob, m.heap u = some ob ∧ ob.ctxSet = true) →
    outermostContextUp P f (some s) m = .ok () m := by
  intro f
  induction f with
  | zero => intro s h; cases h
  | succ f ih =>
    intro s hf hs hob
    obtain ⟨ob, h1, h2⟩ := hob s .refl
    rw [outermostContextUp_step h1, h2, if_pos rfl]
    cases hp : P.parent s with
    | none => rw [outermostContextUp]; rfl
    | some p =>
      have hlt := hwf.parent_lt hs hp
      exact ih p (by omega) (by omega) fun u hu => hob u (.step hp hu)

section
variable (hwf : P.toChart.WF) (hok : Contract P) {m : Mach (W × Log)}
include hwf hok

/-- **C42 (`terminated`).** Called by user code, `terminated()` returns true iff no state is alive and no constructor
of an outermost `state` is running. -/
theorem C42_terminated (h : Noted P m) {pre post : Log} {v : View} {o : Obs} (hl : m.world.2 = pre ++ (v, o) :: post) :
    v.terminated = true ↔ (∀ s, alive (pre.map (·.2)) s = false) ∧ ∀ s, making o = some s → P.parent s = none → P.isSimple s = true := by
  obtain ⟨st, _, hst, _⟩ := h.life_pre hwf hok hl
  have ht := ((h.tidy hwf hok).seen pre v o post hl).term
  have htop : (topOf P.toChart (pre.map (·.2))).isNone = true ↔ ∀ s, alive (pre.map (·.2)) s = false := by
    rw [Option.isNone_iff_eq_none]
    constructor
    · intro hn s
      cases hs : alive (pre.map (·.2)) s with
      | false => rfl
      | true =>
        obtain ⟨r, h1, h2⟩ := alive_root hwf hst s s (Nat.le_refl _) hs
        rw [(topOf_iff hwf hst r).2 ⟨h1, h2⟩] at hn; cases hn
    · intro ha
      cases he : topOf P.toChart (pre.map (·.2)) with
      | none => rfl
      | some r =>
        have := ((topOf_iff hwf hst r).1 he).1
        rw [ha] at this; cases this
  rw [ht]
  unfold termSeen
  cases hm : making o with
  | none => simp only; rw [htop]; simp
  | some s =>
    simp only
    split
    · next hc =>
      constructor
      · intro h; cases h
      · rintro ⟨_, h1⟩
        rw [h1 s rfl hc.1] at hc; cases hc.2
    · next hc =>
      rw [htop]
      constructor
      · intro ha
        refine ⟨ha, fun x hx hp => ?_⟩
        cases hx
        cases hsi : P.isSimple s with
        | true => rfl
        | false => exact absurd ⟨hp, hsi⟩ hc
      · exact fun h => h.1

/-- **C42 (whose code runs).** User code that belongs to a state runs while the state is alive or being constructed, and its
outer states are alive. -/
theorem C42_subject (h : Noted P m) {pre post : Log} {v : View} {o : Obs} (hl : m.world.2 = pre ++ (v, o) :: post)
    {s : Sid} (hs : subject o = some s) :
    s < P.n ∧ (alive (pre.map (·.2)) s = true ↔ making o = none) ∧ ∀ p, P.parent s = some p → alive (pre.map (·.2)) p = true := by
  obtain ⟨st, st', h1, h2⟩ := h.life_pre hwf hok hl
  obtain ⟨hb, hp⟩ := h.forest hwf hok hl
  have ha := life_act h1
  rw [← ha] at hb hp ⊢
  cases o <;> simp only [subject, Option.some.injEq, reduceCtorEq] at hs <;> subst hs <;> simp only [lifeStep] at h2 <;> split at h2
  all_goals first
    | (cases h2; done)
    | skip
  · next hc => exact ⟨hc.2.1, by simp [making, hc.2.2.1], parentActive_iff.1 hc.2.2.2.1⟩
  · next hc => exact ⟨hc.2.1, by simp [making, hc.2.2.1], parentActive_iff.1 hc.2.2.2.1⟩
  all_goals
    next hc =>
      first
        | exact ⟨hb _ hc.2.1, by simp [making, hc.2.1], fun p => hp _ p hc.2.1⟩
        | exact ⟨hb _ hc.2, by simp [making, hc.2], fun p => hp _ p hc.2⟩

/-- The objects seen by user code at and outside a state. -/
theorem Noted.chain (h : Noted P m) {pre post : Log} {v : View} {o : Obs} (hl : m.world.2 = pre ++ (v, o) :: post)
    {s : Sid} (hs : alive (pre.map (·.2)) s = true ∨ making o = some s) (hn : ¬ Rootless P.toChart o s) :
    s < P.n ∧ ∀ u, Below P.toChart u s → ∃ ob, v.objs u = some ob ∧ ob.ctxSet = true := by
  obtain ⟨hb, hp⟩ := h.forest hwf hok hl
  obtain ⟨_, e4, e5, _⟩ := (h.tidy hwf hok).seen pre v o post hl
  have hup : ∀ {x u}, Below P.toChart u x → alive (pre.map (·.2)) x = true → alive (pre.map (·.2)) u = true := by
    intro x u hu
    induction hu with
    | refl => exact id
    | step h1 _ ih => exact fun hx => ih (hp _ _ hx h1)
  rcases hs with hs | hs
  · exact ⟨hb s hs, fun u hu => e4 u (hup hu hs)⟩
  · have hsub : subject o = some s := by cases o <;> simp_all [making, subject]
    obtain ⟨k1, _, k3⟩ := C42_subject hwf hok h hl hsub
    refine ⟨k1, fun u hu => ?_⟩
    cases hu with
    | refl =>
      obtain ⟨ob, h1, h2⟩ := e5 s hs
      refine ⟨ob, h1, ?_⟩
      rw [h2]
      cases hsi : P.isSimple s with
      | false => rfl
      | true => exact absurd ⟨hs, hsi⟩ hn
    | step h1 h2 => exact e4 u (hup h2 (k3 _ h1))

/-- **C42 (`context`).** Called by user code on a state that is alive or under construction (but not in the constructor of a `simple_state`),
`context<>()` touches only existing objects and returns the innermost of the state and its outer states that
is of the type asked for, or the machine if there is none. -/
theorem C42_context (h : Noted P m) {pre post : Log} {v : View} {o : Obs} (hl : m.world.2 = pre ++ (v, o) :: post)
    {s : Sid} (hs : alive (pre.map (·.2)) s = true ∨ making o = some s) (hn : ¬ Rootless P.toChart o s) (this : Sid → Bool) (w : W) :
    ∃ r, outcome (context P this s (v.mach w)) = .value r ∧ Nearest P.toChart this s r := by
  obtain ⟨h1, h2⟩ := h.chain hwf hok hl hs hn
  obtain ⟨r, k1, k2⟩ := contextUp_ok (P := P) hwf (this := this) (m := v.mach w) (P.n + 1) s (by omega) h1 h2
  exact ⟨r, by unfold context; rw [k1]; rfl, k2⟩

/-- **C42 (`outermost_context`).** The same for the machine itself. -/
theorem C42_outermost_context (h : Noted P m) {pre post : Log} {v : View} {o : Obs} (hl : m.world.2 = pre ++ (v, o) :: post)
    {s : Sid} (hs : alive (pre.map (·.2)) s = true ∨ making o = some s) (hn : ¬ Rootless P.toChart o s) (w : W) :
    outcome (outermostContext P s (v.mach w)) = .value () := by
  obtain ⟨h1, h2⟩ := h.chain hwf hok hl hs hn
  have := outermostContextUp_ok (P := P) hwf (m := v.mach w) (P.n + 1) s (by omega) h1 h2
  unfold outermostContext; rw [this]; rfl

/-- **C42 (constructors of `simple_state`).** There, both functions fail on the object under construction, unless the
class asked for is its own. -/
theorem C42_simple_ctor (h : Noted P m) {pre post : Log} {v : View} {o : Obs} (hl : m.world.2 = pre ++ (v, o) :: post)
    {s : Sid} (hn : Rootless P.toChart o s) (this : Sid → Bool) (w : W) :
    outcome (context P this s (v.mach w)) = (if this s then .value (some s) else .undefined) ∧
      outcome (outermostContext P s (v.mach w)) = .undefined := by
  obtain ⟨_, _, e5, _⟩ := (h.tidy hwf hok).seen pre v o post hl
  obtain ⟨ob, h1, h2⟩ := e5 s hn.1
  rw [hn.2] at h2
  have h1' : (v.mach w).heap s = some ob := h1
  unfold context outermostContext
  rw [contextUp_step h1', outermostContextUp_step h1', h2]
  refine ⟨?_, rfl⟩
  split <;> rfl

/-- **C42 (between the calls).** Outside user code, both functions work on all active states. -/
theorem C42_outside (h : Noted P m) {s : Sid} (hs : alive (m.trace.map (·.2)) s = true) (this : Sid → Bool) :
    (∃ r, context P.watch this s m = .ok r m ∧ Nearest P.toChart this s r) ∧ outermostContext P.watch s m = .ok () m := by
  obtain ⟨st, hlife⟩ := h.has_life hwf hok
  have ht := h.tidy hwf hok
  have hlog : m.world.2.map (·.2) = (m.trace.map (·.2)).filter userCall := by
    have := congrArg (List.map (fun x : Option Event × Obs => x.2)) ht.logged
    rw [List.map_map] at this
    rw [List.filter_map]
    exact this
  have hal : alive (m.world.2.map (·.2)) = alive (m.trace.map (·.2)) := by
    rw [hlog, ← life_act (life_users hlife), ← life_act hlife]
  have hob : ∀ u, Below P.toChart u s → ∃ ob, m.heap u = some ob ∧ ob.ctxSet = true := by
    intro u hu
    have ha : alive (m.trace.map (·.2)) u = true := by
      induction hu with
      | refl => exact hs
      | step h1 _ ih => exact ih (life_forest hwf hlife _ _ hs h1)
    obtain ⟨ob, h1⟩ := Option.isSome_iff_exists.1 ((ht.live u).2 (.inl (by rw [hal]; exact ha)))
    exact ⟨ob, h1, ht.ctx h1 (by simp)⟩
  have hb := life_alive_bound hlife s hs
  have hwf' : P.watch.toChart.WF := hwf
  exact ⟨contextUp_ok (P := P.watch) hwf' (P.n + 1) s (Nat.lt_succ_of_lt hb) hb hob, outermostContextUp_ok (P := P.watch) hwf' (P.n + 1) s (Nat.lt_succ_of_lt hb) hb hob⟩

end

/-! ### Examples -/

namespace Ex

/-- The note at position `i`. -/
theorem note_ex (l : List (Nat × Call)) (i : Nat) (p : Log → View → Obs → Bool)
    (h : ((wscenario prog l (Mach.fresh (0, []))).any fun m => match m.world.2.drop i with
      | (v, o) :: _ => p (m.world.2.take i) v o
      | [] => false) = true) :
    ∃ (m : Mach (Nat × Log)) (pre post : Log) (v : View) (o : Obs), Noted prog m ∧ m.world.2 = pre ++ (v, o) :: post ∧ p pre v o = true := by
  obtain ⟨m, h1, h2⟩ := wscenario_ex (P := prog) l 0 (fun m => match m.world.2.drop i with
      | (v, o) :: _ => p (m.world.2.take i) v o
      | [] => false) h
  split at h2
  · next v o post hd => exact ⟨m, _, post, v, o, .between h1, by rw [← hd, List.take_append_drop], h2⟩
  · cases h2

/-- In `exit()` of `G` (6): from there, `A` (0) is a context, and from `C` (2), which is in another region, `B` (1). -/
example : ∃ (m : Mach (Nat × Log)) (pre post : Log) (v : View), Noted prog m ∧ m.world.2 = pre ++ (v, .exit 6) :: post ∧
    alive (pre.map (·.2)) 6 = true ∧ alive (pre.map (·.2)) 2 = true ∧ ¬ Rootless prog.toChart (.exit 6) 6 ∧
    outcome (context prog (fun s => s == 0) 6 (v.mach 0)) = .value (some 0) ∧
    outcome (context prog (fun s => s == 1) 2 (v.mach 0)) = .value (some 1) ∧
    outcome (context prog (fun _ => false) 6 (v.mach 0)) = .value none := by
  obtain ⟨m, pre, post, v, o, h1, h2, h3⟩ := note_ex [(0, .initiate 0), (0, .process ⟨0, 0⟩ 0), (2, .terminate)] 7
    (fun pre v o => decide (o = .exit 6 ∧ alive (pre.map (·.2)) 6 = true ∧ alive (pre.map (·.2)) 2 = true ∧
      outcome (context prog (fun s => s == 0) 6 (v.mach 0)) = .value (some 0) ∧
      outcome (context prog (fun s => s == 1) 2 (v.mach 0)) = .value (some 1) ∧
      outcome (context prog (fun _ => false) 6 (v.mach 0)) = .value none)) (by decide +kernel)
  obtain ⟨rfl, k1, k2, k3, k4, k5⟩ := of_decide_eq_true h3
  exact ⟨m, pre, post, v, h1, h2, k1, k2, (fun h => by cases h.1), k3, k4, k5⟩

/-- In the constructor of `B` (1), a `state`: its context is `A` (0). -/
example : ∃ (m : Mach (Nat × Log)) (pre post : Log) (v : View), Noted prog m ∧ m.world.2 = pre ++ (v, .enter 1) :: post ∧
    making (.enter 1) = some 1 ∧ ¬ Rootless prog.toChart (.enter 1) 1 ∧
    outcome (context prog (fun s => s == 0) 1 (v.mach 0)) = .value (some 0) ∧
    outcome (outermostContext prog 1 (v.mach 0)) = .value () := by
  obtain ⟨m, pre, post, v, o, h1, h2, h3⟩ := note_ex [(0, .initiate 0)] 1
    (fun pre v o => decide (o = .enter 1 ∧
      outcome (context prog (fun s => s == 0) 1 (v.mach 0)) = .value (some 0) ∧
      outcome (outermostContext prog 1 (v.mach 0)) = .value ())) (by decide +kernel)
  obtain ⟨rfl, k1, k2⟩ := of_decide_eq_true h3
  exact ⟨m, pre, post, v, h1, h2, rfl, (fun h => absurd h.2 (by decide)), k1, k2⟩

/-- In the constructor of `C` (2), a `simple_state`: it has no context yet, but `B` (1) has. -/
example : ∃ (m : Mach (Nat × Log)) (pre post : Log) (v : View), Noted prog m ∧ m.world.2 = pre ++ (v, .enter 2) :: post ∧
    Rootless prog.toChart (.enter 2) 2 ∧
    outcome (context prog (fun s => s == 1) 2 (v.mach 0)) = .undefined ∧
    outcome (context prog (fun s => s == 0) 1 (v.mach 0)) = .value (some 0) := by
  obtain ⟨m, pre, post, v, o, h1, h2, h3⟩ := note_ex [(0, .initiate 0)] 2
    (fun pre v o => decide (o = .enter 2 ∧
      outcome (context prog (fun s => s == 1) 2 (v.mach 0)) = .undefined ∧
      outcome (context prog (fun s => s == 0) 1 (v.mach 0)) = .value (some 0))) (by decide +kernel)
  obtain ⟨rfl, k1, k2⟩ := of_decide_eq_true h3
  exact ⟨m, pre, post, v, h1, h2, ⟨rfl, rfl⟩, k1, k2⟩

/-- Between calls: a machine in which `G` (6) is active. -/
example : ∃ m : Mach (Nat × Log), Noted prog m ∧ alive (m.trace.map (·.2)) 6 = true := by
  obtain ⟨m, h1, h2⟩ := wscenario_ex (P := prog) [(0, .initiate 0)] 0 (fun m => alive (m.trace.map (·.2)) 6) (by decide +kernel)
  exact ⟨m, .between h1, h2⟩

/-- `terminated()` in the constructor of the outermost `state` `A` (0), and in the action of a transition from it to `I` (8):
there it returns true, although the machine goes on. -/
example : (∃ (m : Mach (Nat × Log)) (pre post : Log) (v : View), Noted prog m ∧ m.world.2 = pre ++ (v, .enter 0) :: post ∧
      (∀ s, alive (pre.map (·.2)) s = false) ∧ v.terminated = false) ∧
    ∃ (m : Mach (Nat × Log)) (pre post : Log) (v : View), Noted prog m ∧ m.world.2 = pre ++ (v, .act 1) :: post ∧
      v.terminated = true ∧ m.terminated = false := by
  constructor
  · obtain ⟨m, pre, post, v, o, h1, h2, h3⟩ := note_ex [(0, .initiate 0)] 0
      (fun pre v o => decide (o = .enter 0 ∧ pre = [] ∧ v.terminated = false)) (by decide +kernel)
    obtain ⟨rfl, rfl, k2⟩ := of_decide_eq_true h3
    exact ⟨m, [], post, v, h1, h2, fun _ => rfl, k2⟩
  · obtain ⟨m, h1, h2⟩ := wscenario_ex (P := prog) [(0, .initiate 0), (0, .process ⟨0, 0⟩ 0), (2, .terminate)] 0
      (fun m => match m.world.2.drop 17 with
        | (v, o) :: _ => decide (o = .act 1 ∧ v.terminated = true ∧ m.terminated = false)
        | _ => false) (by decide +kernel)
    split at h2
    · next v o post hd =>
      obtain ⟨rfl, k1, k2⟩ := of_decide_eq_true h2
      exact ⟨m, m.world.2.take 17, post, v, .between h1, by rw [← hd, List.take_append_drop], k1, k2⟩
    · cases h2

end Ex
end SC
