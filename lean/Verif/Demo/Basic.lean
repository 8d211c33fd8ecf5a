import Verif.Check
import Verif.Props.Calm
/-!
# The example programs of the library

The modules in this directory contain the state machines of `/repo/example` and prove what the programs do with any input. `Fed` is the loop of such a program: it
calls `initiate()`, and then `process_event` for each input. Output of the programs and members of their classes are in the environment.
-/

namespace SC.Demo
open Spec
variable {W I S : Type}

/-- The program with chart `C` and no user code. -/
def quiet (C : Chart) : Prog W :=
  { C with
    ctor := fun _ _ w => { world := w }
    exit := fun _ _ w => { world := w }
    dtor := fun _ _ w => (w, [])
    action := fun _ _ w => { world := w }
    react := fun _ _ _ _ w => ({ world := w }, .discard)
    unconsumed := fun _ _ w => { world := w }
    alloc := fun _ w => (w, none)
    translate := fun _ => none }

/-- `state_downcast< const T * >() != 0` in user code: `T` is an innermost state or an outer state of one (state_machine.hpp:325-354). -/
def isIn (C : Chart) (t : Sid) (v : View) : Bool := v.slots.any fun
  | none => false
  | some s => (s :: C.ancestors s).contains t

/-- `initiate()` was called, and `process_event` for each input `i`, with event `ev i` and after the environment had changed by `setup i`. All calls have returned. -/
inductive Fed (P : Prog W) (k : Nat) (setup : I → W → W) (ev : I → Event) (w : W) : List I → Mach W → Prop where
  | start {m} : (Call.initiate k).run P (Mach.fresh w) = .ok true m → Fed P k setup ev w [] m
  | next {l i m m'} : Fed P k setup ev w l m → (Call.process (ev i) k).run P { m with world := setup i m.world } = .ok true m' → Fed P k setup ev w (l ++ [i]) m'

def Res.machine? : Res W Bool → Option (Mach W)
  | .ok true m => some m
  | _ => none

/-- The machine after the inputs, if all calls return. -/
def fed (P : Prog W) (k : Nat) (setup : I → W → W) (ev : I → Event) (w : W) (l : List I) : Option (Mach W) :=
  l.foldl (fun o i => o.bind fun m => Res.machine? ((Call.process (ev i) k).run P { m with world := setup i m.world })) (Res.machine? ((Call.initiate k).run P (Mach.fresh w)))

theorem machine_of {r : Res W Bool} {m : Mach W} (h : Res.machine? r = some m) : r = .ok true m := by
  unfold Res.machine? at h
  split at h
  · cases h; rfl
  · cases h

theorem fed_of {P : Prog W} {k : Nat} {setup : I → W → W} {ev : I → Event} {w : W} {l : List I} {m : Mach W} (h : fed P k setup ev w l = some m) : Fed P k setup ev w l m := by
  suffices ∀ (l2 l1 : List I) (o : Option (Mach W)), (∀ m, o = some m → Fed P k setup ev w l1 m) →
      ∀ m, l2.foldl (fun o i => o.bind fun m => Res.machine? ((Call.process (ev i) k).run P { m with world := setup i m.world })) o = some m → Fed P k setup ev w (l1 ++ l2) m from
    this l [] _ (fun m hm => .start (machine_of hm)) m h
  intro l2
  induction l2 with
  | nil => intro l1 o h m hm; rw [List.append_nil]; exact h m hm
  | cons i l2 ih =>
    intro l1 o h m hm
    rw [show l1 ++ i :: l2 = (l1 ++ [i]) ++ l2 by simp]
    refine ih (l1 ++ [i]) _ (fun m' hm' => ?_) m hm
    obtain ⟨m0, h1, h2⟩ := Option.bind_eq_some_iff.1 hm'
    exact .next (h m0 h1) (machine_of h2)

theorem drain_nil {P : Prog W} {st : Calm.St W} (h : st.evq = []) : ∀ k, Calm.drain P k st = (true, st)
  | 0 => by simp [Calm.drain, h]
  | k + 1 => by simp [Calm.drain, h]

/-! ### What the reference machine does -/

/-- A state of the reference machine without histories and the trace. -/
structure Core (W : Type) where
  act : Sid → Bool
  defers : Sid → Bool
  leaves : List Sid
  root : Option Sid
  evq : List Event
  dq : List Event
  trig : Option Event
  world : W

def core (st : Calm.St W) : Core W := ⟨st.act, st.defers, st.leaves, st.root, st.evq, st.dq, st.trig, st.world⟩

/-- `s` is left. -/
def Core.exit (C : Chart) (s : Sid) (f : W → W) (c : Core W) : Core W :=
  { c with leaves := Ref.leave c.leaves s, act := fun x => if x = s then false else c.act x, defers := fun x => if x = s then false else c.defers x,
           root := if C.parent s = none then none else c.root, world := f c.world }

/-- `s` is entered, and posts events. -/
def Core.enter (C : Chart) (s : Sid) (f : W → W) (ps : List Event) (c : Core W) : Core W :=
  { c with leaves := if C.isLeaf s then c.leaves ++ [s] else c.leaves, act := fun x => if x = s then true else c.act x,
           defers := fun x => if x = s then false else c.defers x, root := if C.parent s = none then some s else c.root,
           evq := c.evq ++ ps, world := f c.world }

theorem core_exit {P : Prog W} {s : Sid} {st : Calm.St W} {fe fd : W → W} (he : ∀ v w, P.exit s v w = { world := fe w }) (hd : ∀ v w, P.dtor s v w = (fd w, []))
    (h : st.defers s = false) : core (Calm.exitOne P s st) = (core st).exit P.toChart s (fun w => fd (fe w)) := by
  unfold Core.exit
  simp [core, Calm.exitOne, Calm.destroy, Calm.user, he, hd, Calm.St.log, h]

theorem core_enter {P : Prog W} {s : Sid} {st : Calm.St W} {fc : W → W} {ps : List Event} (hc : ∀ v w, P.ctor s v w = { world := fc w, cmds := ps.map .post }) :
    core (Calm.enter P s st) = (core st).enter P.toChart s fc ps := by
  unfold Core.enter
  have post : ∀ (ps : List Event) (st : Calm.St W), (ps.map Cmd.post).foldl Calm.St.cmd st = { st with evq := st.evq ++ ps } := by
    intro ps
    induction ps with
    | nil => intro st; simp
    | cons e ps ih => intro st; simp [ih, Calm.St.cmd]
  simp only [core, Calm.enter]
  cases P.isSimple s <;> simp [Calm.user, Calm.attach, hc, post, Calm.St.log]

/-- The first leaf that reacts is asked; those before it forward the event. -/
theorem ask_one {P : Prog W} {e : Event} {st : Calm.St W} {s : Sid} : ∀ {l : List Sid}, s ∈ l →
    (∀ x ∈ l, x ≠ s → ∀ y ∈ x :: P.ancestors x, (P.reactions y).find? (fun r => r.ev = none ∨ r.ev = some e.ty) = none) →
    (Calm.local' P s e st).1 ≠ .forward → Calm.ask P e l st = Calm.local' P s e st := by
  have skip : ∀ {l : List Sid} {st : Calm.St W}, (∀ y ∈ l, (P.reactions y).find? (fun r => r.ev = none ∨ r.ev = some e.ty) = none) →
      Calm.offer P e l st = (.forward, st) := by
    intro l
    induction l with
    | nil => intro st _; rfl
    | cons y l ih =>
      intro st h
      have h1 : Calm.local' P y e st = (.forward, st) := by
        unfold Calm.local'
        rw [h y List.mem_cons_self]
      simp only [Calm.offer, h1, if_true]
      exact ih fun y hy => h y (List.mem_cons_of_mem _ hy)
  intro l
  induction l with
  | nil => intro h; cases h
  | cons x l ih =>
    intro hs hx hl
    by_cases h : x = s
    · subst h
      simp only [Calm.ask, Calm.offer, if_neg hl]
    · simp only [Calm.ask]
      simp only [skip (hx x List.mem_cons_self h), if_true]
      exact ih ((List.mem_cons.1 hs).resolve_left fun h' => h h'.symm) (fun y hy => hx y (List.mem_cons_of_mem _ hy)) hl

/-- One leaf, which does something. -/
theorem dispatch_one {P : Prog W} {e : Event} {st st' : Calm.St W} {s : Sid} (hl : st.leaves = [s]) (h : Calm.local' P s e { st with trig := some e } = (.discard, st')) :
    Calm.dispatch P e st = { st' with trig := st.trig } := by
  unfold Calm.dispatch
  rw [hl]
  have := ask_one (l := [s]) List.mem_cons_self (fun x hx hxs => absurd (List.mem_singleton.1 hx) hxs) (by rw [h]; simp)
  rw [hl] at *
  rw [this.trans h]

/-- One leaf, and it or one of its outer states does something. -/
theorem dispatch_path {P : Prog W} {e : Event} {st st' : Calm.St W} {s : Sid} (hl : st.leaves = [s])
    (h : Calm.offer P e (s :: P.ancestors s) { st with trig := some e } = (.discard, st')) : Calm.dispatch P e st = { st' with trig := st.trig } := by
  unfold Calm.dispatch
  rw [hl]
  rw [hl] at h
  simp only [Calm.ask, h, reduceCtorEq, if_false]

/-- Nobody reacts. -/
theorem ask_none {P : Prog W} {e : Event} {st : Calm.St W} : ∀ {l : List Sid},
    (∀ x ∈ l, ∀ y ∈ x :: P.ancestors x, (P.reactions y).find? (fun r => r.ev = none ∨ r.ev = some e.ty) = none) → Calm.ask P e l st = (.forward, st) := by
  have skip : ∀ {l : List Sid} {st : Calm.St W}, (∀ y ∈ l, (P.reactions y).find? (fun r => r.ev = none ∨ r.ev = some e.ty) = none) →
      Calm.offer P e l st = (.forward, st) := by
    intro l
    induction l with
    | nil => intro st _; rfl
    | cons y l ih =>
      intro st h
      have h1 : Calm.local' P y e st = (.forward, st) := by
        unfold Calm.local'
        rw [h y List.mem_cons_self]
      simp only [Calm.offer, h1, if_true]
      exact ih fun y hy => h y (List.mem_cons_of_mem _ hy)
  intro l
  induction l with
  | nil => intro _; rfl
  | cons x l ih =>
    intro h
    simp only [Calm.ask]
    simp only [skip (h x List.mem_cons_self), if_true]
    exact ih fun y hy => h y (List.mem_cons_of_mem _ hy)

/-- A leaf is entered. -/
theorem build_leaf {P : Prog W} {d : Sid} (hd : P.isLeaf d = true) (f : Nat) (st : Calm.St W) : Calm.build P (f + 4) (.chain [] ⟨.plain, d⟩) st = Calm.enter P d st := by
  have h : P.init d = [] := List.isEmpty_iff.1 hd
  have hr : Calm.recalled P ⟨.plain, d⟩ st = .deep d := by
    unfold Calm.recalled
    cases P.parent d <;> rfl
  simp only [Calm.build, hr, h]

theorem depth_eq (P : Prog W) : ∃ f, Ref.depth P = f + 50 := by
  have h : 1 * 300 ≤ (P.n + 1) * (P.n + 300) := Nat.mul_le_mul (by omega) (by omega)
  exact ⟨Ref.depth P - 50, by unfold Ref.depth; omega⟩

/-- A transition from a leaf to a leaf of the same region without action. -/
theorem transit_leaf {P : Prog W} {s d : Sid} (hn : s < P.n) (hs : P.isLeaf s = true) (hd : P.isLeaf d = true) (hr : P.relaxed = false)
    (ht : P.termState s d = some s) (hp : P.pathBelow (P.commonCtx s d) d = []) (st : Calm.St W) :
    Calm.transit P s ⟨.plain, d⟩ none st = Calm.enter P d (Calm.exitOne P s st) := by
  obtain ⟨f, hf⟩ := depth_eq P
  unfold Calm.transit
  simp only [ht, hp, hf]
  rw [show f + 50 = (f + 46) + 4 from rfl, build_leaf hd]
  unfold Calm.leaveAndAct Calm.leaveTree exitOrder
  obtain ⟨g, hg⟩ : ∃ g, P.n - s = g + 1 := ⟨P.n - s - 1, by omega⟩
  rw [hg, exitOrderF_leaf hs]
  simp [hr, Calm.action, Calm.exitAll]

/-- The same with an action. -/
theorem transit_leaf_action {P : Prog W} {s d : Sid} {a : Option Nat} (hn : s < P.n) (hs : P.isLeaf s = true) (hd : P.isLeaf d = true) (hr : P.relaxed = false)
    (ht : P.termState s d = some s) (hp : P.pathBelow (P.commonCtx s d) d = []) (st : Calm.St W) :
    Calm.transit P s ⟨.plain, d⟩ a st = Calm.enter P d (Calm.action P a (Calm.exitOne P s st)) := by
  obtain ⟨f, hf⟩ := depth_eq P
  unfold Calm.transit
  simp only [ht, hp, hf]
  rw [show f + 50 = (f + 46) + 4 from rfl, build_leaf hd]
  unfold Calm.leaveAndAct Calm.leaveTree exitOrder
  obtain ⟨g, hg⟩ : ∃ g, P.n - s = g + 1 := ⟨P.n - s - 1, by omega⟩
  rw [hg, exitOrderF_leaf hs]
  simp [hr, Calm.exitAll]

/-- A transition without action from an outermost state, in which only the leaf `x` is active, to an outermost state with inner initial state `y`. -/
theorem transit_outer {P : Prog W} {s d x y : Sid} {st : Calm.St W} (hx : exitOrder P.toChart st.act s = [x, s]) (hd : P.init d = [⟨.plain, y⟩]) (hy : P.init y = [])
    (hr : P.relaxed = false) (ht : P.termState s d = some s) (hp : P.pathBelow (P.commonCtx s d) d = []) :
    Calm.transit P s ⟨.plain, d⟩ none st = Calm.enter P y (Calm.enter P d (Calm.exitOne P s (Calm.exitOne P x st))) := by
  obtain ⟨f, hf⟩ := depth_eq P
  unfold Calm.transit
  simp only [ht, hp, hf]
  unfold Calm.leaveAndAct Calm.leaveTree
  rw [hx]
  have hr : ∀ z st, Calm.recalled P ⟨.plain, z⟩ st = .deep z := by
    intro z st
    unfold Calm.recalled
    cases P.parent z <;> rfl
  simp [Calm.build, hr, hd, hy, Calm.exitAll, Calm.action, *]

theorem core_action {P : Prog W} {a : Nat} {st : Calm.St W} {f : W → W} (h : ∀ v w, P.action a v w = { world := f w }) :
    core (Calm.action P (some a) st) = { core st with world := f st.world } := by
  simp [core, Calm.action, Calm.user, h, Calm.St.log]

section
variable {P : Prog W} {k : Nat} {setup : I → W → W} {ev : I → Event} {w : W}
  (hwf : P.toChart.WF) (hok : Contract P) (hpl : Plain P) (hq : Smooth P)

include hwf hok hpl hq in
/-- The program goes on for ever, and does what `step` says, if the reference machine does. -/
theorem fed_follows (R : S → Calm.St W → Prop) (step : S → I → S) (s0 : S)
    (h0 : ∃ st, Calm.run P (.initiate k) (Calm.start w) = (true, st) ∧ R s0 st)
    (hs : ∀ s st i, R s st → ∃ st', Calm.run P (.process (ev i) k) { st with world := setup i st.world } = (true, st') ∧ R (step s i) st') (l : List I) :
    (∃ m, Fed P k setup ev w l m) ∧ ∀ m, Fed P k setup ev w l m → Reach P m ∧ ∃ st, R (l.foldl step s0) st ∧ Calm.Matches m st := by
  have key : ∀ l m, Fed P k setup ev w l m → Reach P m ∧ R (l.foldl step s0) (Calm.strip (abs m)) := by
    intro l m h
    induction h with
    | @start m h =>
      obtain ⟨st, h1, h2⟩ := h0
      have hr : Reach P (Mach.fresh w) := .fresh w
      obtain ⟨m', h3, h4⟩ := C54_call hwf hok hpl hq hr (.initiate k)
      have h5 : Calm.run P (Call.initiate k).op (Calm.strip (abs (Mach.fresh w))) = (true, st) := h1
      rw [h] at h3
      rw [h5] at h3 h4
      cases h3
      refine ⟨.returns hr (C54_initiate_is_legal hwf hok hpl hq hr _) h, ?_⟩
      rw [h4]
      exact h2
    | @next l i m m' _ h ih =>
      obtain ⟨hr, hR⟩ := ih
      have hr' := hr.world (setup i m.world)
      obtain ⟨st, h1, h2⟩ := hs _ _ i hR
      obtain ⟨m2, h3, h4⟩ := C54_call hwf hok hpl hq hr' (.process (ev i) k)
      have h5 : Calm.run P (Call.process (ev i) k).op (Calm.strip (abs { m with world := setup i m.world })) = (true, st) := h1
      rw [h] at h3
      rw [h5] at h3 h4
      cases h3
      refine ⟨.returns hr' (c := .process (ev i) k) trivial h, ?_⟩
      rw [h4, List.foldl_append]
      exact h2
  refine ⟨?_, fun m h => ?_⟩
  · suffices ∀ n (l : List I), l.length = n → ∃ m, Fed P k setup ev w l m from this _ l rfl
    intro n
    induction n with
    | zero =>
      intro l hl
      obtain rfl := List.eq_nil_of_length_eq_zero hl
      obtain ⟨st, h1, h2⟩ := h0
      obtain ⟨m', h3, -⟩ := C54_call hwf hok hpl hq (Reach.fresh (P := P) w) (.initiate k)
      have h5 : Calm.run P (Call.initiate k).op (Calm.strip (abs (Mach.fresh w))) = (true, st) := h1
      rw [h5] at h3
      exact ⟨m', .start h3⟩
    | succ n ih =>
      intro l hl
      rcases List.eq_nil_or_concat l with rfl | ⟨l', i, rfl⟩
      · cases hl
      · rw [List.concat_eq_append] at hl ⊢
        obtain ⟨m, hm⟩ := ih l' (by simpa using hl)
        obtain ⟨hr, hR⟩ := key _ _ hm
        obtain ⟨st, h1, h2⟩ := hs _ _ i hR
        obtain ⟨m2, h3, -⟩ := C54_call hwf hok hpl hq (hr.world (setup i m.world)) (.process (ev i) k)
        have h5 : Calm.run P (Call.process (ev i) k).op (Calm.strip (abs { m with world := setup i m.world })) = (true, st) := h1
        rw [h5] at h3
        exact ⟨m2, .next hm h3⟩
  · obtain ⟨hr, hR⟩ := key _ _ h
    exact ⟨hr, _, hR, Calm.matches_strip (hr.stable hwf hok).1.inv.filled⟩

end

end SC.Demo
