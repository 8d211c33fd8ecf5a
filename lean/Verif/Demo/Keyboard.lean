import Verif.AnyOrder
import Verif.Demo.Basic
/-!
# example/Keyboard/Keyboard.cpp
-/

namespace SC.Demo.Keyboard
open Spec

/-- Keyboard.cpp:42-89. States: `Active` 0, `NumLockOn` 1, `NumLockOff` 2, `CapsLockOn` 3, `CapsLockOff` 4, `ScrollLockOn` 5, `ScrollLockOff` 6. Events:
`EvNumLockPressed` 0, `EvCapsLockPressed` 1, `EvScrollLockPressed` 2, `EvRequestShutdown` 3. -/
def chart : Chart where
  n := 7
  parent s := match s with
    | 1 | 2 | 3 | 4 | 5 | 6 => some 0
    | _ => none
  pos s := match s with
    | 3 | 4 => 1
    | 5 | 6 => 2
    | _ => 0
  init s := match s with
    | 0 => [⟨.plain, 2⟩, ⟨.plain, 4⟩, ⟨.plain, 6⟩]
    | _ => []
  shallowH _ := false
  deepH _ := false
  isSimple _ := true
  initial := 0
  reactions s := match s with
    | 0 => [⟨some 3, .custom 0⟩]
    | 1 => [⟨some 0, .transition ⟨.plain, 2⟩ none⟩]
    | 2 => [⟨some 0, .transition ⟨.plain, 1⟩ none⟩]
    | 3 => [⟨some 1, .transition ⟨.plain, 4⟩ none⟩]
    | 4 => [⟨some 1, .transition ⟨.plain, 3⟩ none⟩]
    | 5 => [⟨some 2, .transition ⟨.plain, 6⟩ none⟩]
    | 6 => [⟨some 2, .transition ⟨.plain, 5⟩ none⟩]
    | _ => []

theorem wf : chart.WF := Chart.wf_of_check chart (by decide +kernel)

/-- The environment is the output of `Active::react` (Keyboard.cpp:91-105): `true` stands for "Shutdown request accepted", `false` for "Ignoring shutdown request". -/
def prog : Prog (List Bool) :=
  { quiet chart with
    react := fun _ _ _ v out =>
      if isIn chart 2 v && isIn chart 4 v && isIn chart 6 v then ({ world := out ++ [true] }, .terminate) else ({ world := out ++ [false] }, .discard) }

/-- What the user does. -/
inductive Key where
  | num | caps | scroll | shutdown
deriving DecidableEq

def Key.event : Key → Event
  | .num => ⟨0, 0⟩
  | .caps => ⟨1, 0⟩
  | .scroll => ⟨2, 0⟩
  | .shutdown => ⟨3, 0⟩

/-- What the user expects. -/
structure Lights where
  num : Bool := false
  caps : Bool := false
  scroll : Bool := false
  /-- The keyboard has been shut down. -/
  off : Bool := false
  out : List Bool := []

def Lights.press (s : Lights) (k : Key) : Lights :=
  if s.off then s else match k with
    | .num => { s with num := !s.num }
    | .caps => { s with caps := !s.caps }
    | .scroll => { s with scroll := !s.scroll }
    | .shutdown => let ok := !s.num && !s.caps && !s.scroll; { s with off := ok, out := s.out ++ [ok] }

theorem contract : Contract prog := by
  constructor
  · intros; rfl
  · intro s r e v w d a h
    simp only [prog] at h
    split at h <;> cases h

theorem isIn_same {C : Chart} {t : Sid} {v v' : View} (h : v.Same v') : isIn C t v = isIn C t v' := by
  unfold isIn
  rw [h.slots]

theorem plain : Plain prog := by
  constructor
  case react =>
    intro v v' s i e w h
    simp only [prog]
    rw [isIn_same h, isIn_same h, isIn_same h]
  all_goals intros; rfl

theorem smooth : Smooth prog := by
  constructor
  case react =>
    intro s id e v w
    simp only [prog]
    split <;> rfl
  all_goals intros; rfl

def Lights.numState (s : Lights) : Sid := if s.num then 1 else 2
def Lights.capsState (s : Lights) : Sid := if s.caps then 3 else 4
def Lights.scrollState (s : Lights) : Sid := if s.scroll then 5 else 6

/-- The innermost active states. -/
def Lights.leaves (s : Lights) : List Sid := if s.off then [] else [s.numState, s.capsState, s.scrollState]

/-- The reference machine reacts to `trig`, and `l` are the innermost states in some order. -/
structure Shows (trig : Option Event) (root : Option Sid) (l : List Sid) (out : List Bool) (st : Calm.St (List Bool)) : Prop where
  act : ∀ x, st.act x = (root == some x || l.contains x)
  defers : ∀ x, st.defers x = false
  leaves : st.leaves.Perm l
  root : st.root = root
  evq : st.evq = []
  dq : st.dq = []
  trig : st.trig = trig
  world : st.world = out

theorem Shows.perm {t : Option Event} {r : Option Sid} {l l' : List Sid} {out : List Bool} {st : Calm.St (List Bool)} (h : Shows t r l out st) (hp : l.Perm l') :
    Shows t r l' out st := by
  refine { h with act := fun x => ?_, leaves := h.leaves.trans hp }
  rw [h.act]
  congr 1
  rw [Bool.eq_iff_iff, List.contains_iff_mem, List.contains_iff_mem]
  exact hp.mem_iff

theorem shows_exit {t : Option Event} {r : Option Sid} {s : Sid} {l : List Sid} {out : List Bool} {st : Calm.St (List Bool)} (h : Shows t r (s :: l) out st)
    (hn : (s :: l).Nodup) (hs : chart.parent s = some 0) (hr : r ≠ some s) : Shows t r l out (Calm.exitOne prog s st) := by
  have hc := core_exit (P := prog) (fe := id) (fd := id) (fun _ _ => rfl) (fun _ _ => rfl) (h.defers s)
  unfold Core.exit at hc
  rw [show prog.parent s = some 0 from hs] at hc
  rw [List.nodup_cons] at hn
  constructor
  · intro x
    have := congrFun (congrArg Core.act hc) x
    change (Calm.exitOne prog s st).act x = if x = s then false else st.act x at this
    rw [this]
    by_cases hx : x = s
    · subst hx
      simp [hn.1, hr]
    · simp [hx, h.act]
  · intro x
    have := congrFun (congrArg Core.defers hc) x
    change (Calm.exitOne prog s st).defers x = if x = s then false else st.defers x at this
    simp [this, h.defers]
  · have : (Calm.exitOne prog s st).leaves = _ := congrArg Core.leaves hc
    rw [this]
    have h1 := AnyOrder.leave_perm (s := s) (h.leaves.nodup_iff.2 (List.nodup_cons.2 hn))
    refine h1.trans ((h.leaves.erase s).trans ?_)
    simp
  · have : (Calm.exitOne prog s st).root = _ := congrArg Core.root hc
    rw [this]
    exact h.root
  · have : (Calm.exitOne prog s st).evq = _ := congrArg Core.evq hc
    rw [this]
    exact h.evq
  · have : (Calm.exitOne prog s st).dq = _ := congrArg Core.dq hc
    rw [this]
    exact h.dq
  · have : (Calm.exitOne prog s st).trig = _ := congrArg Core.trig hc
    rw [this]
    exact h.trig
  · have : (Calm.exitOne prog s st).world = _ := congrArg Core.world hc
    rw [this]
    exact h.world

theorem shows_enter {t : Option Event} {r : Option Sid} {s : Sid} {l : List Sid} {out : List Bool} {st : Calm.St (List Bool)} (h : Shows t r l out st)
    (hs : chart.parent s = some 0) (hl : chart.isLeaf s = true) : Shows t r (s :: l) out (Calm.enter prog s st) := by
  have hc := core_enter (P := prog) (s := s) (st := st) (fc := id) (ps := []) (fun _ _ => rfl)
  unfold Core.enter at hc
  rw [show prog.parent s = some 0 from hs, show prog.isLeaf s = true from hl] at hc
  constructor
  · intro x
    have := congrFun (congrArg Core.act hc) x
    change (Calm.enter prog s st).act x = if x = s then true else st.act x at this
    rw [this]
    by_cases hx : x = s
    · simp [hx]
    · simp [hx, h.act]
  · intro x
    have := congrFun (congrArg Core.defers hc) x
    change (Calm.enter prog s st).defers x = if x = s then false else st.defers x at this
    simp [this, h.defers]
  · have : (Calm.enter prog s st).leaves = _ := congrArg Core.leaves hc
    rw [this]
    exact (List.perm_append_singleton _ _).trans (h.leaves.cons s)
  · have : (Calm.enter prog s st).root = _ := congrArg Core.root hc
    rw [this]
    exact h.root
  · have : (Calm.enter prog s st).evq = _ := congrArg Core.evq hc
    rw [this, List.append_nil]
    exact h.evq
  · have : (Calm.enter prog s st).dq = _ := congrArg Core.dq hc
    rw [this]
    exact h.dq
  · have : (Calm.enter prog s st).trig = _ := congrArg Core.trig hc
    rw [this]
    exact h.trig
  · have : (Calm.enter prog s st).world = _ := congrArg Core.world hc
    rw [this]
    exact h.world

theorem Shows.withTrig {t t' : Option Event} {r : Option Sid} {l : List Sid} {out : List Bool} {st : Calm.St (List Bool)} (h : Shows t r l out st) :
    Shows t' r l out { st with trig := t' } := ⟨h.act, h.defers, h.leaves, h.root, h.evq, h.dq, rfl, h.world⟩

/-- One of the keys is pressed. -/
theorem toggle {e : Event} {s d : Sid} {l : List Sid} {out : List Bool} {st : Calm.St (List Bool)} (h : Shows none (some 0) (s :: l) out st) (hn : (s :: l).Nodup)
    (hs : s < 7) (h1 : chart.isLeaf s = true) (h2 : chart.isLeaf d = true) (h3 : chart.parent s = some 0) (h4 : chart.parent d = some 0)
    (h5 : chart.termState s d = some s) (h6 : chart.pathBelow (chart.commonCtx s d) d = [])
    (h7 : (chart.reactions s).find? (fun r => r.ev = none ∨ r.ev = some e.ty) = some ⟨some e.ty, .transition ⟨.plain, d⟩ none⟩)
    (h8 : ∀ x ∈ l, ∀ y ∈ x :: chart.ancestors x, (chart.reactions y).find? (fun r => r.ev = none ∨ r.ev = some e.ty) = none) :
    Shows none (some 0) (d :: l) out (Calm.dispatch prog e st) := by
  have hl : ∀ st, Calm.local' prog s e st = (.discard, Calm.enter prog d (Calm.exitOne prog s st)) := by
    intro st
    rw [← transit_leaf (P := prog) hs h1 h2 rfl h5 h6]
    unfold Calm.local'
    have : (prog.reactions s).find? (fun r => r.ev = none ∨ r.ev = some e.ty) = _ := h7
    rw [this]
    rfl
  have ha : Calm.ask prog e st.leaves { st with trig := some e } = (.discard, Calm.enter prog d (Calm.exitOne prog s { st with trig := some e })) := by
    rw [ask_one (s := s) (h.leaves.mem_iff.2 List.mem_cons_self), hl]
    · intro x hx hxs
      exact h8 x ((List.mem_cons.1 (h.leaves.mem_iff.1 hx)).resolve_left hxs)
    · rw [hl]; simp
  unfold Calm.dispatch
  rw [ha]
  have h9 := shows_enter (shows_exit (h.withTrig (t' := some e)) hn h3 (by rintro ⟨⟩; cases h3)) h4 h2
  have h10 := h9.withTrig (t' := none)
  rw [← h.trig] at h10
  rw [h.trig] at h10
  simpa [h.trig] using h10

theorem shows_exit_root {t : Option Event} {out : List Bool} {st : Calm.St (List Bool)} (h : Shows t (some 0) [] out st) : Shows t none [] out (Calm.exitOne prog 0 st) := by
  have hc := core_exit (P := prog) (fe := id) (fd := id) (fun _ _ => rfl) (fun _ _ => rfl) (h.defers 0)
  unfold Core.exit at hc
  constructor
  · intro x
    have := congrFun (congrArg Core.act hc) x
    change (Calm.exitOne prog 0 st).act x = if x = 0 then false else st.act x at this
    rw [this]
    by_cases hx : x = 0
    · simp [hx]
    · simp [hx, h.act, Ne.symm hx]
  · intro x
    have := congrFun (congrArg Core.defers hc) x
    change (Calm.exitOne prog 0 st).defers x = if x = 0 then false else st.defers x at this
    simp [this, h.defers]
  · have : (Calm.exitOne prog 0 st).leaves = _ := congrArg Core.leaves hc
    rw [this]
    show (Ref.leave st.leaves 0).Perm []
    rw [List.perm_nil.1 h.leaves]
    exact .refl _
  · have : (Calm.exitOne prog 0 st).root = _ := congrArg Core.root hc
    rw [this]
    rfl
  · have : (Calm.exitOne prog 0 st).evq = _ := congrArg Core.evq hc
    rw [this]
    exact h.evq
  · have : (Calm.exitOne prog 0 st).dq = _ := congrArg Core.dq hc
    rw [this]
    exact h.dq
  · have : (Calm.exitOne prog 0 st).trig = _ := congrArg Core.trig hc
    rw [this]
    exact h.trig
  · have : (Calm.exitOne prog 0 st).world = _ := congrArg Core.world hc
    rw [this]
    exact h.world

/-- `state_downcast` in `Active::react`. -/
theorem isIn_iff {t : Option Event} {l : List Sid} {out : List Bool} {st : Calm.St (List Bool)} (h : Shows t (some 0) l out st) (x : Sid) :
    isIn chart x st.view = l.any fun s => (s :: chart.ancestors s).contains x := by
  rw [Bool.eq_iff_iff]
  simp only [isIn, Calm.St.view, List.any_map, List.any_eq_true, h.leaves.mem_iff, Function.comp]

theorem ask_root {e : Event} {st : Calm.St (List Bool)} : ∀ {l : List Sid}, l ≠ [] → (∀ x ∈ l, chart.ancestors x = [0] ∧ ∀ st, Calm.local' prog x e st = (.forward, st)) →
    (Calm.local' prog 0 e st).1 ≠ .forward → Calm.ask prog e l st = Calm.local' prog 0 e st := by
  intro l hl h h0
  cases l with
  | nil => exact absurd rfl hl
  | cons x l =>
    obtain ⟨h1, h2⟩ := h x List.mem_cons_self
    have h3 : prog.ancestors x = [0] := h1
    simp only [Calm.ask, Calm.offer, h2, h3, if_true, if_neg h0]

theorem terminated_all {act : Sid → Bool} (h : ∀ x, act x = (some 0 == some x || [2, 4, 6].contains x)) : terminated chart act 0 = [6, 4, 2, 0] := by
  rw [funext h]
  decide +kernel

/-- The user wants to shut down. -/
theorem shutdown {l : List Sid} {out : List Bool} {st : Calm.St (List Bool)} {e : Event} (h : Shows none (some 0) l out st) (he : e.ty = 3) (hl : l ≠ [])
    (hx : ∀ x ∈ l, chart.ancestors x = [0] ∧ (chart.reactions x).find? (fun r => r.ev = none ∨ r.ev = some 3) = none) :
    (l = [2, 4, 6] → Shows none none [] (out ++ [true]) (Calm.dispatch prog e st)) ∧
    ((∃ x ∈ [2, 4, 6], ∀ s ∈ l, x ∉ s :: chart.ancestors s) → Shows none (some 0) l (out ++ [false]) (Calm.dispatch prog e st)) := by
  have hfwd : ∀ x ∈ st.leaves, chart.ancestors x = [0] ∧ ∀ st, Calm.local' prog x e st = (.forward, st) := by
    intro x hx'
    obtain ⟨h1, h2⟩ := hx x (h.leaves.mem_iff.1 hx')
    refine ⟨h1, fun st => ?_⟩
    unfold Calm.local'
    have : (prog.reactions x).find? (fun r => r.ev = none ∨ r.ev = some e.ty) = none := by rw [he]; exact h2
    rw [this]
  have hne : st.leaves ≠ [] := by
    intro h'
    have := h.leaves
    rw [h'] at this
    exact hl (List.nil_perm.1 this)
  have h1 := h.withTrig (t' := some e)
  have hloc : ∀ st, Calm.local' prog 0 e st = Calm.custom prog 0 0 e st := by
    intro st
    unfold Calm.local'
    have : (prog.reactions 0).find? (fun r => r.ev = none ∨ r.ev = some e.ty) = some ⟨some 3, .custom 0⟩ := by rw [he]; rfl
    rw [this]
    rfl
  constructor
  · intro h2
    subst h2
    have h3 : (isIn chart 2 { st with trig := some e }.view && isIn chart 4 { st with trig := some e }.view && isIn chart 6 { st with trig := some e }.view) = true := by
      rw [isIn_iff h1, isIn_iff h1, isIn_iff h1]
      rfl
    have h4 : Calm.custom prog 0 0 e { st with trig := some e } =
        (.discard, Calm.terminateState prog 0 ({ st with trig := some e, world := st.world ++ [true] }.log (.react 0 0))) := by
      simp only [Calm.custom, prog, h3, if_true, Calm.user]
      rfl
    have h5 : Shows (some e) (some 0) [2, 4, 6] (out ++ [true]) ({ st with trig := some e, world := st.world ++ [true] }.log (.react 0 0)) :=
      ⟨h1.act, h1.defers, h1.leaves, h1.root, h1.evq, h1.dq, rfl, by rw [← h.world]; rfl⟩
    have h6 : Calm.ask prog e st.leaves { st with trig := some e } = _ := (ask_root hne hfwd (by rw [hloc, h4]; simp)).trans ((hloc _).trans h4)
    unfold Calm.dispatch
    rw [h6]
    have h7 : Shows (some e) none [] (out ++ [true]) (Calm.terminateState prog 0 ({ st with trig := some e, world := st.world ++ [true] }.log (.react 0 0))) := by
      unfold Calm.terminateState
      have : terminated prog.toChart ({ st with trig := some e, world := st.world ++ [true] }.log (.react 0 0)).act 0 = [6, 4, 2, 0] := terminated_all h5.act
      rw [this]
      simp only [Calm.exitAll, List.foldl]
      have a1 := shows_exit (s := 6) (l := [4, 2]) (h5.perm (by decide)) (by decide) rfl (by decide)
      exact shows_exit_root (shows_exit (shows_exit a1 (by decide) rfl (by decide)) (by decide) rfl (by decide))
    have h8 := h7.withTrig (t' := none)
    simpa [h.trig] using h8
  · intro h2
    have h3 : (isIn chart 2 { st with trig := some e }.view && isIn chart 4 { st with trig := some e }.view && isIn chart 6 { st with trig := some e }.view) = false := by
      rw [isIn_iff h1, isIn_iff h1, isIn_iff h1]
      obtain ⟨x, hx1, hx2⟩ := h2
      have : (l.any fun s => (s :: chart.ancestors s).contains x) = false := by
        rw [List.any_eq_false]
        intro s hs h'
        exact hx2 s hs (List.contains_iff_mem.1 h')
      simp only [List.mem_cons, List.not_mem_nil, or_false] at hx1
      rcases hx1 with rfl | rfl | rfl <;> rw [this] <;> simp
    have h4 : Calm.custom prog 0 0 e { st with trig := some e } =
        (.discard, ({ st with trig := some e, world := st.world ++ [false] }.log (.react 0 0))) := by
      simp only [Calm.custom, prog, h3, Calm.user]
      rfl
    have h6 : Calm.ask prog e st.leaves { st with trig := some e } = _ := (ask_root hne hfwd (by rw [hloc, h4]; simp)).trans ((hloc _).trans h4)
    unfold Calm.dispatch
    rw [h6]
    exact ⟨h1.act, h1.defers, h1.leaves, h1.root, h1.evq, h1.dq, h.trig, by rw [← h.world]; rfl⟩

/-- The keyboard has been shut down. -/
theorem dispatch_off {out : List Bool} {st : Calm.St (List Bool)} {e : Event} (h : Shows none none [] out st) : Shows none none [] out (Calm.dispatch prog e st) := by
  have hl := List.perm_nil.1 h.leaves
  unfold Calm.dispatch
  rw [hl]
  exact ⟨h.act, h.defers, .refl _, h.root, h.evq, h.dq, h.trig, h.world⟩

def R (s : Lights) (st : Calm.St (List Bool)) : Prop := Shows none (if s.off then none else some 0) s.leaves s.out st

theorem step {s : Lights} {st : Calm.St (List Bool)} (h : R s st) (k : Key) : R (s.press k) (Calm.dispatch prog k.event st) := by
  obtain ⟨a, b, c, off, out⟩ := s
  cases off with
  | true => exact dispatch_off h
  | false =>
    have h' : Shows none (some 0) [if a then 1 else 2, if b then 3 else 4, if c then 5 else 6] out st := h
    cases k with
    | num =>
      show Shows none (some 0) [if !a then 1 else 2, if b then 3 else 4, if c then 5 else 6] out _
      cases a <;> cases b <;> cases c <;> exact toggle h' (by decide) (by decide) rfl rfl rfl rfl rfl rfl rfl (by decide)
    | caps =>
      show Shows none (some 0) [if a then 1 else 2, if !b then 3 else 4, if c then 5 else 6] out _
      have h2 := h'.perm (l' := [if b then 3 else 4, if a then 1 else 2, if c then 5 else 6]) (.swap _ _ _)
      cases a <;> cases b <;> cases c <;> exact (toggle h2 (by decide) (by decide) rfl rfl rfl rfl rfl rfl rfl (by decide)).perm (.swap _ _ _)
    | scroll =>
      show Shows none (some 0) [if a then 1 else 2, if b then 3 else 4, if !c then 5 else 6] out _
      have h2 := h'.perm (l' := [if c then 5 else 6, if a then 1 else 2, if b then 3 else 4]) ((List.Perm.swap _ _ _).cons _ |>.trans (.swap _ _ _))
      cases a <;> cases b <;> cases c <;>
        exact (toggle h2 (by decide) (by decide) rfl rfl rfl rfl rfl rfl rfl (by decide)).perm ((List.Perm.swap _ _ _).trans ((List.Perm.swap _ _ _).cons _))
    | shutdown =>
      cases a <;> cases b <;> cases c
      · exact (shutdown h' rfl (by decide) (by decide)).1 rfl
      all_goals exact (shutdown h' rfl (by decide) (by decide)).2 (by decide)

theorem started (k : Nat) : ∃ st, Calm.run prog (.initiate k) (Calm.start []) = (true, st) ∧ R {} st := by
  obtain ⟨f, hf⟩ := depth_eq prog
  simp only [Calm.run, hf]
  refine ⟨_, drain_nil rfl k, ?_⟩
  constructor
  · intro x
    show (if x = 6 then true else if x = 4 then true else if x = 2 then true else if x = 0 then true else false) = _
    by_cases h6 : x = 6
    · simp [h6]; decide
    by_cases h4 : x = 4
    · simp [h4]; decide
    by_cases h2 : x = 2
    · simp [h2]; decide
    by_cases h0 : x = 0
    · simp [h0]
    · simp [h6, h4, h2, h0, Lights.leaves, Lights.numState, Lights.capsState, Lights.scrollState, Ne.symm h0]
  · intro x
    show (if x = 6 then false else if x = 4 then false else if x = 2 then false else if x = 0 then false else false) = false
    simp
  · exact .refl _
  all_goals rfl

/-- **C62.** Any keys can be pressed. Afterwards the output is the expected one, the machine is terminated if and only if it has been shut down, the states are those of
the expected lights, and `state_begin()`..`state_end()` contains the innermost ones in some order. -/
theorem C62_keyboard (k : Nat) (l : List Key) :
    (∃ m, Fed prog k (fun _ w => w) Key.event [] l m) ∧
    ∀ m, Fed prog k (fun _ w => w) Key.event [] l m → Reach prog m ∧
      m.world = (l.foldl Lights.press {}).out ∧
      (m.outermost = none ↔ (l.foldl Lights.press {}).off = true) ∧
      (∀ x, (m.heap x).isSome = true ↔ (x = 0 ∧ (l.foldl Lights.press {}).off = false) ∨ x ∈ (l.foldl Lights.press {}).leaves) ∧
      ∃ r : List Sid, (List.range m.endIx).map m.slot = r.map some ∧ r.Perm (l.foldl Lights.press {}).leaves := by
  obtain ⟨h1, h2⟩ := fed_follows (setup := fun _ w => w) (ev := Key.event) (k := k) wf contract plain smooth R Lights.press {} (started k)
    (fun s st i h => ⟨_, drain_nil (step h i).evq k, step h i⟩) l
  refine ⟨h1, fun m hm => ?_⟩
  obtain ⟨hr, st, h3, h4⟩ := h2 m hm
  refine ⟨hr, h4.world.trans h3.world, ?_, fun x => ?_, st.leaves, h4.range, h3.leaves⟩
  · rw [h4.terminated, h3.root]
    cases (l.foldl Lights.press {}).off <;> simp
  · rw [h4.states, h3.act, Bool.or_eq_true, List.contains_iff_mem]
    have h0 : (some 0 == some x) = true ↔ x = 0 := by
      rw [beq_iff_eq, Option.some_inj]
      exact eq_comm
    cases (l.foldl Lights.press {}).off
    · simp only [Bool.false_eq_true, if_false, h0, and_true]
    · simp

/-- As long as no shutdown has been accepted, a light is on if its key has been pressed an odd number of times. -/
theorem C62_parity (l : List Key) (h : (l.foldl Lights.press {}).off = false) :
    (l.foldl Lights.press {}).num = decide (l.count .num % 2 = 1) ∧ (l.foldl Lights.press {}).caps = decide (l.count .caps % 2 = 1) ∧
    (l.foldl Lights.press {}).scroll = decide (l.count .scroll % 2 = 1) := by
  have stays : ∀ (l : List Key) (s : Lights), s.off = true → (l.foldl Lights.press s).off = true := by
    intro l
    induction l with
    | nil => exact fun s h => h
    | cons k l ih => exact fun s h => ih _ (by simp [Lights.press, h])
  have gen : ∀ (l : List Key) (s : Lights), (l.foldl Lights.press s).off = false →
      (l.foldl Lights.press s).num = (s.num ^^ decide (l.count .num % 2 = 1)) ∧ (l.foldl Lights.press s).caps = (s.caps ^^ decide (l.count .caps % 2 = 1)) ∧
      (l.foldl Lights.press s).scroll = (s.scroll ^^ decide (l.count .scroll % 2 = 1)) := by
    intro l
    induction l with
    | nil => intro s _; simp
    | cons k l ih =>
      intro s h
      have hoff : s.off = false := by
        cases hs : s.off with
        | false => rfl
        | true => exact absurd (stays (k :: l) s hs) (by rw [h]; simp)
      have hp : ∀ n : Nat, decide ((n + 1) % 2 = 1) = !decide (n % 2 = 1) := by
        intro n
        rw [Bool.eq_iff_iff]
        simp
        omega
      obtain ⟨i1, i2, i3⟩ := ih (s.press k) h
      simp only [List.foldl_cons, i1, i2, i3]
      cases k <;> simp [Lights.press, hoff, hp]
  have := gen l {} h
  simpa using this

/-- The innermost states are not in the order of their regions: `DisplayStateConfiguration` (Keyboard.cpp:109-141), which counts them, shows `ScrollLockOff` as
region a after `EvNumLockPressed`. -/
theorem C62_order_is_not_regions : ∃ m, Fed prog 0 (fun _ w => w) Key.event [] [.num] m ∧ m.slot 0 = some 6 ∧ chart.pos 6 = 2 := by
  have h : (fed prog 0 (fun _ w => w) Key.event [] [.num]).bind (·.slot 0) = some 6 := by decide +kernel
  obtain ⟨m, h1, h2⟩ := Option.bind_eq_some_iff.1 h
  exact ⟨m, fed_of h1, h2, rfl⟩

namespace Ex

/-- The program (Keyboard.cpp:158-181). -/
example : ([Key.num, .shutdown, .caps, .shutdown, .scroll, .shutdown, .num, .shutdown, .caps, .shutdown, .scroll, .shutdown].foldl Lights.press {}).out =
    [false, false, false, false, false, true] := rfl

end Ex

end SC.Demo.Keyboard
