import Verif.Demo.StopWatch
/-!
# example/StopWatch/StopWatch2.cpp

The same stop watch; the elapsed time is asked for with an event, which carries a reference to a variable.
-/

namespace SC.Demo.StopWatch2
open Spec
open StopWatch (total total_even)

/-- StopWatch2.cpp:68-154. States: `Active` 0, `Stopped` 1, `Running` 2. Events: `EvStartStop` 0, `EvReset` 1, `EvGetElapsedTime` 2. -/
def chart : Chart where
  n := 3
  parent s := match s with
    | 1 | 2 => some 0
    | _ => none
  pos _ := 0
  init s := match s with
    | 0 => [⟨.plain, 1⟩]
    | _ => []
  shallowH _ := false
  deepH _ := false
  isSimple _ := true
  initial := 0
  reactions s := match s with
    | 0 => [⟨some 1, .transition ⟨.plain, 0⟩ none⟩]
    | 1 => [⟨some 2, .custom 0⟩, ⟨some 0, .transition ⟨.plain, 2⟩ none⟩]
    | 2 => [⟨some 2, .custom 0⟩, ⟨some 0, .transition ⟨.plain, 1⟩ none⟩]
    | _ => []

theorem wf : chart.WF := Chart.wf_of_check chart (by decide +kernel)

/-- What `std::time( 0 )` returns during a call, the members of `Active` and `Running`, and the variable `elapsedTime` of `main` (199), to which the event refers. Times are whole
seconds. -/
structure Env where
  now : Int
  elapsedTime : Int
  startTime : Int
  shown : Int
deriving DecidableEq

/-- `Active::Active` (95) and `Running::Running` (119). -/
def ctor (s : Sid) (w : Env) : Env := match s with
  | 0 => { w with elapsedTime := 0 }
  | 2 => { w with startTime := w.now }
  | _ => w

/-- `Running::~Running` (121-124). -/
def dtor (s : Sid) (w : Env) : Env := match s with
  | 2 => { w with elapsedTime := w.elapsedTime + (w.now - w.startTime) }
  | _ => w

/-- `Running::react` (126-130) and `Stopped::react` (149-153). -/
def assign (s : Sid) (w : Env) : Env := match s with
  | 2 => { w with shown := w.elapsedTime + (w.now - w.startTime) }
  | _ => { w with shown := w.elapsedTime }

def prog : Prog Env :=
  { quiet chart with
    ctor := fun s _ w => { world := ctor s w }
    dtor := fun s _ w => (dtor s w, [])
    react := fun s _ _ _ w => ({ world := assign s w }, .discard) }

theorem contract : Contract prog := ⟨fun _ _ _ _ => rfl, fun _ _ _ _ _ _ _ h => by cases h⟩
theorem plain : Plain prog := by constructor <;> (intros; first | rfl | exact fun _ => rfl)
theorem smooth : Smooth prog := by constructor <;> intros <;> rfl

/-- A key is pressed at a time. -/
inductive Key where
  | startStop (time : Int)
  | reset (time : Int)
  | display (time : Int)

def Key.time : Key → Int
  | .startStop t => t
  | .reset t => t
  | .display t => t

/-- `main` (187, 193, 200). -/
def Key.event : Key → Event
  | .startStop _ => ⟨0, 0⟩
  | .reset _ => ⟨1, 0⟩
  | .display _ => ⟨2, 0⟩

/-- The time of the key, and the variable that `main` makes for it (199). -/
def setup (k : Key) (w : Env) : Env := { w with now := k.time, shown := 0 }

/-! ### What the user expects -/

/-- When the start/stop key has been pressed since the last reset. -/
def presses (l : List Key) : List Int := l.foldl (fun ts k => match k with
  | .startStop t => ts ++ [t]
  | .reset _ => []
  | .display _ => ts) []

/-! ### Proof -/

def cfg (leaf : Sid) (w : Env) : Core Env := ⟨fun x => decide (x = 0) || decide (x = leaf), fun _ => false, [leaf], some 0, [], [], none, w⟩

def R (ts : List Int) (st : Calm.St Env) : Prop :=
  (∃ n, ts.length = 2 * n ∧ ∃ w, core st = cfg 1 w ∧ w.elapsedTime = total 0 ts) ∨
  (∃ n ts' t, ts = ts' ++ [t] ∧ ts'.length = 2 * n ∧ ∃ w, core st = cfg 2 w ∧ w.elapsedTime = total 0 ts' ∧ w.startTime = t)

theorem leaf_step {e : Event} {s d : Sid} {w : Env} {st : Calm.St Env} (h : core st = cfg s w) (he : e.ty = 0) (hsd : s = 1 ∧ d = 2 ∨ s = 2 ∧ d = 1) :
    core (Calm.dispatch prog e st) = cfg d (ctor d (dtor s w)) := by
  have hl : st.leaves = [s] := congrArg Core.leaves h
  have hd : st.defers = fun _ => false := congrArg Core.defers h
  have ht : st.trig = none := congrArg Core.trig h
  have hloc : ∀ st, Calm.local' prog s e st = (.discard, Calm.enter prog d (Calm.exitOne prog s st)) := by
    intro st
    have h1 : Calm.local' prog s e st = (.discard, Calm.transit prog s ⟨.plain, d⟩ none st) := by
      unfold Calm.local'
      rw [he]
      rcases hsd with ⟨rfl, rfl⟩ | ⟨rfl, rfl⟩ <;> rfl
    rw [h1]
    rcases hsd with ⟨rfl, rfl⟩ | ⟨rfl, rfl⟩ <;> rw [transit_leaf (P := prog) (by decide) rfl rfl rfl rfl rfl]
  rw [dispatch_one hl (hloc _)]
  show { core (Calm.enter prog d (Calm.exitOne prog s { st with trig := some e })) with trig := st.trig } = _
  rw [core_enter (fc := ctor d) (ps := []) (fun _ _ => rfl), core_exit (st := { st with trig := some e }) (fe := id) (fd := dtor s) (fun _ _ => rfl) (fun _ _ => rfl) (congrFun hd s)]
  show { (((core st).exit chart s (dtor s)).enter chart d (ctor d) []) with trig := st.trig } = _
  rw [h, ht]
  rcases hsd with ⟨rfl, rfl⟩ | ⟨rfl, rfl⟩ <;> simp [Core.exit, Core.enter, cfg, chart, Chart.isLeaf, Ref.leave] <;> funext x <;> by_cases h0 : x = 0 <;> by_cases h1 : x = 1 <;> by_cases h2 : x = 2 <;> simp_all

theorem reset_step {e : Event} {s : Sid} {w : Env} {st : Calm.St Env} (h : core st = cfg s w) (he : e.ty = 1) (hs : s = 1 ∨ s = 2) :
    core (Calm.dispatch prog e st) = cfg 1 (ctor 0 (dtor s w)) := by
  have hl : st.leaves = [s] := congrArg Core.leaves h
  have hd : st.defers = fun _ => false := congrArg Core.defers h
  have ht : st.trig = none := congrArg Core.trig h
  have ha : st.act = fun x => decide (x = 0) || decide (x = s) := congrArg Core.act h
  obtain ⟨f, hf⟩ := depth_eq prog
  have hx : exitOrder chart st.act 0 = [s, 0] := by
    rw [ha]
    rcases hs with rfl | rfl <;> rfl
  have h1 : Calm.transit prog 0 ⟨.plain, 0⟩ none { st with trig := some e } =
      Calm.enter prog 1 (Calm.enter prog 0 (Calm.exitOne prog 0 (Calm.exitOne prog s { st with trig := some e }))) := by
    unfold Calm.transit
    rw [hf]
    have h2 : Calm.leaveAndAct prog 0 0 none none { st with trig := some e } = Calm.exitOne prog 0 (Calm.exitOne prog s { st with trig := some e }) := by
      unfold Calm.leaveAndAct Calm.leaveTree
      rw [show exitOrder prog.toChart ({ st with trig := some e } : Calm.St Env).act 0 = [s, 0] from hx]
      rfl
    show Calm.build prog (f + 50) (.chain [] ⟨.plain, 0⟩) (Calm.leaveAndAct prog 0 0 none none { st with trig := some e }) = _
    rw [h2]
    rfl
  have hloc : Calm.offer prog e (s :: prog.ancestors s) { st with trig := some e } = (.discard, Calm.transit prog 0 ⟨.plain, 0⟩ none { st with trig := some e }) := by
    have h3 : prog.ancestors s = [0] := by rcases hs with rfl | rfl <;> rfl
    have h4 : ∀ st, Calm.local' prog s e st = (.forward, st) := by
      intro st
      unfold Calm.local'
      rw [he]
      rcases hs with rfl | rfl <;> rfl
    have h5 : ∀ st, Calm.local' prog 0 e st = (.discard, Calm.transit prog 0 ⟨.plain, 0⟩ none st) := by
      intro st
      unfold Calm.local'
      rw [he]
      rfl
    rw [h3]
    simp only [Calm.offer, h4, h5, if_true, reduceCtorEq, if_false]
  rw [dispatch_path hl hloc, h1]
  show { core (Calm.enter prog 1 (Calm.enter prog 0 (Calm.exitOne prog 0 (Calm.exitOne prog s { st with trig := some e })))) with trig := st.trig } = _
  have e1 := core_exit (P := prog) (s := s) (st := { st with trig := some e }) (fe := id) (fd := dtor s) (fun _ _ => rfl) (fun _ _ => rfl) (congrFun hd s)
  have e2 : (Calm.exitOne prog s { st with trig := some e }).defers 0 = false := by
    have : (Calm.exitOne prog s { st with trig := some e }).defers = _ := congrArg Core.defers e1
    rw [this]
    simp [Core.exit, core, hd]
  rw [core_enter (fc := ctor 1) (ps := []) (fun _ _ => rfl), core_enter (fc := ctor 0) (ps := []) (fun _ _ => rfl),
    core_exit (fe := id) (fd := dtor 0) (fun _ _ => rfl) (fun _ _ => rfl) e2, e1]
  show { (((((core st).exit chart s (dtor s)).exit chart 0 (dtor 0)).enter chart 0 (ctor 0) []).enter chart 1 (ctor 1) []) with trig := st.trig } = _
  rw [h, ht]
  rcases hs with rfl | rfl <;> simp [Core.exit, Core.enter, cfg, chart, Chart.isLeaf, Ref.leave] <;>
    refine ⟨by funext x; by_cases h0 : x = 0 <;> by_cases h1 : x = 1 <;> by_cases h2 : x = 2 <;> simp_all, rfl⟩

theorem R_setup {ts : List Int} {st : Calm.St Env} (h : R ts st) (t : Int) : 
    (∃ n, ts.length = 2 * n ∧ ∃ w, core { st with world := { st.world with now := t, shown := 0 } } = cfg 1 w ∧ w.elapsedTime = total 0 ts ∧ w.now = t) ∨
    (∃ n ts' t', ts = ts' ++ [t'] ∧ ts'.length = 2 * n ∧ ∃ w, core { st with world := { st.world with now := t, shown := 0 } } = cfg 2 w ∧
      w.elapsedTime = total 0 ts' ∧ w.startTime = t' ∧ w.now = t) := by
  rcases h with ⟨n, h1, w, h2, h3⟩ | ⟨n, ts', t', h1, h2, w, h3, h4, h5⟩
  · refine .inl ⟨n, h1, { w with now := t, shown := 0 }, ?_, h3, rfl⟩
    have hw : st.world = w := congrArg Core.world h2
    show { core st with world := { st.world with now := t, shown := 0 } } = _
    rw [h2, hw]
    rfl
  · refine .inr ⟨n, ts', t', h1, h2, { w with now := t, shown := 0 }, ?_, h4, h5, rfl⟩
    have hw : st.world = w := congrArg Core.world h3
    show { core st with world := { st.world with now := t, shown := 0 } } = _
    rw [h3, hw]
    rfl

theorem show_step {e : Event} {s : Sid} {w : Env} {st : Calm.St Env} (h : core st = cfg s w) (he : e.ty = 2) (hs : s = 1 ∨ s = 2) :
    core (Calm.dispatch prog e st) = cfg s (assign s w) := by
  have hl : st.leaves = [s] := congrArg Core.leaves h
  have ht : st.trig = none := congrArg Core.trig h
  have hw : st.world = w := congrArg Core.world h
  have hloc : ∃ tr, Calm.local' prog s e { st with trig := some e } = (.discard, { st with trig := some e, world := assign s st.world, trace := tr }) := by
    unfold Calm.local'
    rw [he]
    rcases hs with rfl | rfl <;> exact ⟨_, rfl⟩
  obtain ⟨tr, hloc⟩ := hloc
  rw [dispatch_one hl hloc]
  show { core st with world := assign s st.world } = _
  rw [h, hw]
  rfl

/-- The presses, and what has been displayed if the last key was that of the display. -/
def next (a : List Int × Option Int) : Key → List Int × Option Int
  | .startStop t => (a.1 ++ [t], none)
  | .reset _ => ([], none)
  | .display t => (a.1, some (total t a.1))

def R' (a : List Int × Option Int) (st : Calm.St Env) : Prop := R a.1 st ∧ ∀ v, a.2 = some v → st.world.shown = v

theorem step {a : List Int × Option Int} {st : Calm.St Env} (h : R' a st) (k : Key) : R' (next a k) (Calm.dispatch prog k.event { st with world := setup k st.world }) := by
  obtain ⟨ts, sh⟩ := a
  replace h : R ts st := h.1
  cases k with
  | startStop t =>
    refine ⟨?_, fun _ h => by cases h⟩
    rcases R_setup h t with ⟨n, h1, w, h2, h3, h4⟩ | ⟨n, ts', t', h1, h2, w, h3, h4, h5, h6⟩
    · exact .inr ⟨n, ts, t, rfl, h1, _, leaf_step h2 rfl (.inl ⟨rfl, rfl⟩), h3, h4⟩
    · refine .inl ⟨n + 1, by simp [next, h1, h2]; omega, _, leaf_step h3 rfl (.inr ⟨rfl, rfl⟩), ?_⟩
      show w.elapsedTime + (w.now - w.startTime) = total 0 (ts ++ [t])
      rw [h1, List.append_assoc, total_even 0 n ts' h2, h4, h5, h6]
      simp [total]
  | reset t =>
    refine ⟨?_, fun _ h => by cases h⟩
    rcases R_setup h t with ⟨n, h1, w, h2, h3, h4⟩ | ⟨n, ts', t', h1, h2, w, h3, h4, h5, h6⟩
    · exact .inl ⟨0, rfl, _, reset_step h2 rfl (.inl rfl), rfl⟩
    · exact .inl ⟨0, rfl, _, reset_step h3 rfl (.inr rfl), rfl⟩
  | display t =>
    rcases R_setup h t with ⟨n, h1, w, h2, h3, h4⟩ | ⟨n, ts', t', h1, h2, w, h3, h4, h5, h6⟩
    · have h7 := show_step (e := ⟨2, 0⟩) h2 rfl (.inl rfl)
      refine ⟨.inl ⟨n, h1, _, h7, h3⟩, fun v hv => ?_⟩
      cases hv
      refine (congrArg Env.shown (congrArg Core.world h7 : _ = assign 1 w)).trans ?_
      have := total_even t n ts h1 []
      simp only [List.append_nil, total] at this
      simp [assign, cfg, h3, this]
    · have h7 := show_step (e := ⟨2, 0⟩) h3 rfl (.inr rfl)
      refine ⟨.inr ⟨n, ts', t', h1, h2, _, h7, h4, h5⟩, fun v hv => ?_⟩
      cases hv
      refine (congrArg Env.shown (congrArg Core.world h7 : _ = assign 2 w)).trans ?_
      show w.elapsedTime + (w.now - w.startTime) = total t ts
      rw [h1, total_even t n ts' h2, h4, h5, h6]
      simp [total]

theorem started (k : Nat) (w : Env) : ∃ st, Calm.run prog (.initiate k) (Calm.start w) = (true, st) ∧ R [] st := by
  obtain ⟨f, hf⟩ := depth_eq prog
  simp only [Calm.run, hf]
  refine ⟨_, drain_nil rfl k, .inl ⟨0, rfl, ctor 0 w, ?_, rfl⟩⟩
  show { core (Calm.enter prog 1 (Calm.enter prog 0 { Calm.stop prog (Calm.start w) with trig := none })) with trig := none } = _
  rw [core_enter (fc := ctor 1) (ps := []) (fun _ _ => rfl), core_enter (fc := ctor 0) (ps := []) (fun _ _ => rfl)]
  simp [Core.enter, core, Calm.stop, Calm.leaveAll, Calm.start, prog, quiet, chart, Chart.isLeaf, cfg, ctor]
  funext x
  by_cases h0 : x = 0 <;> by_cases h1 : x = 1 <;> simp_all

/-- **C67.** Keys can be pressed at any time, and the machine does not end. What `EvGetElapsedTime` assigns is the time measured since the last reset; asking for it does not
change what is measured. -/
theorem C67_stop_watch2 (k : Nat) (w : Env) (l : List Key) :
    (∃ m, Fed prog k setup Key.event w l m) ∧
    ∀ m, Fed prog k setup Key.event w l m → Reach prog m ∧ ∀ l' t, l = l' ++ [.display t] → m.world.shown = total t (presses l') := by
  obtain ⟨h1, h2⟩ := fed_follows (setup := setup) (ev := Key.event) (k := k) wf contract plain smooth R' next ([], none)
    (by
      obtain ⟨st, h1, h2⟩ := started k w
      exact ⟨st, h1, h2, fun _ h => by cases h⟩)
    (fun s st i h => by
      have h' := step h i
      refine ⟨_, drain_nil ?_ k, h'⟩
      rcases h'.1 with ⟨_, _, _, h', _⟩ | ⟨_, _, _, _, _, _, h', _⟩ <;> exact congrArg Core.evq h') l
  refine ⟨h1, fun m hm => ?_⟩
  obtain ⟨hr, st, h3, h4⟩ := h2 m hm
  refine ⟨hr, fun l' t hl => ?_⟩
  have hp : ∀ (l : List Key) a, (l.foldl next a).1 = l.foldl (fun ts k => match k with
      | .startStop t => ts ++ [t]
      | .reset _ => []
      | .display _ => ts) a.1 := by
    intro l
    induction l with
    | nil => intro a; rfl
    | cons k l ih =>
      intro a
      refine (ih _).trans ?_
      cases k <;> rfl
  rw [h4.world]
  refine h3.2 _ ?_
  rw [hl, List.foldl_append]
  show some (total t (l'.foldl next ([], none)).1) = _
  rw [hp]
  rfl

namespace Ex

/-- Started at 10, stopped at 14, asked at 15, started at 20: at 21 five seconds have been measured. -/
example : total 21 (presses [.startStop 3, .reset 5, .startStop 10, .startStop 14, .display 15, .startStop 20]) = 5 := rfl

/-- The library runs this program. -/
example : (fed prog 9 setup Key.event ⟨0, 0, 0, 0⟩ [.startStop 3, .reset 5, .startStop 10, .startStop 14, .display 15, .startStop 20, .display 21]).map (fun m => m.world.shown) = some 5 := by
  decide +kernel

end Ex

end SC.Demo.StopWatch2
