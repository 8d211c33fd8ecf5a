import Verif.Demo.Basic
/-!
# example/StopWatch/StopWatch.cpp
-/

namespace SC.Demo.StopWatch
open Spec

/-- StopWatch.cpp:65-129. States: `Active` 0, `Stopped` 1, `Running` 2. Events: `EvStartStop` 0, `EvReset` 1. -/
def chart : Chart where
  n := 3
  parent s := match s with
    | 1 | 2 => some 0
    | _ => none
  pos _ := 0
  init s := match s with
    | 0 => [⟨.plain, 1⟩]
    | _ => []
  shallowH _ := false
  deepH _ := false
  isSimple _ := true
  initial := 0
  reactions s := match s with
    | 0 => [⟨some 1, .transition ⟨.plain, 0⟩ none⟩]
    | 1 => [⟨some 0, .transition ⟨.plain, 2⟩ none⟩]
    | 2 => [⟨some 0, .transition ⟨.plain, 1⟩ none⟩]
    | _ => []

theorem wf : chart.WF := Chart.wf_of_check chart (by decide +kernel)

/-- What `std::time( 0 )` returns during a call, and the members of `Active` and `Running`. Times are whole seconds. -/
structure Env where
  now : Int
  elapsedTime : Int
  startTime : Int
deriving DecidableEq

def ctor (s : Sid) (w : Env) : Env := match s with
  | 0 => { w with elapsedTime := 0 }
  | 2 => { w with startTime := w.now }
  | _ => w

/-- `Running::~Running` (StopWatch.cpp:105-108). -/
def dtor (s : Sid) (w : Env) : Env := match s with
  | 2 => { w with elapsedTime := w.elapsedTime + (w.now - w.startTime) }
  | _ => w

def prog : Prog Env :=
  { quiet chart with
    ctor := fun s _ w => { world := ctor s w }
    dtor := fun s _ w => (dtor s w, []) }

theorem contract : Contract prog := ⟨fun _ _ _ _ => rfl, fun _ _ _ _ _ _ _ h => by cases h⟩
theorem plain : Plain prog := by constructor <;> (intros; first | rfl | exact fun _ => rfl)
theorem smooth : Smooth prog := by constructor <;> intros <;> rfl

/-- `state_cast< const IElapsedTime & >().ElapsedTime()` at time `now` (StopWatch.cpp:110-114, 124-127). -/
def display (now : Int) (m : Mach Env) : Option Int :=
  if (m.heap 2).isSome then some (m.world.elapsedTime + (now - m.world.startTime)) else if (m.heap 1).isSome then some m.world.elapsedTime else none

/-- A key is pressed at a time. -/
inductive Key where
  | startStop (time : Int)
  | reset (time : Int)

def Key.time : Key → Int
  | .startStop t => t
  | .reset t => t

def Key.event : Key → Event
  | .startStop _ => ⟨0, 0⟩
  | .reset _ => ⟨1, 0⟩

def setup (k : Key) (w : Env) : Env := { w with now := k.time }

/-! ### What the user expects -/

/-- When the start/stop key has been pressed since the last reset. -/
def presses (l : List Key) : List Int := l.foldl (fun ts k => match k with
  | .startStop t => ts ++ [t]
  | .reset _ => []) []

/-- The time between the first press and the second, between the third and the fourth, and so on; after an odd number of presses, up to now. -/
def total (now : Int) : List Int → Int
  | [] => 0
  | [a] => now - a
  | a :: b :: l => (b - a) + total now l

/-! ### Proof -/

theorem total_even (now : Int) : ∀ (n : Nat) (l : List Int), l.length = 2 * n → ∀ l', total now (l ++ l') = total 0 l + total now l'
  | 0, l, h, l' => by
    obtain rfl := List.eq_nil_of_length_eq_zero h
    simp [total]
  | n + 1, [], h, _ => by simp at h
  | n + 1, [_], h, _ => by simp at h; omega
  | n + 1, a :: b :: l, h, l' => by
    simp only [List.cons_append, total]
    rw [total_even now n l (by simp at h; omega) l']
    omega

def cfg (leaf : Sid) (w : Env) : Core Env := ⟨fun x => decide (x = 0) || decide (x = leaf), fun _ => false, [leaf], some 0, [], [], none, w⟩

def R (ts : List Int) (st : Calm.St Env) : Prop :=
  (∃ n, ts.length = 2 * n ∧ ∃ w, core st = cfg 1 w ∧ w.elapsedTime = total 0 ts) ∨
  (∃ n ts' t, ts = ts' ++ [t] ∧ ts'.length = 2 * n ∧ ∃ w, core st = cfg 2 w ∧ w.elapsedTime = total 0 ts' ∧ w.startTime = t)

theorem leaf_step {e : Event} {s d : Sid} {w : Env} {st : Calm.St Env} (h : core st = cfg s w) (he : e.ty = 0) (hsd : s = 1 ∧ d = 2 ∨ s = 2 ∧ d = 1) :
    core (Calm.dispatch prog e st) = cfg d (ctor d (dtor s w)) := by
  have hl : st.leaves = [s] := congrArg Core.leaves h
  have hd : st.defers = fun _ => false := congrArg Core.defers h
  have ht : st.trig = none := congrArg Core.trig h
  have hloc : ∀ st, Calm.local' prog s e st = (.discard, Calm.enter prog d (Calm.exitOne prog s st)) := by
    intro st
    have h1 : Calm.local' prog s e st = (.discard, Calm.transit prog s ⟨.plain, d⟩ none st) := by
      unfold Calm.local'
      rw [he]
      rcases hsd with ⟨rfl, rfl⟩ | ⟨rfl, rfl⟩ <;> rfl
    rw [h1]
    rcases hsd with ⟨rfl, rfl⟩ | ⟨rfl, rfl⟩ <;> rw [transit_leaf (P := prog) (by decide) rfl rfl rfl rfl rfl]
  rw [dispatch_one hl (hloc _)]
  show { core (Calm.enter prog d (Calm.exitOne prog s { st with trig := some e })) with trig := st.trig } = _
  rw [core_enter (fc := ctor d) (ps := []) (fun _ _ => rfl), core_exit (st := { st with trig := some e }) (fe := id) (fd := dtor s) (fun _ _ => rfl) (fun _ _ => rfl) (congrFun hd s)]
  show { (((core st).exit chart s (dtor s)).enter chart d (ctor d) []) with trig := st.trig } = _
  rw [h, ht]
  rcases hsd with ⟨rfl, rfl⟩ | ⟨rfl, rfl⟩ <;> simp [Core.exit, Core.enter, cfg, chart, Chart.isLeaf, Ref.leave] <;> funext x <;> by_cases h0 : x = 0 <;> by_cases h1 : x = 1 <;> by_cases h2 : x = 2 <;> simp_all

theorem reset_step {e : Event} {s : Sid} {w : Env} {st : Calm.St Env} (h : core st = cfg s w) (he : e.ty = 1) (hs : s = 1 ∨ s = 2) :
    core (Calm.dispatch prog e st) = cfg 1 (ctor 0 (dtor s w)) := by
  have hl : st.leaves = [s] := congrArg Core.leaves h
  have hd : st.defers = fun _ => false := congrArg Core.defers h
  have ht : st.trig = none := congrArg Core.trig h
  have ha : st.act = fun x => decide (x = 0) || decide (x = s) := congrArg Core.act h
  obtain ⟨f, hf⟩ := depth_eq prog
  have hx : exitOrder chart st.act 0 = [s, 0] := by
    rw [ha]
    rcases hs with rfl | rfl <;> rfl
  have h1 : Calm.transit prog 0 ⟨.plain, 0⟩ none { st with trig := some e } =
      Calm.enter prog 1 (Calm.enter prog 0 (Calm.exitOne prog 0 (Calm.exitOne prog s { st with trig := some e }))) := by
    unfold Calm.transit
    rw [hf]
    have h2 : Calm.leaveAndAct prog 0 0 none none { st with trig := some e } = Calm.exitOne prog 0 (Calm.exitOne prog s { st with trig := some e }) := by
      unfold Calm.leaveAndAct Calm.leaveTree
      rw [show exitOrder prog.toChart ({ st with trig := some e } : Calm.St Env).act 0 = [s, 0] from hx]
      rfl
    show Calm.build prog (f + 50) (.chain [] ⟨.plain, 0⟩) (Calm.leaveAndAct prog 0 0 none none { st with trig := some e }) = _
    rw [h2]
    rfl
  have hloc : Calm.offer prog e (s :: prog.ancestors s) { st with trig := some e } = (.discard, Calm.transit prog 0 ⟨.plain, 0⟩ none { st with trig := some e }) := by
    have h3 : prog.ancestors s = [0] := by rcases hs with rfl | rfl <;> rfl
    have h4 : ∀ st, Calm.local' prog s e st = (.forward, st) := by
      intro st
      unfold Calm.local'
      rw [he]
      rcases hs with rfl | rfl <;> rfl
    have h5 : ∀ st, Calm.local' prog 0 e st = (.discard, Calm.transit prog 0 ⟨.plain, 0⟩ none st) := by
      intro st
      unfold Calm.local'
      rw [he]
      rfl
    rw [h3]
    simp only [Calm.offer, h4, h5, if_true, reduceCtorEq, if_false]
  rw [dispatch_path hl hloc, h1]
  show { core (Calm.enter prog 1 (Calm.enter prog 0 (Calm.exitOne prog 0 (Calm.exitOne prog s { st with trig := some e })))) with trig := st.trig } = _
  have e1 := core_exit (P := prog) (s := s) (st := { st with trig := some e }) (fe := id) (fd := dtor s) (fun _ _ => rfl) (fun _ _ => rfl) (congrFun hd s)
  have e2 : (Calm.exitOne prog s { st with trig := some e }).defers 0 = false := by
    have : (Calm.exitOne prog s { st with trig := some e }).defers = _ := congrArg Core.defers e1
    rw [this]
    simp [Core.exit, core, hd]
  rw [core_enter (fc := ctor 1) (ps := []) (fun _ _ => rfl), core_enter (fc := ctor 0) (ps := []) (fun _ _ => rfl),
    core_exit (fe := id) (fd := dtor 0) (fun _ _ => rfl) (fun _ _ => rfl) e2, e1]
  show { (((((core st).exit chart s (dtor s)).exit chart 0 (dtor 0)).enter chart 0 (ctor 0) []).enter chart 1 (ctor 1) []) with trig := st.trig } = _
  rw [h, ht]
  rcases hs with rfl | rfl <;> simp [Core.exit, Core.enter, cfg, chart, Chart.isLeaf, Ref.leave] <;>
    refine ⟨by funext x; by_cases h0 : x = 0 <;> by_cases h1 : x = 1 <;> by_cases h2 : x = 2 <;> simp_all, rfl⟩

theorem R_setup {ts : List Int} {st : Calm.St Env} (h : R ts st) (t : Int) : 
    (∃ n, ts.length = 2 * n ∧ ∃ w, core { st with world := { st.world with now := t } } = cfg 1 w ∧ w.elapsedTime = total 0 ts ∧ w.now = t) ∨
    (∃ n ts' t', ts = ts' ++ [t'] ∧ ts'.length = 2 * n ∧ ∃ w, core { st with world := { st.world with now := t } } = cfg 2 w ∧
      w.elapsedTime = total 0 ts' ∧ w.startTime = t' ∧ w.now = t) := by
  rcases h with ⟨n, h1, w, h2, h3⟩ | ⟨n, ts', t', h1, h2, w, h3, h4, h5⟩
  · refine .inl ⟨n, h1, { w with now := t }, ?_, h3, rfl⟩
    have hw : st.world = w := congrArg Core.world h2
    show { core st with world := { st.world with now := t } } = _
    rw [h2, hw]
    rfl
  · refine .inr ⟨n, ts', t', h1, h2, { w with now := t }, ?_, h4, h5, rfl⟩
    have hw : st.world = w := congrArg Core.world h3
    show { core st with world := { st.world with now := t } } = _
    rw [h3, hw]
    rfl

theorem step {ts : List Int} {st : Calm.St Env} (h : R ts st) (k : Key) :
    R (match k with
      | .startStop t => ts ++ [t]
      | .reset _ => []) (Calm.dispatch prog k.event { st with world := setup k st.world }) := by
  cases k with
  | startStop t =>
    rcases R_setup h t with ⟨n, h1, w, h2, h3, h4⟩ | ⟨n, ts', t', h1, h2, w, h3, h4, h5, h6⟩
    · refine .inr ⟨n, ts, t, rfl, h1, _, leaf_step h2 rfl (.inl ⟨rfl, rfl⟩), h3, h4⟩
    · refine .inl ⟨n + 1, by simp [h1, h2]; omega, _, leaf_step h3 rfl (.inr ⟨rfl, rfl⟩), ?_⟩
      show w.elapsedTime + (w.now - w.startTime) = total 0 (ts ++ [t])
      rw [h1, List.append_assoc, total_even 0 n ts' h2, h4, h5, h6]
      simp [total]
  | reset t =>
    rcases R_setup h t with ⟨n, h1, w, h2, h3, h4⟩ | ⟨n, ts', t', h1, h2, w, h3, h4, h5, h6⟩
    · exact .inl ⟨0, rfl, _, reset_step h2 rfl (.inl rfl), rfl⟩
    · exact .inl ⟨0, rfl, _, reset_step h3 rfl (.inr rfl), rfl⟩

theorem started (k : Nat) (w : Env) : ∃ st, Calm.run prog (.initiate k) (Calm.start w) = (true, st) ∧ R [] st := by
  obtain ⟨f, hf⟩ := depth_eq prog
  simp only [Calm.run, hf]
  refine ⟨_, drain_nil rfl k, .inl ⟨0, rfl, ctor 0 w, ?_, rfl⟩⟩
  show { core (Calm.enter prog 1 (Calm.enter prog 0 { Calm.stop prog (Calm.start w) with trig := none })) with trig := none } = _
  rw [core_enter (fc := ctor 1) (ps := []) (fun _ _ => rfl), core_enter (fc := ctor 0) (ps := []) (fun _ _ => rfl)]
  simp [Core.enter, core, Calm.stop, Calm.leaveAll, Calm.start, prog, quiet, chart, Chart.isLeaf, cfg, ctor]
  funext x
  by_cases h0 : x = 0 <;> by_cases h1 : x = 1 <;> simp_all

/-- **C64.** Keys can be pressed at any time. The time displayed is the one that has been measured since the last reset. -/
theorem C64_stop_watch (k : Nat) (w : Env) (l : List Key) :
    (∃ m, Fed prog k setup Key.event w l m) ∧
    ∀ m, Fed prog k setup Key.event w l m → Reach prog m ∧ ∀ now, display now m = some (total now (presses l)) := by
  obtain ⟨h1, h2⟩ := fed_follows (setup := setup) (ev := Key.event) (k := k) wf contract plain smooth R
    (fun ts k => match k with
      | .startStop t => ts ++ [t]
      | .reset _ => []) [] (started k w)
    (fun s st i h => by
      have h' := step h i
      refine ⟨_, drain_nil ?_ k, h'⟩
      rcases h' with ⟨_, _, _, h', _⟩ | ⟨_, _, _, _, _, _, h', _⟩ <;> exact congrArg Core.evq h') l
  refine ⟨h1, fun m hm => ?_⟩
  obtain ⟨hr, st, h3, h4⟩ := h2 m hm
  refine ⟨hr, fun now => ?_⟩
  have h3 : R (presses l) st := h3
  unfold display
  rw [h4.states, h4.states, h4.world]
  rcases h3 with ⟨n, h5, w', h6, h7⟩ | ⟨n, ts', t, h5, h6, w', h7, h8, h9⟩
  · have ha : st.act = _ := congrArg Core.act h6
    have hw : st.world = _ := congrArg Core.world h6
    rw [ha, hw]
    have := total_even now n (presses l) h5 []
    simp only [List.append_nil, total] at this
    simp [cfg, h7, this]
  · have ha : st.act = _ := congrArg Core.act h7
    have hw : st.world = _ := congrArg Core.world h7
    rw [ha, hw, h5, total_even now n ts' h6]
    simp [cfg, h8, h9, total]

namespace Ex

/-- Started at 10, stopped at 14, started at 20: at 21 five seconds have been measured. -/
example : total 21 (presses [.startStop 3, .reset 5, .startStop 10, .startStop 14, .startStop 20]) = 5 := rfl

end Ex

end SC.Demo.StopWatch
