import Verif.Demo.Basic
/-!
# example/Camera
-/

namespace SC.Demo.Camera
open Spec

/-- Camera.hpp:29-60, Configuring.hpp:29-35, Shooting.hpp:35-60, Shooting.cpp:33-71, Camera.cpp. States: `NotShooting` 0, `Idle` 1, `Configuring` 2, `Shooting` 3, `Focusing` 4,
`Focused` 5, `Storing` 6. Events: `EvShutterHalf` 0, `EvShutterFull` 1, `EvShutterRelease` 2, `EvConfig` 3, `EvInFocus` 4. -/
def chart : Chart where
  n := 7
  parent s := match s with
    | 1 | 2 => some 0
    | 4 | 5 | 6 => some 3
    | _ => none
  pos _ := 0
  init s := match s with
    | 0 => [⟨.plain, 1⟩]
    | 3 => [⟨.plain, 4⟩]
    | _ => []
  shallowH _ := false
  deepH _ := false
  isSimple s := s != 4
  initial := 0
  reactions s := match s with
    | 0 => [⟨some 0, .custom 0⟩]
    | 1 => [⟨some 3, .custom 0⟩]
    | 2 => [⟨some 3, .transition ⟨.plain, 1⟩ none⟩]
    | 3 => [⟨some 2, .transition ⟨.plain, 0⟩ none⟩]
    | 4 => [⟨some 4, .custom 0⟩, ⟨some 1, .deferral⟩]
    | 5 => [⟨some 1, .custom 0⟩]
    | _ => []

theorem wf : chart.WF := Chart.wf_of_check chart (by decide +kernel)

/-- A line of output. -/
inductive Line where
  | enterNotShooting | exitNotShooting | enterIdle | exitIdle | enterConfiguring | exitConfiguring | enterShooting | exitShooting
  | focused | pictureTaken | memoryFull
deriving DecidableEq

/-- The output, and the results of `IsBatteryLow` and `IsMemoryAvailable`, which can be different for each event. -/
structure Env where
  out : List Line := []
  batteryLow : Bool := false
  memoryAvailable : Bool := true

def Env.say (w : Env) (l : List Line) : Env := { w with out := w.out ++ l }

def ctorSays : Sid → List Line
  | 0 => [.enterNotShooting]
  | 1 => [.enterIdle]
  | 2 => [.enterConfiguring]
  | 3 => [.enterShooting]
  | 6 => [.pictureTaken]
  | _ => []

def dtorSays : Sid → List Line
  | 0 => [.exitNotShooting]
  | 1 => [.exitIdle]
  | 2 => [.exitConfiguring]
  | 3 => [.exitShooting]
  | _ => []

/-- The constructor of `Focusing` posts `EvInFocus` (Shooting.cpp:63-66). -/
def ctorPosts : Sid → List Event
  | 4 => [⟨4, 0⟩]
  | _ => []

def prog : Prog Env :=
  { quiet chart with
    ctor := fun s _ w => { world := w.say (ctorSays s), cmds := (ctorPosts s).map .post }
    dtor := fun s _ w => (w.say (dtorSays s), [])
    action := fun _ _ w => { world := w.say [.focused] }
    react := fun s _ _ _ w => match s with
      | 0 => ({ world := w }, if w.batteryLow then .forward else .transit ⟨.plain, 3⟩ none)
      | 1 => ({ world := w }, .transit ⟨.plain, 2⟩ none)
      | 4 => ({ world := w }, .transit ⟨.plain, 5⟩ (some 0))
      | 5 => if w.memoryAvailable then ({ world := w }, .transit ⟨.plain, 6⟩ none) else ({ world := w.say [.memoryFull] }, .discard)
      | _ => ({ world := w }, .discard) }

theorem contract : Contract prog := by
  constructor
  · intro s v w hs
    by_cases h : s = 4
    · subst h; cases hs
    · show (ctorPosts s).map _ = []
      unfold ctorPosts
      split
      · contradiction
      · rfl
  · intro s r e v w d a h
    simp only [prog] at h
    split at h
    · split at h <;> cases h
      decide
    · cases h
      decide
    · cases h
      decide
    · split at h <;> cases h
      decide
    · cases h

theorem plain : Plain prog := by constructor <;> (intros; first | rfl | exact fun _ => rfl)
theorem smooth : Smooth prog := by
  constructor
  case react =>
    intro s id e v w
    simp only [prog]
    split
    all_goals try rfl
    split <;> rfl
  all_goals intros; rfl

inductive Button where
  | half | full | release | config
deriving DecidableEq

/-- A button is pressed while the battery is low or not, and memory is available or not. -/
structure Input where
  button : Button
  batteryLow : Bool := false
  memoryAvailable : Bool := true

def Input.event (i : Input) : Event := match i.button with
  | .half => ⟨0, 0⟩
  | .full => ⟨1, 0⟩
  | .release => ⟨2, 0⟩
  | .config => ⟨3, 0⟩

def setup (i : Input) (w : Env) : Env := { w with batteryLow := i.batteryLow, memoryAvailable := i.memoryAvailable }

/-! ### What the user expects -/

inductive Mode where
  | idle | configuring | focused | storing
deriving DecidableEq

def next : Mode → Input → Mode × List Line
  | .idle, ⟨.half, false, _⟩ => (.focused, [.exitIdle, .exitNotShooting, .enterShooting, .focused])
  | .configuring, ⟨.half, false, _⟩ => (.focused, [.exitConfiguring, .exitNotShooting, .enterShooting, .focused])
  | .idle, ⟨.config, _, _⟩ => (.configuring, [.exitIdle, .enterConfiguring])
  | .configuring, ⟨.config, _, _⟩ => (.idle, [.exitConfiguring, .enterIdle])
  | .focused, ⟨.full, _, true⟩ => (.storing, [.pictureTaken])
  | .focused, ⟨.full, _, false⟩ => (.focused, [.memoryFull])
  | .focused, ⟨.release, _, _⟩ => (.idle, [.exitShooting, .enterNotShooting, .enterIdle])
  | .storing, ⟨.release, _, _⟩ => (.idle, [.exitShooting, .enterNotShooting, .enterIdle])
  | mode, _ => (mode, [])

structure User where
  mode : Mode := .idle
  out : List Line := [.enterNotShooting, .enterIdle]

def User.press (u : User) (i : Input) : User := ⟨(next u.mode i).1, u.out ++ (next u.mode i).2⟩

/-! ### Proof -/

def Mode.leaf : Mode → Sid
  | .idle => 1
  | .configuring => 2
  | .focused => 5
  | .storing => 6

def Mode.root : Mode → Sid
  | .idle | .configuring => 0
  | .focused | .storing => 3

def cfg (root leaf : Sid) (q : List Event) (w : Env) : Core Env := ⟨fun x => decide (x = root) || decide (x = leaf), fun _ => false, [leaf], some root, q, [], none, w⟩

def R (u : User) (st : Calm.St Env) : Prop := ∃ w, core st = cfg u.mode.root u.mode.leaf [] w ∧ w.out = u.out

theorem enter_core (s : Sid) (st : Calm.St Env) : core (Calm.enter prog s st) = (core st).enter chart s (·.say (ctorSays s)) (ctorPosts s) :=
  core_enter (P := prog) (fun _ _ => rfl)

theorem exit_core {s : Sid} {st : Calm.St Env} (h : (core st).defers s = false) : core (Calm.exitOne prog s st) = (core st).exit chart s (·.say (dtorSays s)) :=
  core_exit (P := prog) (fe := id) (fd := (·.say (dtorSays s))) (fun _ _ => rfl) (fun _ _ => rfl) h

/-- A transition between leaves. -/
theorem leaf_core {r s d : Sid} {st : Calm.St Env} {w : Env} {t : Option Event} {q : List Event} (h : core st = { cfg r s q w with trig := t })
    (hs : chart.parent s = some r) (hd : chart.parent d = some r) (hr : chart.parent r = none) (hl : chart.isLeaf d = true) :
    core (Calm.enter prog d (Calm.exitOne prog s st)) = { cfg r d (q ++ ctorPosts d) (w.say (dtorSays s ++ ctorSays d)) with trig := t } := by
  have hrs : r ≠ s := by rintro rfl; rw [hr] at hs; cases hs
  rw [enter_core, exit_core (by rw [h]; rfl), h]
  simp [Core.exit, Core.enter, cfg, hs, hd, hl, Ref.leave, Env.say]
  funext x
  by_cases h1 : x = r <;> by_cases h2 : x = s <;> by_cases h3 : x = d <;> simp_all

/-- A transition between outermost states. -/
theorem outer_core {r s d y : Sid} {st : Calm.St Env} {w : Env} {t : Option Event} {q : List Event} (h : core st = { cfg r s q w with trig := t })
    (hs : chart.parent s = some r) (hr : chart.parent r = none) (hd : chart.parent d = none) (hdl : chart.isLeaf d = false) (hy : chart.parent y = some d) (hl : chart.isLeaf y = true) :
    core (Calm.enter prog y (Calm.enter prog d (Calm.exitOne prog r (Calm.exitOne prog s st)))) =
      { cfg d y (q ++ ctorPosts d ++ ctorPosts y) (w.say (dtorSays s ++ dtorSays r ++ ctorSays d ++ ctorSays y)) with trig := t } := by
  have hrs : r ≠ s := by rintro rfl; rw [hr] at hs; cases hs
  have hrl : Ref.leave [] r = [] := rfl
  rw [enter_core, enter_core, exit_core (by rw [exit_core (by rw [h]; rfl), h]; simp [Core.exit, cfg]), exit_core (by rw [h]; rfl), h]
  simp [Core.exit, Core.enter, cfg, hs, hd, hl, hr, hy, hdl, hrl, Ref.leave, Env.say]
  funext x
  by_cases h1 : x = r <;> by_cases h2 : x = s <;> by_cases h3 : x = d <;> by_cases h4 : x = y <;> simp_all

theorem dispatch_core {e : Event} {st st' : Calm.St Env} {s : Sid} {a : Ref.Answer} (hl : st.leaves = [s])
    (h : Calm.offer prog e (s :: chart.ancestors s) { st with trig := some e } = (a, st')) (ha : a ≠ .defer) :
    core (Calm.dispatch prog e st) = { core st' with trig := st.trig } := by
  have h' : Calm.offer prog e (s :: prog.ancestors s) { st with trig := some e } = (a, st') := h
  unfold Calm.dispatch
  rw [hl]
  rw [hl] at h'
  cases a with
  | defer => exact absurd rfl ha
  | discard => simp only [Calm.ask, h', reduceCtorEq, if_false]; rfl
  | forward => simp only [Calm.ask, h', if_true]; rfl
  | noReaction => simp only [Calm.ask, h', reduceCtorEq, if_false]; rfl

theorem local_none {s : Sid} {e : Event} (h : (chart.reactions s).find? (fun r => r.ev = none ∨ r.ev = some e.ty) = none) (st : Calm.St Env) :
    Calm.local' prog s e st = (.forward, st) := by
  unfold Calm.local'
  rw [show (prog.reactions s).find? (fun r => r.ev = none ∨ r.ev = some e.ty) = none from h]

theorem local_some {s : Sid} {e : Event} {o : Option Nat} {k : RKind} (h : (chart.reactions s).find? (fun r => r.ev = none ∨ r.ev = some e.ty) = some ⟨o, k⟩) (st : Calm.St Env) :
    Calm.local' prog s e st = Calm.react prog s e st k := by
  unfold Calm.local'
  rw [show (prog.reactions s).find? (fun r => r.ev = none ∨ r.ev = some e.ty) = _ from h]

/-- Nobody reacts. -/
theorem nothing {e : Event} {st : Calm.St Env} {r s : Sid} {w : Env} (h : core st = cfg r s [] w) (hs : chart.ancestors s = [r])
    (h1 : (chart.reactions s).find? (fun r => r.ev = none ∨ r.ev = some e.ty) = none) (h2 : (chart.reactions r).find? (fun r => r.ev = none ∨ r.ev = some e.ty) = none) :
    core (Calm.dispatch prog e st) = cfg r s [] w := by
  have hl : st.leaves = [s] := congrArg Core.leaves h
  have ht : st.trig = none := congrArg Core.trig h
  rw [dispatch_core (a := .forward) (st' := { st with trig := some e }) hl _ (by simp)]
  · show { core st with trig := st.trig } = _
    rw [ht, h]
    rfl
  · rw [hs]
    simp only [Calm.offer, local_none h1, local_none h2, if_true]

/-- The leaf has a transition to another leaf. -/
theorem leaf_step {e : Event} {st : Calm.St Env} {r s d : Sid} {w : Env} {a : Option Nat} {f : Calm.St Env → Calm.St Env} (h : core st = cfg r s [] w)
    (hloc : Calm.local' prog s e { st with trig := some e } = (.discard, Calm.transit prog s ⟨.plain, d⟩ a (f { st with trig := some e }))) (hf : ∀ st, core (f st) = core st)
    (hn : s < 7) (hs : chart.parent s = some r) (hd : chart.parent d = some r) (hr : chart.parent r = none) (hsl : chart.isLeaf s = true) (hl : chart.isLeaf d = true)
    (ht : chart.termState s d = some s) (hp : chart.pathBelow (chart.commonCtx s d) d = []) (ha : a = none) :
    core (Calm.dispatch prog e st) = cfg r d (ctorPosts d) (w.say (dtorSays s ++ ctorSays d)) := by
  subst ha
  have hlv : st.leaves = [s] := congrArg Core.leaves h
  have htr : st.trig = none := congrArg Core.trig h
  rw [dispatch_core (a := .discard) (st' := Calm.enter prog d (Calm.exitOne prog s (f { st with trig := some e }))) hlv _ (by simp)]
  · rw [leaf_core (t := some e) (q := []) (w := w) (r := r) _ hs hd hr hl, htr]
    · rfl
    · rw [hf]
      show { core st with trig := some e } = _
      rw [h]
  · simp only [Calm.offer, hloc, reduceCtorEq, if_false]
    rw [transit_leaf (P := prog) hn hsl hl rfl ht hp]

theorem custom_transit {s : Sid} {e : Event} {st : Calm.St Env} {d : Target} {a : Option Nat} (h : ∀ v, prog.react s 0 e v st.world = ({ world := st.world }, .transit d a)) :
    Calm.custom prog s 0 e st = (.discard, Calm.transit prog s d a (st.log (.react s 0))) := by
  unfold Calm.custom
  simp only [h, Calm.user]
  rfl

theorem local_transit {s : Sid} {e : Event} {o : Option Nat} {d : Target} {a : Option Nat} {st : Calm.St Env}
    (h1 : (chart.reactions s).find? (fun r => r.ev = none ∨ r.ev = some e.ty) = some ⟨o, .custom 0⟩)
    (h2 : ∀ v, prog.react s 0 e v st.world = ({ world := st.world }, .transit d a)) :
    Calm.local' prog s e st = (.discard, Calm.transit prog s d a (st.log (.react s 0))) := (local_some h1 st).trans (custom_transit h2)

theorem core_log (st : Calm.St Env) (o : Obs) : core (st.log o) = core st := rfl

theorem exit_order {act : Sid → Bool} {r s : Sid} (ha : act = fun x => decide (x = r) || decide (x = s)) (h : (r, s) ∈ [(0, 1), (0, 2), (3, 4), (3, 5), (3, 6)]) :
    exitOrder chart act r = [s, r] := by
  subst ha
  revert r s
  have : ∀ p ∈ [((0 : Sid), (1 : Sid)), (0, 2), (3, 4), (3, 5), (3, 6)], exitOrder chart (fun x => decide (x = p.1) || decide (x = p.2)) p.1 = [p.2, p.1] := by decide +kernel
  exact fun r s h => this (r, s) h

/-- The outermost state has a transition to the other one. -/
theorem outer_step {e : Event} {st : Calm.St Env} {r s d y : Sid} {w : Env} {f : Calm.St Env → Calm.St Env} (h : core st = cfg r s [] w)
    (h1 : (chart.reactions s).find? (fun r => r.ev = none ∨ r.ev = some e.ty) = none)
    (hloc : Calm.local' prog r e { st with trig := some e } = (.discard, Calm.transit prog r ⟨.plain, d⟩ none (f { st with trig := some e }))) (hf : ∀ st, core (f st) = core st)
    (hrs : (r, s) ∈ [(0, 1), (0, 2), (3, 4), (3, 5), (3, 6)]) (hdy : (d, y) ∈ [(0, 1), (3, 4)])
    (ht : chart.termState r d = some r) (hp : chart.pathBelow (chart.commonCtx r d) d = []) :
    core (Calm.dispatch prog e st) = cfg d y (ctorPosts y) (w.say (dtorSays s ++ dtorSays r ++ ctorSays d ++ ctorSays y)) := by
  have hlv : st.leaves = [s] := congrArg Core.leaves h
  have htr : st.trig = none := congrArg Core.trig h
  have hc : core (f { st with trig := some e }) = { cfg r s [] w with trig := some e } := by
    rw [hf]
    show { core st with trig := some e } = _
    rw [h]
  have hsr : chart.parent s = some r ∧ chart.parent r = none ∧ chart.ancestors s = [r] := by
    simp only [List.mem_cons, Prod.mk.injEq, List.not_mem_nil, or_false] at hrs
    rcases hrs with ⟨rfl, rfl⟩ | ⟨rfl, rfl⟩ | ⟨rfl, rfl⟩ | ⟨rfl, rfl⟩ | ⟨rfl, rfl⟩ <;> exact ⟨rfl, rfl, rfl⟩
  have hd : chart.parent d = none ∧ chart.isLeaf d = false ∧ chart.parent y = some d ∧ chart.isLeaf y = true ∧ chart.init d = [⟨.plain, y⟩] ∧ chart.init y = [] ∧ ctorPosts d = [] := by
    simp only [List.mem_cons, Prod.mk.injEq, List.not_mem_nil, or_false] at hdy
    rcases hdy with ⟨rfl, rfl⟩ | ⟨rfl, rfl⟩ <;> exact ⟨rfl, rfl, rfl, rfl, rfl, rfl, rfl⟩
  rw [dispatch_core (a := .discard) (st' := Calm.enter prog y (Calm.enter prog d (Calm.exitOne prog r (Calm.exitOne prog s (f { st with trig := some e }))))) hlv _ (by simp)]
  · rw [outer_core hc hsr.1 hsr.2.1 hd.1 hd.2.1 hd.2.2.1 hd.2.2.2.1, htr, hd.2.2.2.2.2.2]
    rfl
  · rw [hsr.2.2]
    simp only [Calm.offer, local_none h1, hloc, reduceCtorEq, if_true, if_false]
    rw [transit_outer (P := prog) (exit_order (congrArg Core.act hc) hrs) hd.2.2.2.2.1 hd.2.2.2.2.2.1 rfl ht hp]

theorem say_say (w : Env) (a b : List Line) : (w.say a).say b = w.say (a ++ b) := by simp [Env.say]

/-- `EvInFocus` in `Focusing`. -/
theorem focus_step {st : Calm.St Env} {w : Env} (h : core st = cfg 3 4 [] w) : core (Calm.dispatch prog ⟨4, 0⟩ st) = cfg 3 5 [] (w.say [.focused]) := by
  have hlv : st.leaves = [4] := congrArg Core.leaves h
  have htr : st.trig = none := congrArg Core.trig h
  have hc : core (({ st with trig := some ⟨4, 0⟩ } : Calm.St Env).log (.react 4 0)) = { cfg 3 4 [] w with trig := some ⟨4, 0⟩ } := by
    show { core st with trig := some ⟨4, 0⟩ } = _
    rw [h]
  have hloc : Calm.local' prog 4 ⟨4, 0⟩ { st with trig := some ⟨4, 0⟩ } = _ :=
    local_transit (o := some 4) (d := ⟨.plain, 5⟩) (a := some 0) rfl fun v => rfl
  rw [dispatch_core (a := .discard) (st' := Calm.enter prog 5 (Calm.action prog (some 0) (Calm.exitOne prog 4 (({ st with trig := some ⟨4, 0⟩ } : Calm.St Env).log (.react 4 0))))) hlv _ (by simp)]
  · rw [enter_core, core_action (f := (·.say [.focused])) (fun _ _ => rfl)]
    have he := exit_core (s := 4) (st := ({ st with trig := some ⟨4, 0⟩ } : Calm.St Env).log (.react 4 0)) (by rw [hc]; rfl)
    rw [show (Calm.exitOne prog 4 (({ st with trig := some ⟨4, 0⟩ } : Calm.St Env).log (.react 4 0))).world = _ from congrArg Core.world he, he, hc, htr]
    simp [Core.exit, Core.enter, cfg, Ref.leave, Env.say, dtorSays, ctorSays, ctorPosts, chart, Chart.isLeaf]
    funext x
    by_cases h1 : x = 3 <;> by_cases h2 : x = 4 <;> by_cases h3 : x = 5 <;> simp_all
  · simp only [Calm.offer, hloc, reduceCtorEq, if_false]
    rw [transit_leaf_action (P := prog) (by decide) rfl rfl rfl rfl rfl]

theorem step (k : Nat) {u : User} {st : Calm.St Env} (h : R u st) (i : Input) :
    ∃ st', Calm.run prog (.process i.event (k + 1)) { st with world := setup i st.world } = (true, st') ∧ R (u.press i) st' := by
  obtain ⟨w0, h0, hw0⟩ := h
  obtain ⟨mode, out⟩ := u
  obtain ⟨button, low, mem⟩ := i
  have hset : ∃ w, core { st with world := setup ⟨button, low, mem⟩ st.world } = cfg mode.root mode.leaf [] w ∧ w.out = out ∧ w.batteryLow = low ∧ w.memoryAvailable = mem := by
    refine ⟨setup ⟨button, low, mem⟩ w0, ?_, hw0, rfl, rfl⟩
    have : st.world = w0 := congrArg Core.world h0
    show { core st with world := setup ⟨button, low, mem⟩ st.world } = _
    rw [this, h0]
    rfl
  generalize ({ st with world := setup ⟨button, low, mem⟩ st.world } : Calm.St Env) = st at hset
  obtain ⟨w, h, hw, rfl, rfl⟩ := hset
  have hwld : st.world = w := congrArg Core.world h
  have fin : ∀ {mode' : Mode} {w' : Env} {l : List Line}, core (Calm.dispatch prog (Input.event ⟨button, w.batteryLow, w.memoryAvailable⟩) st) = cfg mode'.root mode'.leaf [] w' →
      next mode ⟨button, w.batteryLow, w.memoryAvailable⟩ = (mode', l) → w'.out = out ++ l →
      ∃ st', Calm.run prog (.process (Input.event ⟨button, w.batteryLow, w.memoryAvailable⟩) (k + 1)) st = (true, st') ∧
        R (User.press ⟨mode, out⟩ ⟨button, w.batteryLow, w.memoryAvailable⟩) st' := by
    intro mode' w' l h1 h2 h3
    refine ⟨_, drain_nil (congrArg Core.evq h1) _, w', ?_, ?_⟩
    · rw [h1, User.press, h2]
    · rw [h3, User.press, h2]
  have half : ∀ s, st.leaves = [s] → (s = 1 ∧ mode = .idle ∨ s = 2 ∧ mode = .configuring) → button = .half →
      ∃ st', Calm.run prog (.process (Input.event ⟨button, w.batteryLow, w.memoryAvailable⟩) (k + 1)) st = (true, st') ∧
        R (User.press ⟨mode, out⟩ ⟨button, w.batteryLow, w.memoryAvailable⟩) st' := by
    intro s hl hs hb
    subst hb
    cases hlow : w.batteryLow with
    | true =>
      have h1 : ∀ v, prog.react 0 0 ⟨0, 0⟩ v st.world = ({ world := st.world }, .forward) := by
        intro v
        simp only [prog, hwld, hlow, if_true]
      have h2 : Calm.local' prog 0 ⟨0, 0⟩ { st with trig := some ⟨0, 0⟩ } = (.forward, ({ st with trig := some ⟨0, 0⟩ } : Calm.St Env).log (.react 0 0)) := by
        refine (local_some (o := some 0) (k := .custom 0) rfl _).trans ?_
        simp only [Calm.react, Calm.custom, h1, Calm.user]
        rfl
      have h3 : core (Calm.dispatch prog ⟨0, 0⟩ st) = cfg mode.root mode.leaf [] w := by
        rw [dispatch_core (a := .forward) (st' := ({ st with trig := some ⟨0, 0⟩ } : Calm.St Env).log (.react 0 0)) hl _ (by simp)]
        · show { core st with trig := st.trig } = _
          rw [h]
          show { cfg mode.root mode.leaf [] w with trig := st.trig } = _
          rw [show st.trig = none from congrArg Core.trig h]
          rfl
        · have h4 : chart.ancestors s = [0] := by rcases hs with ⟨rfl, -⟩ | ⟨rfl, -⟩ <;> rfl
          have h5 : ∀ st, Calm.local' prog s ⟨0, 0⟩ st = (.forward, st) := by
            rcases hs with ⟨rfl, -⟩ | ⟨rfl, -⟩ <;> exact local_none rfl
          rw [h4]
          simp only [Calm.offer, h5, h2, if_true]
      have g := fin (mode' := mode) h3 (l := []) (by rw [hlow]; rcases hs with ⟨-, rfl⟩ | ⟨-, rfl⟩ <;> rfl) (by rw [hw]; simp)
      rwa [hlow] at g
    | false =>
      have h1 : ∀ v, prog.react 0 0 ⟨0, 0⟩ v st.world = ({ world := st.world }, .transit ⟨.plain, 3⟩ none) := by
        intro v
        simp only [prog, hwld, hlow]
        rfl
      have h2 : core (Calm.dispatch prog ⟨0, 0⟩ st) = cfg 3 4 [⟨4, 0⟩] (w.say (dtorSays mode.leaf ++ dtorSays mode.root ++ ctorSays 3 ++ ctorSays 4)) := by
        rcases hs with ⟨rfl, rfl⟩ | ⟨rfl, rfl⟩
        all_goals
          exact outer_step (f := fun st => st.log (.react 0 0)) (d := 3) (y := 4) h rfl (local_transit (s := 0) (o := some 0) rfl h1) (fun _ => rfl) (by decide) (by decide) rfl rfl
      have h3 : core { Calm.dispatch prog ⟨0, 0⟩ st with evq := [] } = cfg 3 4 [] (w.say (dtorSays mode.leaf ++ dtorSays mode.root ++ ctorSays 3 ++ ctorSays 4)) := by
        show { core (Calm.dispatch prog ⟨0, 0⟩ st) with evq := [] } = _
        rw [h2]
        rfl
      have h4 := focus_step h3
      have h5 : (Calm.dispatch prog ⟨0, 0⟩ st).evq = [⟨4, 0⟩] := congrArg Core.evq h2
      refine ⟨Calm.dispatch prog ⟨4, 0⟩ { Calm.dispatch prog ⟨0, 0⟩ st with evq := [] }, ?_, ?_⟩
      · show Calm.drain prog (k + 1) (Calm.dispatch prog ⟨0, 0⟩ st) = _
        simp only [Calm.drain, h5]
        exact drain_nil (congrArg Core.evq h4) _
      · refine ⟨(w.say (dtorSays mode.leaf ++ dtorSays mode.root ++ ctorSays 3 ++ ctorSays 4)).say [.focused], h4.trans ?_, ?_⟩
        · rcases hs with ⟨-, rfl⟩ | ⟨-, rfl⟩ <;> rfl
        · rcases hs with ⟨-, rfl⟩ | ⟨-, rfl⟩ <;> simp [Env.say, User.press, next, hw, dtorSays, ctorSays, Mode.leaf, Mode.root]
  have release : ∀ s, st.leaves = [s] → (s = 5 ∧ mode = .focused ∨ s = 6 ∧ mode = .storing) → button = .release → 
      ∃ st', Calm.run prog (.process (Input.event ⟨button, w.batteryLow, w.memoryAvailable⟩) (k + 1)) st = (true, st') ∧
        R (User.press ⟨mode, out⟩ ⟨button, w.batteryLow, w.memoryAvailable⟩) st' := by
    rintro s hs (⟨rfl, rfl⟩ | ⟨rfl, rfl⟩) rfl
    all_goals
      refine fin (mode' := .idle) (outer_step (f := id) h rfl (local_some (o := some 2) (k := .transition ⟨.plain, 0⟩ none) rfl _) (fun _ => rfl) (by decide) (by decide) rfl rfl) rfl ?_
      rw [← hw]
      rfl
  cases mode <;> cases button
  · exact half 1 (congrArg Core.leaves h) (.inl ⟨rfl, rfl⟩) rfl
  · exact fin (mode' := .idle) (nothing h rfl rfl rfl) rfl (by rw [hw]; simp)
  · exact fin (mode' := .idle) (nothing h rfl rfl rfl) rfl (by rw [hw]; simp)
  · refine fin (mode' := .configuring) (leaf_step (f := fun st => st.log (.react 1 0)) (a := none) h (local_transit (s := 1) (o := some 3) rfl fun v => rfl)
      (fun _ => rfl) (by decide) rfl rfl rfl rfl rfl rfl rfl rfl) rfl ?_
    rw [← hw]
    rfl
  · exact half 2 (congrArg Core.leaves h) (.inr ⟨rfl, rfl⟩) rfl
  · exact fin (mode' := .configuring) (nothing h rfl rfl rfl) rfl (by rw [hw]; simp)
  · exact fin (mode' := .configuring) (nothing h rfl rfl rfl) rfl (by rw [hw]; simp)
  · refine fin (mode' := .idle) (leaf_step (f := id) (a := none) h (local_some (o := some 3) (k := .transition ⟨.plain, 1⟩ none) rfl _)
      (fun _ => rfl) (by decide) rfl rfl rfl rfl rfl rfl rfl rfl) rfl ?_
    rw [← hw]
    rfl
  · exact fin (mode' := .focused) (nothing h rfl rfl rfl) rfl (by rw [hw]; simp)
  · cases hmem : w.memoryAvailable with
    | true =>
      have h1 : ∀ v, prog.react 5 0 ⟨1, 0⟩ v st.world = ({ world := st.world }, .transit ⟨.plain, 6⟩ none) := by
        intro v
        simp only [prog, hwld, hmem, if_true]
      have g := fin (mode' := .storing) (leaf_step (s := 5) (d := 6) (f := fun st => st.log (.react 5 0)) (a := none) h (local_transit (s := 5) (o := some 1) rfl h1)
        (fun _ => rfl) (by decide) rfl rfl rfl rfl rfl rfl rfl rfl) (l := [.pictureTaken]) (by rw [hmem]; rfl) (by rw [← hw]; rfl)
      rwa [hmem] at g
    | false =>
      have h1 : ∀ v, prog.react 5 0 ⟨1, 0⟩ v st.world = ({ world := st.world.say [.memoryFull] }, .discard) := by
        intro v
        simp only [prog, hwld, hmem]
        rfl
      have h2 : Calm.local' prog 5 ⟨1, 0⟩ { st with trig := some ⟨1, 0⟩ } = (.discard, ({ st with trig := some ⟨1, 0⟩, world := st.world.say [.memoryFull] } : Calm.St Env).log (.react 5 0)) := by
        refine (local_some (o := some 1) (k := .custom 0) rfl _).trans ?_
        simp only [Calm.react, Calm.custom, h1, Calm.user]
        rfl
      have h3 : core (Calm.dispatch prog ⟨1, 0⟩ st) = cfg 3 5 [] (w.say [.memoryFull]) := by
        rw [dispatch_one (congrArg Core.leaves h) h2]
        show { core st with world := st.world.say [.memoryFull] } = _
        rw [hwld, h]
        rfl
      have g := fin (mode' := .focused) h3 (l := [.memoryFull]) (by rw [hmem]; rfl) (by rw [← hw]; rfl)
      rwa [hmem] at g
  · exact release 5 (congrArg Core.leaves h) (.inl ⟨rfl, rfl⟩) rfl
  · exact fin (mode' := .focused) (nothing h rfl rfl rfl) rfl (by rw [hw]; simp)
  · exact fin (mode' := .storing) (nothing h rfl rfl rfl) rfl (by rw [hw]; simp)
  · exact fin (mode' := .storing) (nothing h rfl rfl rfl) rfl (by rw [hw]; simp)
  · exact release 6 (congrArg Core.leaves h) (.inr ⟨rfl, rfl⟩) rfl
  · exact fin (mode' := .storing) (nothing h rfl rfl rfl) rfl (by rw [hw]; simp)

theorem started (k : Nat) : ∃ st, Calm.run prog (.initiate k) (Calm.start {}) = (true, st) ∧ R {} st := by
  obtain ⟨f, hf⟩ := depth_eq prog
  simp only [Calm.run, hf]
  refine ⟨_, drain_nil rfl k, ({} : Env).say [.enterNotShooting, .enterIdle], ?_, rfl⟩
  show { core (Calm.enter prog 1 (Calm.enter prog 0 { Calm.stop prog (Calm.start {}) with trig := none })) with trig := none } = _
  rw [enter_core, enter_core]
  simp [Core.enter, core, Calm.stop, Calm.leaveAll, Calm.start, chart, Chart.isLeaf, cfg, ctorSays, ctorPosts, Env.say, Mode.root, Mode.leaf]
  funext x
  by_cases h0 : x = 0 <;> by_cases h1 : x = 1 <;> simp_all

/-- **C65.** Any buttons can be pressed, whatever battery and memory are. `process_event` needs to process one posted event. Afterwards the output is the expected one,
and the states are the innermost and the outermost one of the expected mode. -/
theorem C65_camera (k : Nat) (l : List Input) :
    (∃ m, Fed prog (k + 1) setup Input.event {} l m) ∧
    ∀ m, Fed prog (k + 1) setup Input.event {} l m → Reach prog m ∧
      m.world.out = (l.foldl User.press {}).out ∧
      (∀ x, (m.heap x).isSome = true ↔ x = (l.foldl User.press {}).mode.root ∨ x = (l.foldl User.press {}).mode.leaf) ∧
      (List.range m.endIx).map m.slot = [some (l.foldl User.press {}).mode.leaf] := by
  obtain ⟨h1, h2⟩ := fed_follows (setup := setup) (ev := Input.event) (k := k + 1) wf contract plain smooth R User.press {} (started (k + 1)) (fun s st i h => step k h i) l
  refine ⟨h1, fun m hm => ?_⟩
  obtain ⟨hr, st, ⟨w, h3, h4⟩, h5⟩ := h2 m hm
  have ha : st.act = _ := congrArg Core.act h3
  have hl : st.leaves = _ := congrArg Core.leaves h3
  have hw : st.world = _ := congrArg Core.world h3
  refine ⟨hr, by rw [h5.world, hw]; exact h4, fun x => ?_, by rw [h5.range, hl]; rfl⟩
  rw [h5.states, ha]
  simp [cfg]

/-- At most one picture for each time the shutter is pressed: there is at most one picture more than there are releases. -/
theorem C65_one_picture_per_release (l : List Input) :
    (l.foldl User.press {}).out.count .pictureTaken ≤ (l.map Input.button).count .release + 1 := by
  have gen : ∀ (l : List Input) (u : User), (l.foldl User.press u).out.count .pictureTaken + (if u.mode = .storing then 1 else 0) ≤
      u.out.count .pictureTaken + (l.map Input.button).count .release + 1 := by
    intro l
    induction l with
    | nil => intro u; simp; split <;> omega
    | cons i l ih =>
      intro u
      have h := ih (u.press i)
      obtain ⟨mode, out⟩ := u
      obtain ⟨button, low, mem⟩ := i
      revert h
      simp only [List.foldl_cons, List.map_cons]
      generalize (l.foldl User.press _).out.count Line.pictureTaken = c
      cases mode <;> cases button <;> cases low <;> cases mem <;> simp [User.press, next] <;> omega
  have := gen l {}
  simpa using this

/-- A picture is taken only if memory is available. -/
theorem C65_no_picture_without_memory (l : List Input) (h : ∀ i ∈ l, i.memoryAvailable = false) : .pictureTaken ∉ (l.foldl User.press {}).out := by
  have gen : ∀ (l : List Input) (u : User), (∀ i ∈ l, i.memoryAvailable = false) → .pictureTaken ∉ u.out → .pictureTaken ∉ (l.foldl User.press u).out := by
    intro l
    induction l with
    | nil => exact fun u _ h => h
    | cons i l ih =>
      intro u h hu
      refine ih _ (fun j hj => h j (List.mem_cons_of_mem _ hj)) ?_
      have hm := h i List.mem_cons_self
      obtain ⟨mode, out⟩ := u
      obtain ⟨button, low, mem⟩ := i
      obtain rfl : mem = false := hm
      cases mode <;> cases button <;> cases low <;> simpa [User.press, next] using hu
  exact gen l {} h (by decide)

namespace Ex

/-- `hfr` takes a picture (Main.cpp:62-63). -/
example : ([⟨.half, false, true⟩, ⟨.full, false, true⟩, ⟨.release, false, true⟩].foldl User.press {}).out =
    [.enterNotShooting, .enterIdle, .exitIdle, .exitNotShooting, .enterShooting, .focused, .pictureTaken, .exitShooting, .enterNotShooting, .enterIdle] := rfl

end Ex

end SC.Demo.Camera
