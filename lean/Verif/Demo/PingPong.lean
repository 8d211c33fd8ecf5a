import Verif.Demo.Basic
import Verif.Props.Hub
/-!
# example/PingPong

Two players, asynchronous state machines of one `fifo_scheduler`, return a ball to each other. This is the program without `USE_TWO_THREADS`.
-/

namespace SC.Demo.PingPong
open Spec Fifo Fifo.Spec

/-- Waiting.hpp:29-92. The only state is `Waiting`. Events: `BallReturned` 0, `GameAborted` 1. -/
def chart : Chart where
  n := 1
  parent _ := none
  pos _ := 0
  init _ := []
  shallowH _ := false
  deepH _ := false
  isSimple _ := false
  initial := 0
  reactions s := match s with
    | 0 => [⟨some 0, .custom 0⟩, ⟨some 1, .custom 1⟩]
    | _ => []

theorem wf : chart.WF := Chart.wf_of_check chart (by decide +kernel)

/-- A call of the scheduler in a reaction: a member of `BallReturned` made by the player with handle `o` is called, or `DestroyMyself` (Waiting.hpp:79-85). -/
inductive Ask where
  | returnToOpponent (o : Nat)
  | abortGame (o : Nat)
  | destroyMyself

/-- `totalNoOfProcessedEvents_`, `noOfReturns_` of each player, and calls of the scheduler to be made. The counters are unbounded. -/
structure Env where
  total : Nat := 0
  returns : Nat → Nat := fun _ => 0
  asks : List Ask := []

/-- Player `a` with `maxNoOfReturns_ = M` (Waiting.hpp:38-85, Player.hpp:96-122). The value of a `BallReturned` is the handle of the player its functors refer to. -/
def prog (M a : Nat) : SC.Prog Env :=
  { quiet chart with
    ctor := fun _ _ w => { world := { w with returns := Fifo.upd w.returns a 0 } }
    react := fun _ id e _ w => match id with
      | 0 =>
        if w.returns a < M then
          ({ world := { total := w.total + 1, returns := Fifo.upd w.returns a (w.returns a + 1), asks := w.asks ++ [.returnToOpponent e.val] } }, .discard)
        else
          ({ world := { total := w.total + 1, returns := Fifo.upd w.returns a (w.returns a + 1), asks := w.asks ++ [.abortGame e.val, .destroyMyself] } }, .terminate)
      | _ => ({ world := { w with asks := w.asks ++ [.destroyMyself] } }, .terminate) }

/-- The calls of the scheduler made by the player with handle `h`; the ball it returns refers to itself. -/
def send (h : Nat) (k : Code Env) : List Ask → Code Env
  | [] => k
  | .returnToOpponent o :: l => .deliver (.event (h + 1)) o (send h k l)
  | .abortGame o :: l => .deliver (.event 0) o (send h k l)
  | .destroyMyself :: l => .destroy h (.terminate (send h k l))

/-- Two players; the argument of the constructor tells which one. Event 0 is a `GameAborted`, event `o + 1` the `BallReturned` of the player with handle `o`. -/
def game (M fuel : Nat) : Fleet Env where
  prog := prog M
  ev e := match e with
    | 0 => ⟨1, 0⟩
    | o + 1 => ⟨0, o⟩
  ctor _ _ := .ret
  calls h w := send h (.put { w with asks := [] } .ret) w.asks
  dtor _ := .ret
  item _ := .ret
  fuel := fuel

/-- PingPong.cpp:127-141. -/
def main : Code Env :=
  .create 0 fun player1 => .deliver .initiate player1 <| .create 1 fun player2 => .deliver .initiate player2 <| .deliver (.event (player1 + 1)) player2 .ret

theorem contract (M a : Nat) : Contract (prog M a) := by
  constructor
  · intro s v w hs; rfl
  · intro s r e v w d a h
    simp only [prog] at h
    split at h
    · split at h <;> cases h
    · cases h

theorem plain (M a : Nat) : Plain (prog M a) := by constructor <;> (intros; first | rfl | exact fun _ => rfl)

theorem smooth (M a : Nat) : Smooth (prog M a) := by
  constructor
  case react =>
    intro s id e v w
    simp only [prog]
    split
    · split <;> rfl
    · rfl
  all_goals intros; rfl

theorem send_flat (h : Nat) (w : Env) : ∀ l, (send h (.put w .ret) l).Flat
  | [] => .put _ .ret
  | .returnToOpponent _ :: l => .deliver _ _ (send_flat h w l)
  | .abortGame _ :: l => .deliver _ _ (send_flat h w l)
  | .destroyMyself :: l => .destroy _ (.terminate (send_flat h w l))

theorem game_flat (M f : Nat) : (game M f).Flat :=
  ⟨fun _ _ => .ret, fun h _ => send_flat h _ _, fun _ => .ret, fun _ => .ret⟩

/-! ### A player -/

def up (w : Env) : Core Env := ⟨fun x => decide (x = 0), fun _ => false, [0], some 0, [], [], none, w⟩
def down (w : Env) : Core Env := ⟨fun _ => false, fun _ => false, [], none, [], [], none, w⟩

/-- The player waits for a ball. -/
def Up (st : Ref.St Env) : Prop := st.full = true ∧ core (Calm.strip st) = up st.world
/-- The player has terminated. -/
def Down (st : Ref.St Env) : Prop := st.full = true ∧ core (Calm.strip st) = down st.world

theorem Up.world {st : Ref.St Env} (h : Up st) (w : Env) : Up { st with world := w } := by
  obtain ⟨h1, h2⟩ := h
  refine ⟨h1, ?_⟩
  have : core (Calm.strip { st with world := w }) = { core (Calm.strip st) with world := w } := rfl
  rw [this, h2]; rfl

variable {M a f : Nat}

theorem run_of {op : Ref.Op} {st : Ref.St Env} {b : Bool} {c : Core Env} (h : st.full = true)
    (h1 : (Calm.run (prog M a) op (Calm.strip st)).1 = b) (h2 : core (Calm.run (prog M a) op (Calm.strip st)).2 = c) :
    ∃ st', Ref.run (prog M a) op st = .ok b st' ∧ st'.full = true ∧ core (Calm.strip st') = c := by
  obtain ⟨st', g1, g2, g3⟩ := Calm.does_run (smooth M a) op st h
  exact ⟨st', by rw [g1, h1], g2, by rw [g3, h2]⟩

theorem core_leave {st : Calm.St Env} {w : Env} {t : Option Event} (h : core st = { up w with trig := t }) :
    core (Calm.terminateState (prog M a) 0 st) = { down w with trig := t } := by
  have ha : st.act = fun x => decide (x = 0) := congrArg Core.act h
  have hd : st.defers = fun _ => false := congrArg Core.defers h
  have : terminated chart st.act 0 = [0] := by rw [ha]; decide
  unfold Calm.terminateState
  rw [show (prog M a).toChart = chart from rfl, this]
  show core (Calm.exitOne (prog M a) 0 st) = _
  rw [core_exit (fe := id) (fd := id) (fun _ _ => rfl) (fun _ _ => rfl) (by rw [hd]), h]
  unfold Core.exit up down
  congr 1
  · funext x; by_cases hx : x = 0 <;> simp [hx]
  · funext x; simp

theorem core_user {st : Calm.St Env} {u : View → Env → UOut Env} {o : Obs} (h : (u st.view st.world).cmds = []) :
    core (Calm.user u o st) = { core st with world := (u st.view st.world).world } := by
  simp [core, Calm.user, h, Calm.St.log]

/-- The ball is returned. -/
theorem run_return {st : Ref.St Env} (h : Up st) {o : Nat} (hr : st.world.returns a < M) :
    ∃ st', Ref.run (prog M a) (.process ⟨0, o⟩ f) st = .ok true st' ∧ Up st' ∧
      st'.world = { total := st.world.total + 1, returns := Fifo.upd st.world.returns a (st.world.returns a + 1), asks := st.world.asks ++ [.returnToOpponent o] } := by
  obtain ⟨h1, h2⟩ := h
  have hd : ∃ s', Calm.local' (prog M a) 0 ⟨0, o⟩ { Calm.strip st with trig := some ⟨0, o⟩ } = (.discard, s') ∧
      core s' = { up { total := st.world.total + 1, returns := Fifo.upd st.world.returns a (st.world.returns a + 1), asks := st.world.asks ++ [.returnToOpponent o] }
        with trig := some ⟨0, o⟩ } := by
    have hr' : ∀ v, (prog M a).react 0 0 ⟨0, o⟩ v st.world = ({ world := { total := st.world.total + 1, returns := Fifo.upd st.world.returns a (st.world.returns a + 1), asks := st.world.asks ++ [.returnToOpponent o] } }, .discard) := by
      intro v; simp [prog, hr]
    refine ⟨Calm.user (fun v w => ((prog M a).react 0 0 ⟨0, o⟩ v w).1) (.react 0 0) { Calm.strip st with trig := some ⟨0, o⟩ }, ?_, ?_⟩
    · show Calm.custom (prog M a) 0 0 ⟨0, o⟩ { Calm.strip st with trig := some ⟨0, o⟩ } = _
      unfold Calm.custom
      simp only [show (Calm.strip st).world = st.world from rfl, hr']
    · rw [core_user]
      · show ({ core (Calm.strip st) with trig := _, world := ((prog M a).react 0 0 ⟨0, o⟩ _ st.world).1.world } : Core Env) = _
        rw [hr', h2]; rfl
      · show ((prog M a).react 0 0 ⟨0, o⟩ _ st.world).1.cmds = []
        rw [hr']
  obtain ⟨s', k1, k2⟩ := hd
  have hl : (Calm.strip st).leaves = [0] := congrArg Core.leaves h2
  have ht : (Calm.strip st).trig = none := congrArg Core.trig h2
  have hdis := dispatch_one (P := prog M a) hl k1
  have hq : ({ s' with trig := (Calm.strip st).trig } : Calm.St Env).evq = [] := congrArg Core.evq k2
  obtain ⟨st', g1, g2, g3⟩ := run_of (M := M) (a := a) (op := .process ⟨0, o⟩ f) (b := true) (c := up { total := st.world.total + 1, returns := Fifo.upd st.world.returns a (st.world.returns a + 1), asks := st.world.asks ++ [.returnToOpponent o] }) h1
    (by show (Calm.drain _ _ (Calm.dispatch _ _ _)).1 = _; rw [hdis, drain_nil hq])
    (by
      show core (Calm.drain _ _ (Calm.dispatch _ _ _)).2 = _
      rw [hdis, drain_nil hq, ht]
      show ({ core s' with trig := none } : Core Env) = _
      rw [k2]; rfl)
  have hw : st'.world = _ := congrArg Core.world g3
  exact ⟨st', g1, ⟨g2, by rw [g3]; rw [hw]; rfl⟩, hw⟩

/-- The player gives up. -/
theorem run_quit {st : Ref.St Env} (h : Up st) {e : Event} {i : Nat} {w : Env}
    (hf : (chart.reactions 0).find? (fun r => r.ev = none ∨ r.ev = some e.ty) = some ⟨some e.ty, .custom i⟩)
    (hr : ∀ v, (prog M a).react 0 i e v st.world = ({ world := w }, .terminate)) :
    ∃ st', Ref.run (prog M a) (.process e f) st = .ok true st' ∧ Down st' ∧ st'.world = w := by
  obtain ⟨h1, h2⟩ := h
  have hd : ∃ s', Calm.local' (prog M a) 0 e { Calm.strip st with trig := some e } = (.discard, s') ∧ core { s' with trig := none } = down w := by
    refine ⟨Calm.terminateState (prog M a) 0 (Calm.user (fun v w => ((prog M a).react 0 i e v w).1) (.react 0 i) { Calm.strip st with trig := some e }), ?_, ?_⟩
    · unfold Calm.local'
      rw [show (prog M a).reactions 0 = chart.reactions 0 from rfl, hf]
      show Calm.custom (prog M a) 0 i e { Calm.strip st with trig := some e } = _
      unfold Calm.custom
      simp only [show (Calm.strip st).world = st.world from rfl, hr]
    · have g : core (Calm.user (fun v w => ((prog M a).react 0 i e v w).1) (.react 0 i) { Calm.strip st with trig := some e }) = { up w with trig := some e } := by
        rw [core_user]
        · show ({ core (Calm.strip st) with trig := _, world := ((prog M a).react 0 i e _ st.world).1.world } : Core Env) = _
          rw [hr, h2]; rfl
        · show ((prog M a).react 0 i e _ st.world).1.cmds = []
          rw [hr]
      have g2 := core_leave (M := M) (a := a) g
      show ({ core (Calm.terminateState (prog M a) 0 _) with trig := none } : Core Env) = _
      rw [g2]; rfl
  obtain ⟨s', k1, k2⟩ := hd
  have hl : (Calm.strip st).leaves = [0] := congrArg Core.leaves h2
  have ht : (Calm.strip st).trig = none := congrArg Core.trig h2
  have hdis := dispatch_one (P := prog M a) hl k1
  rw [ht] at hdis
  have hq : ({ s' with trig := none } : Calm.St Env).evq = [] := congrArg Core.evq k2
  obtain ⟨st', g1, g2, g3⟩ := run_of (M := M) (a := a) (op := .process e f) (b := true) (c := down w) h1
    (by show (Calm.drain _ _ (Calm.dispatch _ _ _)).1 = _; rw [hdis, drain_nil hq])
    (by
      show core (Calm.drain _ _ (Calm.dispatch _ _ _)).2 = _
      rw [hdis, drain_nil hq, k2])
  have hw : st'.world = _ := congrArg Core.world g3
  exact ⟨st', g1, ⟨g2, by rw [g3]; rw [hw]; rfl⟩, hw⟩

/-- `initiate()`. -/
theorem run_initiate (w : Env) :
    ∃ st', Ref.run (prog M a) (.initiate f) (Ref.start w) = .ok true st' ∧ Up st' ∧ st'.world = { w with returns := Fifo.upd w.returns a 0 } := by
  have h : ∃ st, Calm.run (prog M a) (.initiate f) (Calm.start w) = (true, st) ∧ core st = up { w with returns := Fifo.upd w.returns a 0 } := by
    obtain ⟨d, hd⟩ := depth_eq (prog M a)
    simp only [Calm.run, hd]
    refine ⟨_, drain_nil rfl f, ?_⟩
    show { core (Calm.enter (prog M a) 0 { Calm.stop (prog M a) (Calm.start w) with trig := none }) with trig := none } = _
    rw [core_enter (fc := fun w => { w with returns := Fifo.upd w.returns a 0 }) (ps := []) (fun _ _ => rfl)]
    simp [Core.enter, core, Calm.stop, Calm.leaveAll, Calm.start, prog, quiet, chart, Chart.isLeaf, up]
  obtain ⟨s, k1, k2⟩ := h
  have e : Calm.strip (Ref.start w) = Calm.start w := rfl
  obtain ⟨st', g1, g2, g3⟩ := run_of (M := M) (a := a) (op := .initiate f) (st := Ref.start w) (b := true) (c := core s) rfl (by rw [e, k1]) (by rw [e, k1])
  rw [k2] at g3
  have hw : st'.world = _ := congrArg Core.world g3
  exact ⟨st', g1, ⟨g2, by rw [g3]; rw [hw]; rfl⟩, hw⟩

/-! ### The scheduler -/

theorem known_lt {u : Hub Env} {h : Nat} (hh : h < u.next) : u.known h = some h := if_pos hh

/-- A ball is returned. -/
theorem work_return {u : Hub Env} {i o : Nat} {st : Ref.St Env} (hm : u.mach i = some (a, st)) (hs : Up st) (ho : o < u.next) (hr : u.env.returns a < M) (hk : u.env.asks = []) :
    ∃ st', Up st' ∧ Hub.work (game M f) (.user (.deliver (.event (o + 1)) (some i))) u =
      .ok () { u with queue := u.queue ++ [.user (.deliver (.event (i + 1)) (some o))], env := { total := u.env.total + 1, returns := Fifo.upd u.env.returns a (u.env.returns a + 1) },
                      mach := Fifo.upd u.mach i (some (a, st')), log := u.log ++ [.called (.event (o + 1)) i] } := by
  obtain ⟨st', h1, h2, h3⟩ := run_return (a := a) (M := M) (f := f) (hs.world u.env) (o := o) hr
  refine ⟨st', h2, ?_⟩
  show Hub.deliver (game M f) (.event (o + 1)) i u = _
  unfold Hub.deliver
  rw [hm]
  simp only [Hub.legal, if_true]
  rw [show Ref.run ((game M f).prog a) (Hub.op (game M f) (.event (o + 1))) { st with world := u.env } = .ok true st' from h1]
  simp only [h3, hk, game, List.nil_append, send, Hub.code, Hub.exec]
  have : ∀ u : Hub Env, o < u.next → u.known o = some o := fun u hu => if_pos hu
  rw [this]
  · rfl
  · exact ho

/-- A player gives up: it tells its opponent, if it got a ball, and wants to be destroyed. -/
theorem work_quit {u : Hub Env} {i o : Nat} {st : Ref.St Env} (hm : u.mach i = some (a, st)) (hs : Up st) (hi : i < u.next) (ho : o < u.next) (hr : ¬ u.env.returns a < M)
    (hk : u.env.asks = []) :
    ∃ st', Down st' ∧ Hub.work (game M f) (.user (.deliver (.event (o + 1)) (some i))) u =
      .ok () { u with queue := u.queue ++ [.user (.deliver (.event 0) (some o)), .user (.destroy (some i)), .stop],
                      env := { total := u.env.total + 1, returns := Fifo.upd u.env.returns a (u.env.returns a + 1) },
                      mach := Fifo.upd u.mach i (some (a, st')), log := u.log ++ [.called (.event (o + 1)) i] } := by
  obtain ⟨st', h1, h2, h3⟩ := run_quit (a := a) (M := M) (f := f) (e := ⟨0, o⟩) (i := 0)
    (w := { total := u.env.total + 1, returns := Fifo.upd u.env.returns a (u.env.returns a + 1), asks := u.env.asks ++ [.abortGame o, .destroyMyself] }) (hs.world u.env) rfl
    (fun v => by simp [prog, hr])
  refine ⟨st', h2, ?_⟩
  show Hub.deliver (game M f) (.event (o + 1)) i u = _
  unfold Hub.deliver
  rw [hm]
  simp only [Hub.legal, if_true]
  rw [show Ref.run ((game M f).prog a) (Hub.op (game M f) (.event (o + 1))) { st with world := u.env } = .ok true st' from h1]
  simp only [h3, hk, game, List.nil_append, send, Hub.code, Hub.exec, Hub.push, Hub.known, ho, hi, if_true, List.append_assoc, List.cons_append]

theorem work_aborted {u : Hub Env} {i : Nat} {st : Ref.St Env} (hm : u.mach i = some (a, st)) (hs : Up st) (hi : i < u.next) (hk : u.env.asks = []) :
    ∃ st', Down st' ∧ Hub.work (game M f) (.user (.deliver (.event 0) (some i))) u =
      .ok () { u with queue := u.queue ++ [.user (.destroy (some i)), .stop],
                      mach := Fifo.upd u.mach i (some (a, st')), log := u.log ++ [.called (.event 0) i] } := by
  obtain ⟨st', h1, h2, h3⟩ := run_quit (a := a) (M := M) (f := f) (e := ⟨1, 0⟩) (i := 1)
    (w := { u.env with asks := u.env.asks ++ [.destroyMyself] }) (hs.world u.env) rfl (fun v => rfl)
  refine ⟨st', h2, ?_⟩
  show Hub.deliver (game M f) (.event 0) i u = _
  unfold Hub.deliver
  rw [hm]
  simp only [Hub.legal, if_true]
  rw [show Ref.run ((game M f).prog a) (Hub.op (game M f) (.event 0)) { st with world := u.env } = .ok true st' from h1]
  simp only [h3, hk, game, List.nil_append, send, Hub.code, Hub.exec, Hub.push, Hub.known, hi, if_true, List.append_assoc, List.cons_append]
  have : ({ total := u.env.total, returns := u.env.returns, asks := [] } : Env) = u.env := by rw [← hk]
  rw [this]

theorem leaveAll_down {st : Ref.St Env} (h : Down st) : ∃ st', Ref.leaveAll (prog M a) false st = .ok () st' ∧ st'.world = st.world := by
  have hr : st.root = none := congrArg Core.root h.2
  refine ⟨{ st with full := true, evq := [], dq := [], sh := fun _ => none, dh := fun _ => none, shKeys := fun _ => false, dhKeys := fun _ => false }, ?_, rfl⟩
  simp [Ref.leaveAll, bind, Ref.R.bnd, Ref.R.modify, Ref.R.get, hr, pure, Ref.R.ret]

/-- The machine of a player who has terminated is destroyed. -/
theorem work_destroy {u : Hub Env} {i : Nat} {st : Ref.St Env} (hm : u.mach i = some (a, st)) (hs : Down st) (hk : u.env.asks = []) :
    Hub.work (game M f) (.user (.destroy (some i))) u = .ok () { u with mach := Fifo.upd u.mach i none, log := u.log ++ [.gone i] } := by
  show Hub.destroy (game M f) i u = _
  unfold Hub.destroy
  rw [hm]
  obtain ⟨st', h1, h2⟩ := leaveAll_down (M := M) (a := a) (st := { st with world := u.env }) ⟨hs.1, by
    have h := hs.2
    have : core (Calm.strip { st with world := u.env }) = { core (Calm.strip st) with world := u.env } := rfl
    rw [this, h]; rfl⟩
  simp only [game, Hub.code, Hub.exec, Hub.Out.hub]
  rw [h1]
  have h2 : st'.world = u.env := h2
  simp only [h2, hk, send, Hub.exec]
  have : ({ total := u.env.total, returns := u.env.returns, asks := [] } : Env) = u.env := by rw [← hk]
  rw [this]

theorem loop_step {A : Fleet Env} {k c : Nat} {u u' : Hub Env} {w : Fifo.Work Fifo.Op} {q : List (Fifo.Work Fifo.Op)} (ht : u.terminated = false) (hq : u.queue = w :: q)
    (h : Hub.work A w { u with queue := q } = .ok () u') : Hub.loop A (k + 1) 0 c u = Hub.loop A k 0 (c + 1) u' := by
  rw [Hub.loop]
  simp only [hq]
  rw [h]
  simp [ht]

theorem loop_next {A : Fleet Env} {k c : Nat} {u u' : Hub Env} {w : Fifo.Work Fifo.Op} (h : Hub.work A w u = .ok () u') (ht : u.terminated = false) :
    Hub.loop A (k + 1) 0 c { u with queue := w :: u.queue } = Hub.loop A k 0 (c + 1) u' := loop_step ht rfl h

/-- The two players, and how often they have returned the ball. -/
def two (x y : Option (Nat × Ref.St Env)) (h : Nat) : Option (Nat × Ref.St Env) := if h = 0 then x else if h = 1 then y else none
def pts (x y : Nat) (h : Nat) : Nat := if h = 0 then x else if h = 1 then y else 0

theorem two_0 (x y z) : Fifo.upd (two x y) 0 z = two z y := by funext h; unfold Fifo.upd two; by_cases h0 : h = 0 <;> simp [h0]
theorem two_1 (x y z) : Fifo.upd (two x y) 1 z = two x z := by
  funext h; unfold Fifo.upd two; by_cases h0 : h = 0 <;> by_cases h1 : h = 1 <;> simp [h0, h1]
theorem pts_0 (x y z) : Fifo.upd (pts x y) 0 z = pts z y := by funext h; unfold Fifo.upd pts; by_cases h0 : h = 0 <;> simp [h0]
theorem pts_1 (x y z) : Fifo.upd (pts x y) 1 z = pts x z := by
  funext h; unfold Fifo.upd pts; by_cases h0 : h = 0 <;> by_cases h1 : h = 1 <;> simp [h0, h1]

/-- Player 2 gets the ball, then player 1, `n` times. -/
def rally (n : Nat) : List PEv := (List.replicate n [.called (.event 1) 1, .called (.event 2) 0]).flatten

theorem rally_succ (n : Nat) : rally (n + 1) = [.called (.event 1) 1, .called (.event 2) 0] ++ rally n := by
  simp [rally, List.replicate_succ]

/-- Player 2 is to get the ball. -/
def court (t x y : Nat) (s0 s1 : Ref.St Env) (log : List PEv) : Hub Env where
  queue := [.user (.deliver (.event 1) (some 1))]
  next := 2
  env := { total := t, returns := pts x y }
  mach := two (some (0, s0)) (some (1, s1))
  log := log

theorem loop_rally : ∀ (n k c t x : Nat) (s0 s1 : Ref.St Env) (log : List PEv), Up s0 → Up s1 → x + n = M →
    ∃ s0' s1', Up s0' ∧ Up s1' ∧ Hub.loop (game M f) (k + 2 * n) 0 c (court t x x s0 s1 log) =
      Hub.loop (game M f) k 0 (c + 2 * n) (court (t + 2 * n) M M s0' s1' (log ++ rally n))
  | 0, k, c, t, x, s0, s1, log, h0, h1, hx => ⟨s0, s1, h0, h1, by
      obtain rfl : x = M := by omega
      simp [rally]⟩
  | n + 1, k, c, t, x, s0, s1, log, h0, h1, hx => by
    obtain ⟨s1', g1, g2⟩ := work_return (M := M) (f := f) (u := { court t x x s0 s1 log with queue := [] }) (i := 1) (a := 1) (o := 0) (st := s1) rfl h1 Nat.zero_lt_two
      (by show x < M; omega) rfl
    obtain ⟨s0', g3, g4⟩ := work_return (M := M) (f := f)
      (u := { court (t + 1) x (x + 1) s0 s1' (log ++ [.called (.event 1) 1]) with queue := [] }) (i := 0) (a := 0) (o := 1) (st := s0) rfl h0 Nat.one_lt_two
      (by show x < M; omega) rfl
    obtain ⟨s0'', s1'', e1, e2, e3⟩ := loop_rally n k (c + 2) (t + 2) (x + 1) s0' s1' (log ++ [.called (.event 1) 1] ++ [.called (.event 2) 0]) g3 g1 (by omega)
    refine ⟨s0'', s1'', e1, e2, ?_⟩
    rw [show k + 2 * (n + 1) = (k + 2 * n + 1) + 1 by omega, loop_step rfl rfl g2, loop_step (q := []) (w := .user (.deliver (.event 2) (some 0))) rfl rfl
      (u' := court (t + 2) (x + 1) (x + 1) s0' s1' (log ++ [.called (.event 1) 1] ++ [.called (.event 2) 0])), e3]
    · rw [rally_succ]
      simp only [List.append_assoc, List.cons_append, List.nil_append]
      congr 1
      · omega
      · congr 1; omega
    · refine Eq.trans ?_ (g4.trans ?_)
      · simp only [court]
        rw [show (pts x x) 1 = x from rfl, pts_1, two_1]
      · simp only [court]
        rw [show (pts x (x + 1)) 0 = x from rfl, pts_0, two_0]
        rfl

theorem work_create {u : Hub Env} (i x : Nat) : Hub.work (game M f) (.user (.create i x)) u =
    .ok () { u with mach := Fifo.upd u.mach i (some (x, Ref.start u.env)), log := u.log ++ [.made i x] } := rfl

theorem work_initiate {u : Hub Env} {i : Nat} {w : Env} (hm : u.mach i = some (a, Ref.start w)) (hk : u.env.asks = []) :
    ∃ st', Up st' ∧ Hub.work (game M f) (.user (.deliver .initiate (some i))) u =
      .ok () { u with env := { total := u.env.total, returns := Fifo.upd u.env.returns a 0 }, mach := Fifo.upd u.mach i (some (a, st')), log := u.log ++ [.called .initiate i] } := by
  obtain ⟨st', h1, h2, h3⟩ := run_initiate (a := a) (M := M) (f := f) u.env
  refine ⟨st', h2, ?_⟩
  show Hub.deliver (game M f) .initiate i u = _
  unfold Hub.deliver
  rw [hm]
  have hl : Hub.legal ((game M f).prog a) { Ref.start w with world := u.env } .initiate = true := rfl
  simp only [hl, if_true]
  rw [show Ref.run ((game M f).prog a) (Hub.op (game M f) .initiate) { Ref.start w with world := u.env } = .ok true st' from h1]
  simp only [h3, hk, game, send, Hub.code, Hub.exec]

/-- What the program does before it calls `scheduler1()`, and the first four work items. -/
theorem loop_serve (k t : Nat) : ∃ s0 s1, Up s0 ∧ Up s1 ∧
    (match Hub.client (game M f) 0 main { env := { total := t } } with
      | .ok _ u => Hub.loop (game M f) (k + 4) 0 0 u = Hub.loop (game M f) k 0 4
          (court t 0 0 s0 s1 [.made 0 0, .called .initiate 0, .made 1 1, .called .initiate 1])
      | _ => False) := by
  obtain ⟨s0, g1, g2⟩ := work_initiate (M := M) (f := f) (a := 0) (i := 0) (w := { total := t, returns := pts 0 0 })
    (u := { queue := [.user (.create 1 1), .user (.deliver .initiate (some 1)), .user (.deliver (.event 1) (some 1))], next := 2, env := { total := t, returns := pts 0 0 },
            mach := two (some (0, Ref.start { total := t, returns := pts 0 0 })) none, log := [.made 0 0] }) rfl rfl
  obtain ⟨s1, g3, g4⟩ := work_initiate (M := M) (f := f) (a := 1) (i := 1) (w := { total := t, returns := pts 0 0 })
    (u := { queue := [.user (.deliver (.event 1) (some 1))], next := 2, env := { total := t, returns := pts 0 0 },
            mach := two (some (0, s0)) (some (1, Ref.start { total := t, returns := pts 0 0 })), log := [.made 0 0, .called .initiate 0, .made 1 1] }) rfl rfl
  refine ⟨s0, s1, g1, g3, ?_⟩
  have hz : (fun _ => 0 : Nat → Nat) = pts 0 0 := by funext h; simp [pts]
  have hn : (fun _ => none : Nat → Option (Nat × Ref.St Env)) = two none none := by funext h; simp [two]
  have hc : Hub.client (game M f) 0 main { env := { total := t } } = .ok () { queue := [.user (.create 0 0), .user (.deliver .initiate (some 0)), .user (.create 1 1),
      .user (.deliver .initiate (some 1)), .user (.deliver (.event 1) (some 1))], next := 2, env := { total := t, returns := pts 0 0 }, mach := two none none } := by
    rw [← hz, ← hn]
    rfl
  rw [hc]
  simp only
  have c1 := work_create (M := M) (f := f)
    (u := { queue := [.user (.deliver .initiate (some 0)), .user (.create 1 1), .user (.deliver .initiate (some 1)), .user (.deliver (.event 1) (some 1))],
            next := 2, env := { total := t, returns := pts 0 0 }, mach := two none none }) 0 0
  have c2 := work_create (M := M) (f := f)
    (u := { queue := [.user (.deliver .initiate (some 1)), .user (.deliver (.event 1) (some 1))], next := 2, env := { total := t, returns := pts 0 0 },
            mach := two (some (0, s0)) none, log := [.made 0 0, .called .initiate 0] }) 1 1
  simp only [pts_0, pts_1, two_0, two_1, List.nil_append, List.cons_append] at g2 g4 c1 c2
  have e1 := loop_next (k := k + 3) (c := 0) c1 rfl
  have e2 := loop_next (k := k + 2) (c := 1) g2 rfl
  have e3 := loop_next (k := k + 1) (c := 2) c2 rfl
  have e4 := loop_next (k := k) (c := 3) g4 rfl
  exact e1.trans (e2.trans (e3.trans e4))

/-- **What the program does** with the queue of the reference scheduler. -/
theorem hub_game (k t : Nat) (hk : 2 * M + 9 ≤ k) : ∃ s0, Down s0 ∧
    turns (Turn.hub (game M f)) { env := { total := t } } [.client 0 main, .run k 0] =
      ([.returned 0, .returned (2 * M + 8)],
        { queue := [.user (.destroy (some 0)), .stop], terminated := true, next := 2, env := { total := t + 2 * M + 1, returns := pts M (M + 1) }, mach := two (some (0, s0)) none,
          log := [.made 0 0, .called .initiate 0, .made 1 1, .called .initiate 1] ++ rally M ++ [.called (.event 1) 1] ++ [.called (.event 0) 0] ++ [.gone 1] }) := by
  obtain ⟨j, rfl⟩ : ∃ j, k = (j + 5 + 2 * M) + 4 := ⟨k - (2 * M + 9), by omega⟩
  obtain ⟨s0, s1, h0, h1, h2⟩ := loop_serve (M := M) (f := f) (j + 5 + 2 * M) t
  generalize hl : ([.made 0 0, .called .initiate 0, .made 1 1, .called .initiate 1] : List PEv) = l0 at h2 ⊢
  obtain ⟨s0', s1', h0', h1', h3⟩ := loop_rally (M := M) (f := f) M (j + 5) 4 t 0 s0 s1 l0 h0 h1 (by omega)
  cases hc : Hub.client (game M f) 0 main { env := { total := t } } with
  | thrown x u => rw [hc] at h2; exact h2.elim
  | more u => rw [hc] at h2; exact h2.elim
  | ok x u =>
    rw [hc] at h2
    simp only at h2
    obtain ⟨s1'', g1, g2⟩ := work_quit (M := M) (f := f) (u := { court (t + 2 * M) M M s0' s1' (l0 ++ rally M) with queue := [] })
      (i := 1) (a := 1) (o := 0) (st := s1') rfl h1' Nat.one_lt_two Nat.zero_lt_two (by show ¬ M < M; omega) rfl
    obtain ⟨s0'', g3, g4⟩ := work_aborted (M := M) (f := f)
      (u := { court (t + 2 * M + 1) M (M + 1) s0' s1'' (l0 ++ rally M ++ [.called (.event 1) 1]) with queue := [.user (.destroy (some 1)), .stop] })
      (i := 0) (a := 0) (st := s0') rfl h0' Nat.zero_lt_two rfl
    have g5 := work_destroy (M := M) (f := f) (a := 1) (i := 1) (st := s1'')
      (u := { court (t + 2 * M + 1) M (M + 1) s0'' s1'' (l0 ++ rally M ++ [.called (.event 1) 1] ++ [.called (.event 0) 0]) with
        queue := [.stop, .user (.destroy (some 0)), .stop] }) rfl g1 rfl
    have g6 : Hub.work (game M f) .stop { court (t + 2 * M + 1) M (M + 1) s0'' s1'' (l0 ++ rally M ++ [.called (.event 1) 1] ++ [.called (.event 0) 0] ++ [.gone 1]) with
        queue := [.user (.destroy (some 0)), .stop], mach := two (some (0, s0'')) none } = .ok () _ := rfl
    refine ⟨s0'', g3, ?_⟩
    have hp : pts M M 1 = M := rfl
    simp only [court, hp, pts_1, two_0, two_1, List.nil_append, List.cons_append] at g2 g4 g5 g6
    have hr : Hub.loop (game M f) (j + 5 + 2 * M + 4) 0 0 u = .ok (2 * M + 8)
        { queue := [.user (.destroy (some 0)), .stop], terminated := true, next := 2, env := { total := t + 2 * M + 1, returns := pts M (M + 1) }, mach := two (some (0, s0'')) none,
          log := l0 ++ rally M ++ [.called (.event 1) 1] ++ [.called (.event 0) 0] ++ [.gone 1] } := by
      rw [h2, h3]
      have e1 := loop_next (k := j + 4) (c := 4 + 2 * M) g2 rfl
      have e2 := loop_next (k := j + 3) (c := 4 + 2 * M + 1) g4 rfl
      have e3 := loop_next (k := j + 2) (c := 4 + 2 * M + 2) g5 rfl
      have e4 := loop_next (k := j + 1) (c := 4 + 2 * M + 3) g6 rfl
      refine e1.trans (e2.trans (e3.trans (e4.trans ?_)))
      rw [Hub.loop, if_pos (.inl rfl)]
      congr 1
      omega
    simp only [turns, Turn.hub, hc, Hub.run, hr]

theorem dispose_none {A : Fleet Env} {u : Hub Env} (hm : ∀ h, u.mach h = none) : ∀ l, Hub.dispose A l u = some u
  | [] => rfl
  | h :: l => by
    rw [Hub.dispose, hm h]
    exact dispose_none hm l

theorem dispose_one {s0 : Ref.St Env} (hs : Down s0) {u : Hub Env} (hm : u.mach = two (some (0, s0)) none) (hk : u.env.asks = []) :
    ∀ l, ∃ u', Hub.dispose (game M f) l u = some u' ∧ u'.env = u.env ∧ (0 ∈ l → u'.log = u.log ++ [.gone 0]) ∧ (0 ∉ l → u'.mach 0 ≠ none)
  | [] => ⟨u, rfl, rfl, (fun h => by cases h), fun _ => by rw [hm]; exact fun h => by cases h⟩
  | h :: l => by
    by_cases h0 : h = 0
    · subst h0
      have hm0 : u.mach 0 = some (0, s0) := by rw [hm]; rfl
      obtain ⟨st', h1, h2⟩ := leaveAll_down (M := M) (a := 0) (st := { s0 with world := u.env }) ⟨hs.1, by
        have h := hs.2
        have : core (Calm.strip { s0 with world := u.env }) = { core (Calm.strip s0) with world := u.env } := rfl
        rw [this, h]; rfl⟩
      have h2 : st'.world = u.env := h2
      have he : ({ total := u.env.total, returns := u.env.returns, asks := [] } : Env) = u.env := by rw [← hk]
      refine ⟨{ u with mach := Fifo.upd u.mach 0 none, log := u.log ++ [.gone 0] }, ?_, rfl, fun _ => rfl, fun h => absurd List.mem_cons_self h⟩
      rw [Hub.dispose, hm0]
      simp only [game, Hub.alone]
      rw [h1]
      simp only [h2, hk, send, Hub.alone, he]
      refine dispose_none (fun h => ?_) l
      show Fifo.upd u.mach 0 none h = none
      rw [hm, two_0]
      unfold two
      split <;> (try split) <;> rfl
    · have hm1 : u.mach h = none := by rw [hm]; unfold two; rw [if_neg h0]; split <;> rfl
      obtain ⟨u', g1, g2, g3, g4⟩ := dispose_one hs hm hk l
      refine ⟨u', by rw [Hub.dispose, hm1]; exact g1, g2, fun h' => g3 ?_, fun h' => g4 fun h'' => h' (List.mem_cons_of_mem _ h'')⟩
      exact (List.mem_cons.1 h').resolve_left fun h'' => h0 h''.symm

/-! ### What the program does -/

/-- The scheduler after `scheduler1()` (PingPong.cpp:111-160) has been given `k` steps, and how the calls end. `t` is `TotalNoOfProcessedEvents()` before. -/
def played (M f t k : Nat) : List TurnEnd × Wk Fifo.Op (Ct (Yard Env)) :=
  turns (Turn.lib (game M f)) { st := { user := { env := { total := t } } } } [.client 0 main, .run k 0]

/-- **C66.** The players return the ball `M` times each. `operator()` ends as the scheduler has been terminated. `2 * M + 1` balls have been processed. Player 2 has been destroyed.
Player 1 has terminated, but its request to be destroyed is still in the queue, and is never executed. -/
theorem C66_ping_pong (M f t k : Nat) (hk : 2 * M + 9 ≤ k) :
    (played M f t k).1 = [.returned 0, .returned (2 * M + 8)] ∧
    (played M f t k).2.terminated = true ∧
    (played M f t k).2.queue = [some (.user (.destroy (some 0))), some .stop] ∧
    (played M f t k).2.st.user.env.total = t + 2 * M + 1 ∧
    (played M f t k).2.st.log = [.made 0 0, .called .initiate 0, .made 1 1, .called .initiate 1] ++ rally M ++ [.called (.event 1) 1, .called (.event 0) 0, .gone 1] ∧
    (played M f t k).2.st.user.mach 1 = none ∧
    (∃ mm, (played M f t k).2.st.user.mach 0 = some (0, mm) ∧ mm.terminated = true ∧ ∀ s, mm.heap s = none) ∧
    (played M f t k).2.st.fault = false ∧ (played M f t k).2.st.user.fault = false ∧ (played M f t k).2.st.user.bad = false := by
  obtain ⟨h1, h2, h3, h4⟩ := C58_equivalent (A := game M f) (fun _ => wf) (fun a => contract M a) (fun a => plain M a) (game_flat M f) { total := t } [.client 0 main, .run k 0]
  obtain ⟨s0, hd, hh⟩ := hub_game (M := M) (f := f) k t hk
  change (played M f t k).1 = _ at h1
  change Fits (played M f t k).2 _ at h2
  change (played M f t k).2.st.user.fault = false at h3
  change (played M f t k).2.st.fault = true → _ at h4
  rw [hh] at h1 h2 h4
  simp only at h1 h2 h4
  refine ⟨h1, h2.terminated, h2.queue, by rw [h2.env], by rw [h2.log]; simp, ?_, ?_, ?_, h3, h2.bad⟩
  · rcases h2.machines 1 with h | ⟨a, mm, st, _, h, _⟩
    · exact h.1
    · cases h
  · rcases h2.machines 0 with h | ⟨a, mm, st, h5, h6, h7⟩
    · cases h.2
    · cases h6
      have hr : s0.root = none := congrArg Core.root hd.2
      have ha : s0.act = fun _ => false := congrArg Core.act hd.2
      refine ⟨mm, h5, ?_, fun s => ?_⟩
      · unfold Mach.terminated
        rw [h7.terminated.2 hr]; rfl
      · have := h7.states s
        rw [ha] at this
        simpa using this
  · cases hf : (played M f t k).2.st.fault with
    | false => rfl
    | true =>
      obtain ⟨h, hm⟩ := h4 hf
      simp [rally] at hm
      obtain ⟨l, ⟨_, rfl⟩, hm⟩ := hm
      simp at hm

/-- **C66.** Player 1 is destroyed with the scheduler, whatever the order in which its processors are destroyed. -/
theorem C66_scheduler_destroyed (M f t k : Nat) (hk : 2 * M + 9 ≤ k) {l : List Nat} (hn : l.Nodup) (hl : ∀ i, i ∈ l ↔ (played M f t k).2.st.set i = true) :
    (dispose (game M f).beh l (played M f t k).2).log = (played M f t k).2.st.log ++ [.gone 0] ∧
    (∀ h, (dispose (game M f).beh l (played M f t k).2).user.mach h = none) ∧
    (dispose (game M f).beh l (played M f t k).2).user.env.total = t + 2 * M + 1 ∧
    (dispose (game M f).beh l (played M f t k).2).fault = false ∧ (dispose (game M f).beh l (played M f t k).2).user.fault = false := by
  have h0 := C66_ping_pong M f t k hk
  obtain ⟨_, h2, _, _⟩ := C58_equivalent (A := game M f) (fun _ => wf) (fun a => contract M a) (fun a => plain M a) (game_flat M f) { total := t } [.client 0 main, .run k 0]
  obtain ⟨h1, _⟩ := C58_dispose (A := game M f) (fun _ => wf) (fun a => contract M a) (fun a => plain M a) (game_flat M f) { total := t } [.client 0 main, .run k 0] hn hl
  obtain ⟨s0, hd, hh⟩ := hub_game (M := M) (f := f) k t hk
  rw [hh] at h1 h2
  simp only at h1 h2
  obtain ⟨u, g1, g2, g3, g4⟩ := dispose_one (M := M) (f := f) hd (u := (turns (Turn.hub (game M f)) { env := { total := t } } [.client 0 main, .run k 0]).2)
    (by rw [hh]) (by rw [hh]) l
  rw [hh] at g1 g2 g3
  obtain ⟨k1, k2, k3, k4, k5⟩ := h1 u g1
  have hm : 0 ∈ l := Classical.byContradiction fun h => g4 h (k5 0).2
  have hlog : (played M f t k).2.st.log = _ := h2.log
  refine ⟨k4.trans ((g3 hm).trans ?_), fun h => (k5 h).1, (congrArg Env.total (k3.trans g2)), k1.trans h0.2.2.2.2.2.2.2.1, k2⟩
  rw [hlog]

namespace Ex

/-- The library itself plays a game with one return each. -/
example : (played 1 0 5 11).1 = [.returned 0, .returned 10] ∧ (played 1 0 5 11).2.st.user.env.total = 8 ∧ (played 1 0 5 10).1 = [.returned 0, .unfinished] ∧
    (played 1 0 5 11).2.st.log = [.made 0 0, .called .initiate 0, .made 1 1, .called .initiate 1, .called (.event 1) 1, .called (.event 2) 0, .called (.event 1) 1,
      .called (.event 0) 0, .gone 1] := by decide +kernel

theorem played_set (M f t k i : Nat) (h : (played M f t k).2.st.set i = true) : i < (played M f t k).2.st.next := by
  have h2 := (turns_hub (A := game M f) (fun _ => wf) (fun a => contract M a) (fun a => plain M a) (game_flat M f) [.client 0 main, .run k 0] (HubInv.fresh { total := t })).2
  obtain ⟨st, -, hp⟩ := h2.holders.serve i
  cases st with
  | unborn =>
    have := hp.2.1
    rw [show (turns (Turn.lib (game M f)) { st := { user := { env := { total := t } } } } [.client 0 main, .run k 0]).2.st.set i = true from h] at this
    cases this
  | alive => exact hp.1
  | failed => exact hp.1
  | gone => exact hp.1

/-- Only player 1 is left. -/
theorem played_order (i : Nat) : i ∈ [0] ↔ (played 1 0 5 11).2.st.set i = true := by
  have h : (played 1 0 5 11).2.st.next = 2 ∧ ∀ i < 2, (played 1 0 5 11).2.st.set i = decide (i = 0) := by decide +kernel
  constructor
  · intro hi
    rw [List.mem_singleton.1 hi]
    exact h.2 0 (by decide)
  · intro hi
    have h1 := played_set 1 0 5 11 i hi
    rw [h.1] at h1
    rw [h.2 i h1] at hi
    exact List.mem_singleton.2 (of_decide_eq_true hi)

example : ∀ h, (dispose (game 1 0).beh [0] (played 1 0 5 11).2).user.mach h = none :=
  (C66_scheduler_destroyed 1 0 5 11 (by decide) (by decide) played_order).2.1

end Ex

end SC.Demo.PingPong
