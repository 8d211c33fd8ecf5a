import Verif.Ref
/-!
# The reference machine when nothing goes wrong

If user code does not throw and memory does not run out, all that `Ref.lean` says about exceptions can be left out. What remains is a function from
states to states: no outcome, no unstable state, no list nodes. `Props/Calm` proves that the library computes this function.
-/

namespace SC.Calm
open Spec
variable {W : Type}

structure St (W : Type) where
  /-- The states that exist. -/
  act : Sid → Bool
  /-- States that have deferred an event. -/
  defers : Sid → Bool
  /-- Active leaf states in the order in which they are offered events. -/
  leaves : List Sid
  /-- The outermost state; `none`: terminated. -/
  root : Option Sid
  /-- The state remembered for a region, and the leaf remembered for a region. -/
  sh : HKey → Option Sid
  dh : HKey → Option Sid
  evq : List Event
  dq : List Event
  trig : Option Event
  world : W
  /-- Calls of user code. -/
  trace : List (Option Event × Obs)

def St.view (st : St W) : View :=
  ⟨st.leaves.map some, fun s => if st.act s then some ⟨0, true, fun _ => none, false, 0⟩ else none, st.root.isNone, st.trig⟩

def St.log (st : St W) (o : Obs) : St W := { st with trace := st.trace ++ [(st.trig, o)] }

def St.cmd (st : St W) : Cmd → St W
  | .post e => { st with evq := st.evq ++ [e] }
  | .clearShallow k => { st with sh := fun x => if x = k then none else st.sh x }
  | .clearDeep k => { st with dh := fun x => if x = k then none else st.dh x }

def user (f : View → W → UOut W) (o : Obs) (st : St W) : St W :=
  let r := f st.view st.world
  (r.cmds.foldl St.cmd { st with world := r.world }).log o

variable (P : Prog W)

/-! ## Leaving states -/

def destroy (s : Sid) (st : St W) : St W :=
  let (w, cmds) := P.dtor s st.view st.world
  let st := (cmds.foldl St.cmd { st with world := w }).log (.destroy s)
  let st := if st.defers s then { st with evq := st.dq ++ st.evq, dq := [] } else st
  { st with
    act := fun x => if x = s then false else st.act x
    defers := fun x => if x = s then false else st.defers x
    root := if P.parent s = none then none else st.root }

/-- The shallow history after `s` has been left. -/
def shallow (s : Sid) (h : HKey → Option Sid) : HKey → Option Sid :=
  match P.parent s with
  | none => h
  | some p => if P.shallowH p then fun x => if x = (p, P.pos s) then some s else h x else h

/-- The deep history after `leaf` has been left: it is remembered by all contexts of `cur` with deep history. -/
def deep (leaf : Sid) : Nat → Sid → (HKey → Option Sid) → HKey → Option Sid
  | 0, _, h => h
  | f + 1, cur, h =>
    match P.parent cur with
    | none => h
    | some p => deep leaf f p (if P.deepH p then fun x => if x = (p, P.pos cur) then some leaf else h x else h)

/-- One state is left: out of the list of leaves, `exit()`, histories, destructor. -/
def exitOne (s : Sid) (st : St W) : St W :=
  let st := user (P.exit s) (.exit s) { st with leaves := Ref.leave st.leaves s }
  destroy P s { st with sh := shallow P s st.sh, dh := if P.isLeaf s then deep P s P.n s st.dh else st.dh }

def exitAll (l : List Sid) (st : St W) : St W := l.foldl (fun st s => exitOne P s st) st

/-- `t` is left with everything in it. -/
def leaveTree (t : Sid) (st : St W) : St W := exitAll P (exitOrder P.toChart st.act t) st

/-- Everything in `t` is left. -/
def leaveInside (t : Sid) (st : St W) : St W := exitAll P (exitOrder P.toChart st.act t).dropLast st

/-- Everything is left; events and histories are forgotten. -/
def leaveAll (st : St W) : St W :=
  { (match st.root with
    | none => st
    | some s => leaveTree P s st) with evq := [], dq := [], sh := fun _ => none, dh := fun _ => none }

/-! ## Entering states -/

def attach (s : Sid) (st : St W) : St W := { st with root := if P.parent s = none then some s else st.root }

/-- One state is entered: constructor; a leaf is appended to the list of leaves. A `simple_state` knows its context only after its constructor. -/
def enter (s : Sid) (st : St W) : St W :=
  let st := { st with act := fun x => if x = s then true else st.act x, defers := fun x => if x = s then false else st.defers x }
  let st := if P.isSimple s then attach P s (user (P.ctor s) (.enter s) st) else user (P.ctor s) (.enter s) (attach P s st)
  { st with leaves := if P.isLeaf s then st.leaves ++ [s] else st.leaves }

/-- What `t` stands for now. -/
def recalled (t : Target) (st : St W) : Ref.Job :=
  match P.parent t.st with
  | none => .deep t.st
  | some p => match t.kind with
    | .plain => .deep t.st
    | .shallow => .deep ((st.sh (p, P.pos t.st)).getD t.st)
    | .deep => match st.dh (p, P.pos t.st) with
      | none => .deep t.st
      | some l => .chain (P.pathBelow (some p) l) ⟨.plain, l⟩

/-- A state is entered before its inner states, regions in ascending order. -/
def build : Nat → Ref.Job → St W → St W
  | 0, _ => fun st => st
  | f + 1, .deep s => fun st => build f (.inners (P.init s)) (enter P s st)
  | _ + 1, .inners [] => fun st => st
  | f + 1, .inners (t :: ts) => fun st => build f (.inners ts) (build f (.target t) st)
  | f + 1, .target t => fun st => build f (recalled P t st) st
  | f + 1, .chain [] d => build f (.target d)
  | f + 1, .chain (x :: cs) d => fun st =>
    let i := P.pos (cs.headD d.st)
    build f (.inners ((P.init x).drop (i + 1))) (build f (.chain cs d) (build f (.inners ((P.init x).take i)) (enter P x st)))

/-! ## Reactions -/

def action : Option Nat → St W → St W
  | none, st => st
  | some a, st => user (P.action a) (.act a) st

/-- Leaving `t` and the transition action. With relaxed transition context, an action of a state in `t` is called before that state is left. -/
def leaveAndAct (s t : Sid) (c : Option Sid) (act : Option Nat) (st : St W) : St W :=
  let q := P.ctxOf act
  if P.relaxed ∧ (P.actionCtxs s).idxOf q ≤ (P.ctxList s).idxOf c then
    match q with
    | none => st
    | some r => leaveTree P t (action P act (leaveInside P r st))
  else action P act (leaveTree P t st)

def transit (s : Sid) (d : Target) (act : Option Nat) (st : St W) : St W :=
  match P.termState s d.st with
  | none => st
  | some t =>
    let c := P.commonCtx s d.st
    build P (Ref.depth P) (.chain (P.pathBelow c d.st) d) (leaveAndAct P s t c act st)

def terminateState (s : Sid) (st : St W) : St W := exitAll P (terminated P.toChart st.act s) st

def defer (s : Sid) (st : St W) : St W := { st with defers := fun x => if x = s then true else st.defers x }.log (.defer s)

open Ref (Answer)

def custom (s : Sid) (id : Nat) (e : Event) (st : St W) : Answer × St W :=
  let st' := user (fun v w => (P.react s id e v w).1) (.react s id) st
  match (P.react s id e st.view st.world).2 with
  | .discard => (.discard, st')
  | .forward => (.forward, st')
  | .defer => (.defer, defer s st')
  | .transit d a => (.discard, transit P s d a st')
  | .terminate => (.discard, terminateState P s st')

def react (s : Sid) (e : Event) (st : St W) : RKind → Answer × St W
  | .transition d a => (.discard, transit P s d a st)
  | .inState a => (.discard, action P a st)
  | .termination => (.discard, terminateState P s st)
  | .deferral => (.defer, defer s st)
  | .custom id => custom P s id e st

/-- The first reaction for the event type; no reaction: forward. -/
def local' (s : Sid) (e : Event) (st : St W) : Answer × St W :=
  match (P.reactions s).find? fun r => r.ev = none ∨ r.ev = some e.ty with
  | none => (.forward, st)
  | some r => react P s e st r.kind

/-- The states are asked in turn until one does not forward the event. -/
def offer (e : Event) : List Sid → St W → Answer × St W
  | [], st => (.forward, st)
  | s :: l, st =>
    let r := local' P s e st
    if r.1 = .forward then offer e l r.2 else r

/-- The leaves, each with its outer states, are asked in turn. -/
def ask (e : Event) : List Sid → St W → Answer × St W
  | [], st => (.forward, st)
  | s :: l, st =>
    let r := offer P e (s :: P.ancestors s) st
    if r.1 = .forward then ask e l r.2 else r

def dispatch (e : Event) (st : St W) : St W :=
  let r := ask P e st.leaves { st with trig := some e }
  match r.1 with
  | .forward => { user (P.unconsumed e) .unconsumed r.2 with trig := st.trig }
  | .defer => { r.2 with trig := st.trig, dq := r.2.dq ++ [e] }
  | _ => { r.2 with trig := st.trig }

/-- At most `k` posted or released events; `true`: none is left. -/
def drain : Nat → St W → Bool × St W
  | 0, st => (st.evq.isEmpty, st)
  | k + 1, st => match st.evq with
    | [] => (true, st)
    | e :: q => drain k (dispatch P e { st with evq := q })

def stop (st : St W) : St W := { leaveAll P { st with trig := none } with trig := st.trig }

def run : Ref.Op → St W → Bool × St W
  | .initiate k, st =>
    let st := stop P st
    drain P k { build P (Ref.depth P) (.deep P.initial) { st with trig := none } with trig := st.trig }
  | .terminate, st => (true, stop P st)
  | .process e k, st => drain P k (dispatch P e st)
  | .post e, st => (true, st.cmd (.post e))
  | .clearShallow k, st => (true, st.cmd (.clearShallow k))
  | .clearDeep k, st => (true, st.cmd (.clearDeep k))

/-- A machine that has just been constructed. -/
def start (w : W) : St W where
  act _ := false
  defers _ := false
  leaves := []
  root := none
  sh _ := none
  dh _ := none
  evq := []
  dq := []
  trig := none
  world := w
  trace := []

end SC.Calm
