import Verif.ReactSpec
/-!
# A reference machine

A state machine without pointers: no reference counts, no links between states, no list nodes, no iterators, no undefined behaviour. What is exited is
computed from the set of active states (`exitOrder`, `terminated`), not found by following references. `Props/Reference` proves that the library
does exactly this.
-/

namespace SC.Ref
open Spec
variable {W : Type}

/-- State of the reference machine. -/
structure St (W : Type) where
  /-- The states that exist. -/
  act : Sid → Bool
  /-- States that have deferred an event. -/
  defers : Sid → Bool
  /-- Active leaf states in the order in which they are offered events. -/
  leaves : List Sid
  /-- Number of list nodes allocated so far. -/
  nodes : Nat
  /-- The outermost state; `none`: terminated. -/
  root : Option Sid
  /-- Outermost unstable state. -/
  unstable : Option Sid
  /-- The next state entered is the first one of a transition. -/
  first : Bool
  /-- `exit()` is called when states are left. -/
  full : Bool
  /-- The state remembered for a region, and the leaf remembered for a region. -/
  sh : HKey → Option Sid
  dh : HKey → Option Sid
  /-- The history maps have an entry. -/
  shKeys : HKey → Bool
  dhKeys : HKey → Bool
  evq : List Event
  dq : List Event
  trig : Option Event
  world : W
  /-- Calls of user code. -/
  trace : List (Option Event × Obs)

/-- Outcome of an operation: it returns or throws. -/
inductive Out (W α : Type)
  | ok (a : α) (st : St W)
  | thrown (x : Exc) (st : St W)

def R (W α : Type) := St W → Out W α

namespace R
variable {α β : Type}

def ret (a : α) : R W α := fun st => .ok a st

def bnd (x : R W α) (f : α → R W β) : R W β := fun st =>
  match x st with
  | .ok a st' => f a st'
  | .thrown e st' => .thrown e st'

instance : Monad (R W) where
  pure := ret
  bind := bnd

def get : R W (St W) := fun st => .ok st st
def modify (f : St W → St W) : R W Unit := fun st => .ok () (f st)
def throw (x : Exc) : R W α := fun st => .thrown x st

def tryCatch (x : R W α) (h : Exc → R W α) : R W α := fun st =>
  match x st with
  | .ok a st' => .ok a st'
  | .thrown e st' => h e st'

/-- If `x` throws, `g` is applied before the exception goes on. -/
def onThrow (x : R W α) (g : St W → St W) : R W α := fun st =>
  match x st with
  | .ok a st' => .ok a st'
  | .thrown e st' => .thrown e (g st')

end R

/-! ## User code -/

/-- What user code can see: the active states, the leaves in order, whether the machine is terminated, the event being handled. -/
def St.view (st : St W) : View :=
  ⟨st.leaves.map some, fun s => if st.act s then some ⟨0, true, fun _ => none, false, 0⟩ else none, st.root.isNone, st.trig⟩

def St.log (st : St W) (o : Obs) : St W := { st with trace := st.trace ++ [(st.trig, o)] }

def St.cmd (st : St W) : Cmd → St W
  | .post e => { st with evq := st.evq ++ [e] }
  | .clearShallow k => { st with sh := fun x => if x = k then none else st.sh x, shKeys := fun x => if x = k then true else st.shKeys x }
  | .clearDeep k => { st with dh := fun x => if x = k then none else st.dh x, dhKeys := fun x => if x = k then true else st.dhKeys x }

def user (f : View → W → UOut W) (okObs failObs : List Obs) : R W Unit := fun st =>
  let o := f st.view st.world
  let st1 := o.cmds.foldl St.cmd { st with world := o.world }
  match o.throws with
  | none => .ok () (okObs.foldl St.log st1)
  | some x => .thrown x (failObs.foldl St.log st1)

variable (P : Prog W)

def alloc (s : Site) : R W Unit := fun st =>
  match P.alloc s st.world with
  | (w, none) => .ok () { st with world := w }
  | (w, some x) => .thrown x { st with world := w }

/-! ## Leaving states -/

/-- The last leaf takes the place of the one that is removed. -/
def leave (l : List Sid) (s : Sid) : List Sid :=
  match l.getLast? with
  | none => l
  | some z => if s ∈ l then (l.map fun x => if x = s then z else x).dropLast else l

/-- `s` is destroyed. Events are released if it deferred one. -/
def destroy (s : Sid) (st : St W) : St W :=
  let (w, cmds) := P.dtor s st.view st.world
  let st := (cmds.foldl St.cmd { st with world := w }).log (.destroy s)
  let st := if st.defers s then { st with evq := st.dq ++ st.evq, dq := [] } else st
  { st with
    act := fun x => if x = s then false else st.act x
    defers := fun x => if x = s then false else st.defers x
    root := if P.parent s = none then none else st.root }

/-- Something needs `s`: the running function (`keep`), an active inner state, the list of leaves; or it is the outermost unstable state. -/
def needed (keep : Sid → Bool) (st : St W) (s : Sid) : Bool :=
  keep s || !childless P.toChart st.act s || st.unstable == some s || st.leaves.contains s

/-- After an exception: `s` and its outer states are destroyed as far as nothing needs them. -/
def drop (keep : Sid → Bool) : Nat → Option Sid → St W → St W
  | f + 1, some s, st => if needed P keep st s then st else drop keep f (P.parent s) (destroy P s st)
  | _, _, st => st

/-- A history entry needs memory if there is none for this region yet. -/
def entry (has : St W → Bool) (site : Site) : R W Unit := fun st => if has st then .ok () st else alloc P site st

def rememberShallow (s : Sid) : R W Unit :=
  match P.parent s with
  | none => pure ()
  | some p =>
    if P.shallowH p then do
      entry P (fun st => st.shKeys (p, P.pos s)) (.shallowNode (p, P.pos s))
      R.modify fun st => { st with
        sh := fun x => if x = (p, P.pos s) then some s else st.sh x
        shKeys := fun x => if x = (p, P.pos s) then true else st.shKeys x }
    else pure ()

/-- The leaf is remembered by all contexts with deep history, innermost first. -/
def rememberDeep (leaf : Sid) : Nat → Sid → R W Unit
  | 0, _ => pure ()
  | f + 1, cur =>
    match P.parent cur with
    | none => pure ()
    | some p => do
      (if P.deepH p then do
        entry P (fun st => st.dhKeys (p, P.pos cur)) (.deepNode (p, P.pos cur))
        R.modify fun st => { st with
          dh := fun x => if x = (p, P.pos cur) then some leaf else st.dh x
          dhKeys := fun x => if x = (p, P.pos cur) then true else st.dhKeys x }
      else pure ())
      rememberDeep leaf f p

/-- One state is left. -/
def exitOne (keep : Sid → Bool) (full : Bool) (s : Sid) : R W Unit := do
  R.modify fun st => { st with
    leaves := leave st.leaves s
    unstable := if st.unstable = none ∨ st.unstable = some s then P.parent s else st.unstable }
  (if full then
    R.onThrow (do
      user (P.exit s) [.exit s] [.exitFail s]
      rememberShallow P s
      (if P.isLeaf s then rememberDeep P s P.n s else pure ())) (fun st => drop P keep P.n (P.parent s) (destroy P s st))
  else pure ())
  R.modify (destroy P s)

def exitAll (keep : Sid → Bool) (full : Bool) : List Sid → R W Unit
  | [] => pure ()
  | s :: l => do
    exitOne P keep full s
    exitAll keep full l

/-- The states `l st.act` are left. -/
def exits (keep : Sid → Bool) (full : Bool) (l : (Sid → Bool) → List Sid) : R W Unit := do
  R.modify fun st => { st with first := false }
  let st ← R.get
  exitAll P keep full (l st.act)

def nobody : Sid → Bool := fun _ => false

/-- Everything is left; events and histories are forgotten. -/
def leaveAll (full : Bool) : R W Unit := do
  R.modify fun st => { st with full := true }
  let st ← R.get
  (match st.root with
    | none => pure ()
    | some s => exits P nobody full fun act => exitOrder P.toChart act s)
  R.modify fun st => { st with evq := [], dq := [], sh := fun _ => none, dh := fun _ => none, shKeys := fun _ => false, dhKeys := fun _ => false }

/-! ## Entering states -/

def appear (s : Sid) (st : St W) : St W :=
  { st with act := fun x => if x = s then true else st.act x, defers := fun x => if x = s then false else st.defers x }

def attach (s : Sid) (st : St W) : St W := { st with root := if P.parent s = none then some s else st.root }

/-- The constructor of `s` failed. -/
def vanish (s : Sid) (st : St W) : St W :=
  { st with act := fun x => if x = s then false else st.act x, defers := fun x => if x = s then false else st.defers x,
            root := if P.parent s = none then none else st.root }

/-- A leaf is appended to the list of leaves. The machine is stable again when the last region of the outermost unstable state has been filled. -/
def register (s : Sid) : R W Unit := do
  (if P.isLeaf s then do
    let st ← R.get
    (if st.leaves.length = st.nodes then do
      alloc P (.leafNode s)
      R.modify fun st => { st with nodes := st.nodes + 1 }
    else pure ())
    R.modify fun st => { st with leaves := st.leaves ++ [s] }
  else pure ())
  R.modify fun st =>
    if st.first ∨ (P.pos s + 1 = P.regions (P.parent s) ∧ st.unstable = P.parent s) then
      { st with first := false, unstable := if P.isLeaf s then none else some s }
    else st

/-- One state is entered. A `simple_state` knows its context only after its constructor. -/
def enter (s : Sid) : R W Unit := do
  alloc P (.object s)
  R.modify (appear s)
  (if P.isSimple s then pure () else R.modify (attach P s))
  R.onThrow (user (P.ctor s) [.enter s] [.enterFail s]) (vanish P s)
  (if P.isSimple s then R.modify (attach P s) else pure ())
  R.onThrow (register P s) (destroy P s)

/-- What is to be entered: a state with its inner states, a state or history, the states on the way to a state or history, regions. -/
inductive Job
  | deep (s : Sid)
  | target (t : Target)
  | chain (above : List Sid) (t : Target)
  | inners (l : List Target)

/-- What `t` stands for now. -/
def recalled (t : Target) (st : St W) : Job :=
  match P.parent t.st with
  | none => .deep t.st
  | some p => match t.kind with
    | .plain => .deep t.st
    | .shallow => .deep ((st.sh (p, P.pos t.st)).getD t.st)
    | .deep => match st.dh (p, P.pos t.st) with
      | none => .deep t.st
      | some l => .chain (P.pathBelow (some p) l) ⟨.plain, l⟩

/-- If an inner state cannot be entered, `s` is destroyed unless something needs it. -/
def dropOne (s : Sid) (st : St W) : St W := if needed P nobody st s then st else destroy P s st

def build : Nat → Job → R W Unit
  | 0, _ => pure ()
  | f + 1, .deep s => do
    enter P s
    R.onThrow (build f (.inners (P.init s))) (dropOne P s)
  | _ + 1, .inners [] => pure ()
  | f + 1, .inners (t :: ts) => do
    build f (.target t)
    build f (.inners ts)
  | f + 1, .target t => do
    let st ← R.get
    build f (recalled P t st)
  | f + 1, .chain [] d => build f (.target d)
  | f + 1, .chain (x :: cs) d => do
    enter P x
    R.onThrow (do
      build f (.inners ((P.init x).take (P.pos (cs.headD d.st))))
      build f (.chain cs d)
      build f (.inners ((P.init x).drop (P.pos (cs.headD d.st) + 1)))) (dropOne P x)

/-- Enough recursion depth for every chart. -/
def depth : Nat := (P.n + 1) * (P.n + 300)

/-! ## Reactions -/

def action : Option Nat → R W Unit
  | none => pure ()
  | some a => user (P.action a) [.act a] [.act a]

/-- Everything in `t` is left, in a transition that keeps the states `keep`. -/
def leaveFor (keep : Sid → Bool) (l : (Sid → Bool) → List Sid) : R W Unit := do
  let st ← R.get
  exits P keep st.full l
  R.modify fun st => { st with first := true }

/-- Leaving the termination state `t` and the transition action; with relaxed transition context, the action is called in its context `q`. -/
def leaveAndAct (s t : Sid) (c : Option Sid) (act : Option Nat) : R W Unit :=
  let keep : Sid → Bool := fun x => c == some x
  let whole := leaveFor P keep fun a => exitOrder P.toChart a t
  if P.relaxed then
    let q := P.ctxOf act
    let proposed := (P.actionCtxs s).idxOf q
    let uml := (P.ctxList s).idxOf c + 1
    if proposed = 0 ∧ P.isLeaf s then do
      action P act
      whole
    else if uml ≤ proposed then do
      whole
      action P act
    else match q with
      | none => pure ()
      | some r => do
        R.onThrow (do
          leaveFor P (fun x => keep x || x == r) fun a => (exitOrder P.toChart a r).dropLast
          action P act) (drop P keep P.n (some r))
        whole
  else do
    whole
    action P act

def transit (s : Sid) (d : Target) (act : Option Nat) : R W Unit :=
  match P.termState s d.st with
  | none => pure ()
  | some t =>
    let c := P.commonCtx s d.st
    R.onThrow (do
      leaveAndAct P s t c act
      build P (depth P) (.chain (P.pathBelow c d.st) d)) (drop P nobody P.n c)

def terminateState (s : Sid) : R W Unit := do
  let st ← R.get
  exits P nobody st.full fun a => terminated P.toChart a s
  R.modify fun st => { st with unstable := none }

/-- Answer of a reaction or of a state. -/
inductive Answer | noReaction | forward | discard | defer
deriving DecidableEq

def defer (s : Sid) : R W Unit := R.modify fun st => { st with defers := fun x => if x = s then true else st.defers x }.log (.defer s)

def custom (s : Sid) (id : Nat) (e : Event) : R W Answer := do
  let st ← R.get
  user (fun v w => (P.react s id e v w).1) [.react s id] [.react s id]
  match (P.react s id e st.view st.world).2 with
  | .discard => pure .discard
  | .forward => pure .forward
  | .defer => do
    defer s
    pure .defer
  | .transit d a => do
    transit P s d a
    pure .discard
  | .terminate => do
    terminateState P s
    pure .discard

def react (s : Sid) (e : Event) : RKind → R W Answer
  | .transition d a => do
    transit P s d a
    pure .discard
  | .inState a => do
    action P a
    pure .discard
  | .termination => do
    terminateState P s
    pure .discard
  | .deferral => do
    defer s
    pure .defer
  | .custom id => custom P s id e

/-- The first reaction for the event type; no reaction: forward. -/
def local' (s : Sid) (e : Event) : R W Answer :=
  match (P.reactions s).find? fun r => r.ev = none ∨ r.ev = some e.ty with
  | none => pure .forward
  | some r => react P s e r.kind

/-- The event goes outward until a state does not forward it. -/
def offer (e : Event) : List Sid → R W Answer
  | [] => pure .forward
  | s :: l => do
    let x ← local' P s e
    if x = .forward then offer e l else pure x

def offerFrom (s : Sid) (e : Event) : R W Answer := offer P e (s :: P.ancestors s)

/-- `trig` while `x` runs. -/
def during {α : Type} (ev : Option Event) (x : R W α) : R W α := fun st =>
  match x { st with trig := ev } with
  | .ok a st' => .ok a { st' with trig := st.trig }
  | .thrown e st' => .thrown e { st' with trig := st.trig }

/-- An exception that nobody handled terminates the machine. -/
def guarded {α : Type} (x : R W α) : R W α := fun st =>
  match x st with
  | .ok a st' => .ok a st'
  | .thrown e st' => match leaveAll P false st' with
    | .ok _ st'' => .thrown e st''
    | .thrown _ st'' => .thrown e st''

/-- The exception event goes to the outermost unstable state, or else to the state that was reacting. -/
def handle (cur : Option Sid) (ev : Event) (x : Exc) : R W Answer := do
  let st ← R.get
  match st.root, st.unstable.or cur with
  | some _, some h => during (some ev) do
    R.modify fun st => { st with full := false }
    let r ← offerFrom P h ev
    R.modify fun st => { st with full := true }
    let st ← R.get
    if r = .discard ∧ st.unstable = none then pure .discard else R.throw x
  | _, _ => R.throw x

def translated (cur : Option Sid) (x : R W Answer) : R W Answer :=
  R.tryCatch x fun e => match P.translate e with
    | none => R.throw e
    | some ev => handle P cur ev e

/-- The leaves are asked in turn until one does not forward the event. -/
def ask (e : Event) : List Sid → R W Answer
  | [] => pure .forward
  | s :: l => do
    let r ← translated P (some s) (offerFrom P s e)
    if r = .forward then ask e l else pure r

def dispatch (e : Event) : R W Unit := do
  let r ← during (some e) do
    let r ← guarded P (do
      let st ← R.get
      ask P e st.leaves)
    (if r = .forward then user (P.unconsumed e) [.unconsumed] [.unconsumed] else pure ())
    pure r
  if r = .defer then do
    alloc P (.deferNode e)
    R.modify fun st => { st with dq := st.dq ++ [e] }
  else pure ()

/-- At most `k` posted or released events; `true`: none is left. -/
def drain : Nat → R W Bool
  | 0 => do
    let st ← R.get
    pure st.evq.isEmpty
  | k + 1 => do
    let st ← R.get
    match st.evq with
    | [] => pure true
    | e :: q => do
      R.modify fun st => { st with evq := q }
      dispatch P e
      drain k

/-- What a client can do. -/
inductive Op
  | initiate (k : Nat)
  | terminate
  | process (e : Event) (k : Nat)
  | post (e : Event)
  | clearShallow (k : HKey)
  | clearDeep (k : HKey)

def stop : R W Unit := do
  let _ ← during none (guarded P (translated P none (do
    leaveAll P true
    pure .discard)))
  pure ()

def run : Op → R W Bool
  | .initiate k => do
    stop P
    let _ ← during none (guarded P (translated P none (do
      build P (depth P) (.deep P.initial)
      pure .discard)))
    drain P k
  | .terminate => do
    stop P
    pure true
  | .process e k => do
    dispatch P e
    drain P k
  | .post e => do
    alloc P (.postNode e)
    R.modify fun st => st.cmd (.post e)
    pure true
  | .clearShallow k => do
    entry P (fun st => st.shKeys k) (.shallowNode k)
    R.modify fun st => st.cmd (.clearShallow k)
    pure true
  | .clearDeep k => do
    entry P (fun st => st.dhKeys k) (.deepNode k)
    R.modify fun st => st.cmd (.clearDeep k)
    pure true

/-- A machine that has just been constructed. -/
def start (w : W) : St W where
  act _ := false
  defers _ := false
  leaves := []
  nodes := 0
  root := none
  unstable := none
  first := false
  full := true
  sh _ := none
  dh _ := none
  shKeys _ := false
  dhKeys _ := false
  evq := []
  dq := []
  trig := none
  world := w
  trace := []

end SC.Ref
