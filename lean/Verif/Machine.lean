import Verif.Chart
/-!
# Run-time state, user code and the execution monad
-/

namespace SC

/-- Key of the history maps: (context type, orthogonal position)
(state_machine.hpp:177-222). Only states have history, so the context is a
state. -/
abbrev HKey := Sid × Nat

/-- Stored construct function (state_machine.hpp:651-687): either
`&S::deep_construct` or `&constructor<make_context_list<Ctx, Leaf>>::construct`,
the latter represented by the states above the leaf and the leaf. -/
inductive HFn
  | deep (s : Sid)
  | chain (above : List Sid) (leaf : Sid)
deriving DecidableEq, Repr

/-- A state object. `rc` is the intrusive count (detail/counted_base.hpp:25-82),
`ctxSet` tells whether `pContext_` is non-null, `inner` is `pInnerStates`
(detail/node_state.hpp:133-145), `deferred` is `deferredEvents_`
(detail/state_base.hpp:57-151), `lpos` is `listPosition_`
(detail/leaf_state.hpp:72-75). -/
structure Obj where
  rc : Nat
  ctxSet : Bool
  inner : Nat → Option Sid
  deferred : Bool
  lpos : Nat

/-- Ghost observations, in program order. `enter`: constructor returned;
`enterFail`: constructor threw; `exit`: exit() returned; `exitFail`: exit()
threw; `destroy`: destructor ran; `act`/`react`: user action / custom reaction
called; `defer`: the state deferred the event; `unconsumed`: unconsumed_event() called. -/
inductive Obs
  | enter (s : Sid) | enterFail (s : Sid)
  | exit (s : Sid) | exitFail (s : Sid)
  | destroy (s : Sid)
  | act (a : Nat) | react (s : Sid) (id : Nat) | defer (s : Sid) | unconsumed
deriving DecidableEq, Repr

/-- Ghost log of event-queue operations. -/
inductive QOp
  | post (e : Event)      -- appended to eventQueue_
  | recv (e : Event)      -- dispatch of process_event's argument starts
  | pop (e : Event)       -- removed from the front of eventQueue_, dispatch starts
  | defer (e : Event)     -- dispatch ended, event appended to deferredEventQueue_
  | lost (e : Event)      -- dispatch ended with deferral but storing it threw
  | done (e : Event)      -- dispatch ended otherwise (consumed, unconsumed, exception)
  | hold (s : Sid)        -- `deferredEvents_` of state s set
  | release (s : Sid)     -- s destructed: deferredEventQueue_ spliced to the front of eventQueue_
  | clear                 -- both queues cleared
deriving DecidableEq, Repr

/-- Ghost log of what matters for history: completed `exit()` calls and clearing. `cut s k`: `exit()` of `s` completed, but recording this ended
with an exception, when storing the shallow history (`k = none`) or the deep history of the context `q` (`k = some q`). -/
inductive HOp
  | exit (s : Sid)
  | cut (s : Sid) (k : Option Sid)
  | clearShallow (k : HKey)
  | clearDeep (k : HKey)
  | clear
deriving DecidableEq, Repr

/-- Data members of `state_machine` (state_machine.hpp:1064-1083) plus the
heap of state objects (keyed by type, see DESIGN.md), the user world and
ghost logs (observations, queue operations, history operations, exceptions raised). `slot`/`len`/`endIx` model `currentStates_` and
`currentStatesEnd_`: nodes of this `std::list` are never erased and only
appended, so an iterator is an index. `sh`/`dh` are the functions in the history maps, `shKeys`/`dhKeys` tell which keys
the maps contain. -/
structure Mach (W : Type) where
  heap : Sid → Option Obj
  slot : Nat → Option Sid
  len : Nat
  endIx : Nat
  outermost : Option Sid
  ico : Bool
  pOU : Option Sid
  fullExit : Bool
  sh : HKey → Option HFn
  dh : HKey → Option HFn
  shKeys : HKey → Bool
  dhKeys : HKey → Bool
  evq : List Event
  dq : List Event
  trig : Option Event
  world : W
  trace : List (Option Event × Obs)
  qlog : List QOp
  hlog : List HOp
  xlog : List Exc

/-- What user code may observe of the machine: `state_begin()..state_end()` (the nodes of the list
with the pointers in them), the state objects these pointers lead to (for `state_cast`,
`state_downcast` and `context`), `terminated()`, `triggering_event()`. -/
structure View where
  slots : List (Option Sid)
  objs : Sid → Option Obj
  terminated : Bool
  trig : Option Event

/-- Member functions of the machine and of states user code may call that change the
machine: `post_event` (simple_state.hpp:284-292), `clear_shallow_history`,
`clear_deep_history` (simple_state.hpp:333-349). -/
inductive Cmd
  | post (e : Event)
  | clearShallow (k : HKey)
  | clearDeep (k : HKey)
deriving DecidableEq, Repr

/-- Outcome of a piece of user code. -/
structure UOut (W : Type) where
  world : W
  cmds : List Cmd := []
  throws : Option Exc := none

/-- How a custom reaction ends (simple_state.hpp:294-331). -/
inductive Decision
  | discard | forward | defer
  | transit (dest : Target) (action : Option Nat)
  | terminate
deriving DecidableEq, Repr

/-- Places where the library allocates memory. -/
inductive Site
  | object (s : Sid)     -- `new MostDerived` (simple_state.hpp:601, state.hpp:86)
  | leafNode (s : Sid)   -- `currentStates_.insert` (state_machine.hpp:976)
  | shallowNode (k : HKey) | deepNode (k : HKey) -- `historyMap[...]` (state_machine.hpp:1022)
  | deferNode (e : Event) -- `deferredEventQueue_.push_back` (state_machine.hpp:277, 912)
  | postNode (e : Event) -- client's post_event
deriving DecidableEq, Repr

/-- A program: the chart and all user code. `translate` is the exception
translator: `fun _ => none` is `null_exception_translator`
(null_exception_translator.hpp:23-35), `fun _ => some e` is
`exception_translator<E>` (exception_translator.hpp:24-49), other functions
are user-written translators. `alloc` decides whether an allocation throws. -/
structure Prog (W : Type) extends Chart where
  ctor : Sid → View → W → UOut W
  exit : Sid → View → W → UOut W
  dtor : Sid → View → W → W × List Cmd
  action : Nat → View → W → UOut W
  react : Sid → Nat → Event → View → W → UOut W × Decision
  unconsumed : Event → View → W → UOut W
  alloc : Site → W → W × Option Exc
  translate : Exc → Option Event

/-- Undefined behaviour and failing asserts. -/
inductive Fault
  | nullDeref | useAfterFree | assertFail | doubleConstruct | badIterator | badCast | outOfFuel
deriving DecidableEq, Repr

/-- Outcome of running library code. -/
inductive Res (W α : Type)
  | ok (a : α) (m : Mach W)
  | thrown (x : Exc) (m : Mach W)
  | fault (f : Fault)

/-- State-and-exception monad. -/
def M (W α : Type) := Mach W → Res W α

namespace M
variable {W α β : Type}

def ret (a : α) : M W α := fun m => .ok a m

def bnd (x : M W α) (f : α → M W β) : M W β := fun m =>
  match x m with
  | .ok a m' => f a m'
  | .thrown e m' => .thrown e m'
  | .fault g => .fault g

instance : Monad (M W) where
  pure := ret
  bind := bnd

def get : M W (Mach W) := fun m => .ok m m
def modify (f : Mach W → Mach W) : M W Unit := fun m => .ok () (f m)
def throw (x : Exc) : M W α := fun m => .thrown x m
def fault (f : Fault) : M W α := fun _ => .fault f

/-- `try { x } catch (...) { h }`. -/
def tryCatch (x : M W α) (h : Exc → M W α) : M W α := fun m =>
  match x m with
  | .ok a m' => .ok a m'
  | .thrown e m' => h e m'
  | .fault g => .fault g

/-- RAII: run `fin` when the scope of `x` is left, normally or by exception. An exception
that leaves a destructor during unwinding would call `std::terminate`. -/
def finally' (x : M W α) (fin : M W Unit) : M W α := fun m =>
  match x m with
  | .ok a m' => (match fin m' with
    | .ok _ m'' => .ok a m''
    | .thrown e m'' => .thrown e m''
    | .fault g => .fault g)
  | .thrown e m' => (match fin m' with
    | .ok _ m'' => .thrown e m''
    | .thrown _ _ => .fault .assertFail
    | .fault g => .fault g)
  | .fault g => .fault g

end M

variable {W : Type}

/-- Innermost states in iteration order, `[state_begin(), state_end())`
(state_machine.hpp:359-408). -/
def Mach.leaves (m : Mach W) : List Sid := (List.range m.endIx).filterMap m.slot

/-- `terminated()` (state_machine.hpp:268-271). -/
def Mach.terminated (m : Mach W) : Bool := m.outermost.isNone

def Mach.view (m : Mach W) : View := ⟨(List.range m.endIx).map m.slot, m.heap, m.terminated, m.trig⟩

/-- Function update. -/
def upd {α β : Type} [DecidableEq α] (f : α → β) (a : α) (b : β) : α → β :=
  fun x => if x = a then b else f x

/-- Completed `exit()` calls are also recorded in `hlog`. -/
def Obs.hops : Obs → List HOp
  | .exit s => [.exit s]
  | _ => []

def Mach.log (m : Mach W) (o : Obs) : Mach W := { m with trace := m.trace ++ [(m.trig, o)], hlog := m.hlog ++ o.hops }
/-- The exit just recorded turns out to be incompletely recorded. -/
def Mach.cutExit (m : Mach W) (s : Sid) (k : Option Sid) : Mach W := { m with hlog := m.hlog.dropLast ++ [.cut s k] }
/-- An exception is raised (by user code or by an allocation). -/
def Mach.raise (m : Mach W) (x : Exc) : Mach W := { m with xlog := m.xlog ++ [x] }
def Mach.qop (m : Mach W) (o : QOp) : Mach W := { m with qlog := m.qlog ++ [o] }

/-- Effect of one command. `post_event` appends (state_machine.hpp:521-530),
clearing history stores a null function (state_machine.hpp:445-489,
store_history_impl with 0), which `construct_with_history_impl` treats like a
missing entry (state_machine.hpp:1033). -/
def Mach.cmd (m : Mach W) : Cmd → Mach W
  | .post e => { m with evq := m.evq ++ [e], qlog := m.qlog ++ [.post e] }
  | .clearShallow k => { m with sh := upd m.sh k none, shKeys := upd m.shKeys k true, hlog := m.hlog ++ [.clearShallow k] }
  | .clearDeep k => { m with dh := upd m.dh k none, dhKeys := upd m.dhKeys k true, hlog := m.hlog ++ [.clearDeep k] }

/-- Run a piece of user code. `okObs`/`failObs` are logged when it returns/throws. -/
def runUser (f : View → W → UOut W) (okObs failObs : List Obs) : M W Unit := fun m =>
  let o := f m.view m.world
  let m1 := o.cmds.foldl Mach.cmd { m with world := o.world }
  match o.throws with
  | none => .ok () (okObs.foldl Mach.log m1)
  | some x => .thrown x ((failObs.foldl Mach.log m1).raise x)

variable (P : Prog W)

/-- An allocation that may throw. -/
def allocate (s : Site) : M W Unit := fun m =>
  match P.alloc s m.world with
  | (w, none) => .ok () { m with world := w }
  | (w, some x) => .thrown x (({ m with world := w } : Mach W).raise x)

/-- `historyMap[ key ]` (state_machine.hpp:1022) allocates a node unless the map contains the key. -/
def allocNode (has : Mach W → Bool) (s : Site) : M W Unit := fun m => if has m then .ok () m else allocate P s m

/-- Access to a state object through a pointer. -/
def getObj (s : Sid) : M W Obj := fun m =>
  match m.heap s with
  | none => .fault .useAfterFree
  | some o => .ok o m

def setObj (s : Sid) (o : Obj) : M W Unit := M.modify fun m => { m with heap := upd m.heap s (some o) }

/-- `intrusive_ptr_add_ref` (detail/state_base.hpp:156-163). -/
def addRef (s : Sid) : M W Unit := do
  let o ← getObj s
  setObj s { o with rc := o.rc + 1 }

/-- `remove_inner_state` of a context (detail/node_state.hpp:89-93,
state_machine.hpp:637-642). -/
def removeInner (ctx : Option Sid) (pos : Nat) : M W Unit :=
  match ctx with
  | none => if pos = 0 then M.modify fun m => { m with outermost := none } else M.fault .assertFail
  | some p => do
    let o ← getObj p
    if pos < P.regions (some p) then setObj p { o with inner := upd o.inner pos none }
    else M.fault .assertFail

/-- `add_inner_state` of a context (detail/node_state.hpp:81-87,
state_machine.hpp:628-635). -/
def addInner (ctx : Option Sid) (pos : Nat) (s : Sid) : M W Unit :=
  match ctx with
  | none => if pos = 0 then M.modify fun m => { m with outermost := some s } else M.fault .assertFail
  | some p => do
    let o ← getObj p
    if pos < P.regions (some p) ∧ o.inner pos = none then
      setObj p { o with inner := upd o.inner pos (some s) }
    else M.fault .assertFail

/-- `release_events` (state_machine.hpp:645-648): splice to the front. `s` is the
state being destructed. -/
def releaseEvents (s : Sid) : M W Unit := M.modify fun m =>
  { m with evq := m.dq ++ m.evq, dq := [], qlog := m.qlog ++ [.release s] }

/-- The user's destructor of a state; may not throw. -/
def userDtor (s : Sid) : M W Unit := M.modify fun m =>
  let (w, cmds) := P.dtor s m.view m.world
  (cmds.foldl Mach.cmd { m with world := w }).log (.destroy s)

/-- `~simple_state` (simple_state.hpp:360-373) and destruction of its members;
`pContext_` is the last to go and releases the context (`rel`). -/
def baseDtor (rel : Sid → M W Unit) (s : Sid) : M W Unit := do
  let o ← getObj s
  if o.ctxSet then do
    if o.deferred then releaseEvents s else pure ()
    removeInner P (P.parent s) (P.pos s)
    M.modify fun m => { m with heap := upd m.heap s none }
    match P.parent s with
    | none => pure ()
    | some p => rel p
  else
    M.modify fun m => { m with heap := upd m.heap s none }

/-- `intrusive_ptr_release` through a pointer to the most derived type
(simple_state.hpp:973-984): destroy at zero. Recursion goes outward along
`pContext_`. -/
def releaseF : Nat → Sid → M W Unit
  | 0, _ => M.fault .outOfFuel
  | f + 1, s => do
    let o ← getObj s
    if o.rc = 0 then M.fault .assertFail
    else if o.rc = 1 then do
      setObj s { o with rc := 0 }
      userDtor P s
      baseDtor P (releaseF f) s
    else setObj s { o with rc := o.rc - 1 }

def release (s : Sid) : M W Unit := releaseF P (s + 1) s

/-- `intrusive_ptr_release` through a `state_base` pointer
(detail/state_base.hpp:165-179): must not be the last reference. -/
def releaseBase (s : Sid) : M W Unit := do
  let o ← getObj s
  if o.rc ≤ 1 then M.fault .assertFail
  else setObj s { o with rc := o.rc - 1 }

/-- Assignment to `pOutermostUnstableState_` (an `intrusive_ptr<node_state_base>`). -/
def setOU (new : Option Sid) : M W Unit := do
  (match new with
    | none => pure ()
    | some t => addRef t)
  let m ← M.get
  M.modify fun m => { m with pOU := new }
  match m.pOU with
  | none => pure ()
  | some t => releaseBase t

end SC
