import Verif.Exec
/-!
# Reactions, event dispatch, exception handling and the public interface
-/

namespace SC
variable {W : Type} (P : Prog W)

/-- `detail::reaction_result` (result.hpp:25-35). -/
inductive RR | noReaction | forward | discard | defer
deriving DecidableEq, Repr

/-- `defer_event` (simple_state.hpp:304-308, detail/state_base.hpp:91-94). The model also
checks that the state has its context (a state reacts only after that); the code does not. -/
def deferEvent (s : Sid) : M W Unit := do
  let o ← getObj s
  if o.ctxSet then
    M.modify fun m => Mach.log { m with heap := upd m.heap s (some { o with deferred := true }), qlog := m.qlog ++ [.hold s] } (.defer s)
  else M.fault .nullDeref

/-- Custom reaction: `MostDerived::react` (custom_reaction.hpp:36-58). The
user code runs, then calls at most one of the functions that make a result
(simple_state.hpp:294-331). -/
def customReact (s : Sid) (id : Nat) (e : Event) : M W RR := do
  let m ← M.get
  let d := (P.react s id e m.view m.world).2
  runUser (fun v w => (P.react s id e v w).1) [.react s id] [.react s id]
  match d with
  | .discard => pure .discard
  | .forward => pure .forward
  | .defer => do
    deferEvent s
    pure .defer
  | .transit dest a => do
    transit P s dest a
    pure .discard
  | .terminate => do
    terminateReaction P s
    pure .discard

/-- `Reaction::react` with the event-type test of `reaction_dispatcher`
(detail/reaction_dispatcher.hpp:37-111). -/
def reactOne (s : Sid) (e : Event) (r : Reaction) : M W RR :=
  if r.ev = none ∨ r.ev = some e.ty then
    match r.kind with
    | .transition d a => do
      transit P s d a
      pure .discard
    | .inState a => do
      runAction P a
      pure .discard
    | .termination => do
      terminateReaction P s
      pure .discard
    | .deferral => do
      deferEvent s
      pure .defer
    | .custom id => customReact P s id e
  else pure .noReaction

/-- `local_react` (simple_state.hpp:805-852). -/
def localReact (s : Sid) (e : Event) : List Reaction → M W RR
  | [] => pure .forward
  | r :: rs => do
    let x ← reactOne P s e r
    if x = .noReaction then localReact s e rs else pure x

/-- `react_impl` (simple_state.hpp:482-502; the machine's forwards,
state_machine.hpp:532-537). -/
def reactF : Nat → Sid → Event → M W RR
  | 0, _, _ => M.fault .outOfFuel
  | f + 1, s, e => do
    let _ ← getObj s
    let x ← localReact P s e (P.reactions s)
    if x = .forward then do
      let o ← getObj s
      if o.ctxSet then
        match P.parent s with
        | none => pure .forward
        | some p => reactF f p e
      else M.fault .nullDeref
    else pure x

def reactImpl (s : Sid) (e : Event) : M W RR := reactF P (s + 1) s e

/-- Scope in which `pTriggeringEvent_` has a new value
(`terminator`, state_machine.hpp:837-867). -/
def withTrig {α : Type} (ev : Option Event) (x : M W α) : M W α := fun m =>
  match x { m with trig := ev } with
  | .ok a m' => .ok a { m' with trig := m.trig }
  | .thrown e m' => .thrown e { m' with trig := m.trig }
  | .fault g => .fault g

/-- Scope of a `terminator` that is dismissed at the end of `x`
(state_machine.hpp:837-867). An exception from its destructor would call
`std::terminate`. -/
def guardTerm {α : Type} (x : M W α) : M W α := fun m =>
  match x m with
  | .ok a m' => .ok a m'
  | .thrown e m' => (match terminateMachine P false m' with
    | .ok _ m'' => .thrown e m''
    | .thrown _ _ => .fault .assertFail
    | .fault g => .fault g)
  | .fault g => .fault g

/-- The state that gets the exception event (state_machine.hpp:766-778). -/
def Mach.handler (m : Mach W) (cur : Option Sid) : Option Sid :=
  match m.pOU with
  | some u => some u
  | none => cur

/-- `handle_exception_event` (state_machine.hpp:753-802); `x` is the exception
being handled, `throw;` rethrows it. -/
def handleException (cur : Option Sid) (ev : Event) (x : Exc) : M W RR := do
  let m ← M.get
  if m.terminated then M.throw x
  else
    match m.handler cur with
    | none => M.fault .assertFail
    | some h => withTrig (some ev) do
      M.modify fun m => { m with fullExit := false }
      let r ← reactImpl P h ev
      M.modify fun m => { m with fullExit := true }
      let m ← M.get
      if r ≠ .discard ∨ m.pOU ≠ none then M.throw x
      else pure .discard

/-- `translator_(action, handler)` (exception_translator.hpp:30-46,
null_exception_translator.hpp:23-35). -/
def translated (cur : Option Sid) (x : M W RR) : M W RR :=
  M.tryCatch x fun e => match P.translate e with
    | none => M.throw e
    | some ev => handleException P cur ev e

/-- The loop of `send_event` (state_machine.hpp:877-890); `i` is the iterator. -/
def sendLoop (e : Event) : Nat → Nat → M W RR
  | 0, _ => M.fault .outOfFuel
  | f + 1, i => do
    let m ← M.get
    if i = m.endIx then pure .forward
    else match m.slot i with
      | none => M.fault .nullDeref
      | some s => do
        let r ← translated P (some s) (reactImpl P s e)
        if r = .forward then sendLoop e f (i + 1) else pure r

/-- `send_event` (state_machine.hpp:870-900). -/
def sendEvent (e : Event) : M W RR :=
  withTrig (some e) do
    let r ← guardTerm P (do
      let m ← M.get
      if m.pOU ≠ none then M.fault .assertFail
      else sendLoop P e (m.endIx + 1) 0)
    (if r = .forward then runUser (P.unconsumed e) [.unconsumed] [.unconsumed] else pure ())
    pure r

def qop (o : QOp) : M W Unit := M.modify fun m => m.qop o

/-- `send_event` and, for a deferral, `deferredEventQueue_.push_back`
(state_machine.hpp:275-278, 910-913). -/
def dispatch (e : Event) : M W Unit := do
  let r ← M.onThrow (sendEvent P e) (qop (.done e))
  if r = .defer then do
    M.onThrow (allocate P (.deferNode e)) (qop (.lost e))
    M.modify fun m => { m with dq := m.dq ++ [e], qlog := m.qlog ++ [.defer e] }
  else qop (.done e)

/-- `process_queued_events` (state_machine.hpp:903-915), for at most `k`
events; returns whether the queue was drained. The C++ loop is the limit of
growing `k` (it may run forever if user code keeps posting). -/
def processQueued : Nat → M W Bool
  | 0 => do
    let m ← M.get
    pure m.evq.isEmpty
  | k + 1 => do
    let m ← M.get
    match m.evq with
    | [] => pure true
    | e :: q => do
      M.modify fun m => { m with evq := q, qlog := m.qlog ++ [.pop e] }
      dispatch P e
      processQueued k

/-! ## Public interface -/

/-- `state_machine::terminate` (state_machine.hpp:259-266). -/
def terminate : M W Unit := do
  let _ ← withTrig none (guardTerm P (translated P none (do
    terminateMachine P true
    pure RR.discard)))
  pure ()

/-- The second part of `initiate` (state_machine.hpp:248-256). -/
def construct (k : Nat) : M W Bool := do
  let _ ← withTrig none (guardTerm P (translated P none (do
    initialConstruct P
    pure RR.discard)))
  processQueued P k

/-- `state_machine::initiate` (state_machine.hpp:244-257). -/
def initiate (k : Nat) : M W Bool := do
  terminate P
  construct P k

/-- `state_machine::process_event` (state_machine.hpp:273-281). -/
def processEvent (e : Event) (k : Nat) : M W Bool := do
  qop (.recv e)
  dispatch P e
  processQueued P k

/-- `post_event` called by the client (state_machine.hpp:436-443, 521-530). -/
def postEvent (e : Event) : M W Unit := do
  allocate P (.postNode e)
  M.modify fun m => m.cmd (.post e)

/-- `clear_shallow_history` called by the client (state_machine.hpp:445-465, 1017-1030):
`operator[]` of the map may have to allocate a node. -/
def clearShallowHistory (k : HKey) : M W Unit := do
  allocNode P (fun m => m.shKeys k) (.shallowNode k)
  M.modify fun m => m.cmd (.clearShallow k)

/-- `clear_deep_history` called by the client (state_machine.hpp:469-489, 1017-1030). -/
def clearDeepHistory (k : HKey) : M W Unit := do
  allocNode P (fun m => m.dhKeys k) (.deepNode k)
  M.modify fun m => m.cmd (.clearDeep k)

/-- `~state_machine` (state_machine.hpp:425-428). -/
def destruct : M W Unit := terminateMachine P false

/-- Constructor of `state_machine` (state_machine.hpp:414-421). -/
def Mach.fresh (w : W) : Mach W :=
  { heap := fun _ => none, slot := fun _ => none, len := 0, endIx := 0, outermost := none,
    ico := false, pOU := none, fullExit := true, sh := fun _ => none, dh := fun _ => none, shKeys := fun _ => false, dhKeys := fun _ => false,
    evq := [], dq := [], trig := none, world := w, trace := [], qlog := [], hlog := [], xlog := [] }

end SC
