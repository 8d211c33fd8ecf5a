import Verif.Machine
/-!
# Construction, exit, transition and termination
-/

namespace SC
variable {W : Type} (P : Prog W)

/-- Run `x`; if it throws, run `fin` (release of stack-held references) and rethrow. An
exception from `fin` would call `std::terminate`. -/
def M.onThrow {α : Type} (x : M W α) (fin : M W Unit) : M W α := fun m =>
  match x m with
  | .ok a m' => .ok a m'
  | .thrown e m' => (match fin m' with
    | .ok _ m'' => .thrown e m''
    | .thrown _ _ => .fault .assertFail
    | .fault g => .fault g)
  | .fault g => .fault g

/-! ## Exit -/

/-- `pContext_->set_outermost_unstable_state(...)` (simple_state.hpp:562-567
for a state context, state_machine.hpp:544-549 for the machine). -/
def setCtxOU (s : Sid) : M W Unit := do
  let o ← getObj s
  if o.ctxSet then setOU (P.parent s) else M.fault .nullDeref

/-- The node for a history entry of the exited state `s` (`k`: see `HOp.cut`). -/
def histNode (has : Mach W → Bool) (site : Site) (s : Sid) (k : Option Sid) : M W Unit :=
  M.onThrow (allocNode P has site) (M.modify fun m => m.cutExit s k)

/-- `check_store_shallow_history` (simple_state.hpp:906-931),
`store_shallow_history` (state_machine.hpp:651-661). -/
def storeShallow (s : Sid) : M W Unit :=
  if P.storesShallow s then
    match P.parent s with
    | none => pure ()
    | some p => do
      histNode P (fun m => m.shKeys (p, P.pos s)) (.shallowNode (p, P.pos s)) s none
      M.modify fun m => { m with
        sh := upd m.sh (p, P.pos s) (some (.deep s))
        shKeys := upd m.shKeys (p, P.pos s) true }
  else pure ()

/-- `store_deep_history_impl` with `deep_history_storer`
(simple_state.hpp:140-167, 629-637) and `store_deep_history`
(state_machine.hpp:672-687): walk outward from `cur` while the context
inherits deep history; store for each context that has it. -/
def storeDeepF : Nat → Sid → Sid → M W Unit
  | 0, _, _ => M.fault .outOfFuel
  | f + 1, cur, leaf =>
    match P.parent cur with
    | none => pure ()
    | some p =>
      if P.inhDeep p then do
        let _ ← getObj p
        (if P.deepH p then do
          histNode P (fun m => m.dhKeys (p, P.pos cur)) (.deepNode (p, P.pos cur)) leaf (some p)
          M.modify fun m => { m with
            dh := upd m.dh (p, P.pos cur) (some (.chain (P.pathBelow (some p) leaf) leaf))
            dhKeys := upd m.dhKeys (p, P.pos cur) true }
        else pure ())
        storeDeepF f p leaf
      else pure ()

/-- `check_store_deep_history` (simple_state.hpp:933-959). -/
def storeDeep (s : Sid) : M W Unit :=
  if P.storesDeep s then storeDeepF P (s + 1) s s else pure ()

/-- The part of `exit_impl` guarded by `performFullExit`
(simple_state.hpp:545-550). -/
def fullExitPart (s : Sid) : M W Unit := do
  runUser (P.exit s) [.exit s] [.exitFail s]
  storeShallow P s
  storeDeep P s

/-- `exit_impl` (simple_state.hpp:504-560). The caller gives one reference
(`pSelf`) away. `case 2` is taken only if the second reference is
`pOutermostUnstableState_`. Leaving without exit (`break`) drops the reference. -/
def exitF : Nat → Sid → Bool → M W Unit
  | 0, _, _ => M.fault .outOfFuel
  | f + 1, s, full => do
    let o ← getObj s
    let m ← M.get
    if o.rc = 1 ∨ (o.rc = 2 ∧ m.pOU = some s) then do
      (if o.rc = 2 then setCtxOU P s else pure ())
      let m ← M.get
      (if m.pOU = none then setCtxOU P s else pure ())
      M.onThrow (if full then fullExitPart P s else pure ()) (release P s)
      match P.parent s with
      | none => release P s
      | some p => do
        addRef p
        release P s
        exitF f p full
    else release P s

/-- `exit_impl` called with enough fuel (contexts have smaller numbers). -/
def exitImpl (s : Sid) (full : Bool) : M W Unit := exitF P (s + 1) s full

/-- Take the reference held by list node `i` (virtual `exit_impl`,
simple_state.hpp:504-514: a typed pointer is made and `pSelf` reset). -/
def takeSlot (i : Nat) : M W Sid := do
  let m ← M.get
  match m.slot i with
  | none => M.fault .nullDeref
  | some t => do
    M.modify fun m => { m with slot := upd m.slot i none }
    pure t

/-- `leaf_state::remove_from_state_list` (detail/leaf_state.hpp:52-64). -/
def leafRemove (s : Sid) (full : Bool) : M W Unit := do
  let m ← M.get
  if m.endIx = 0 then M.fault .badIterator
  else do
    let e := m.endIx - 1
    M.modify fun m => { m with endIx := e }
    let o ← getObj s
    if o.lpos < m.len then do
      let l := o.lpos
      M.modify fun m => { m with slot := upd (upd m.slot l (m.slot e)) e (m.slot l) }
      let m ← M.get
      match m.slot l with
      | none => M.fault .nullDeref
      | some t => do
        let ot ← getObj t
        setObj t { ot with lpos := l }
        let u ← takeSlot e
        exitImpl P u full
    else M.fault .badIterator

/-- The loop of `node_state::remove_from_state_list`
(detail/node_state.hpp:119-131); `is` are the positions still to visit. -/
def removeLoop (rec : Sid → M W Unit) (s : Sid) : List Nat → M W Unit
  | [] => pure ()
  | i :: is => do
    let o ← getObj s
    (match o.inner i with
      | none => pure ()
      | some c => rec c)
    removeLoop rec s is

/-- `remove_from_state_list` (detail/node_state.hpp:95-133,
detail/leaf_state.hpp:52-64). -/
def removeF : Nat → Sid → Bool → M W Unit
  | 0, _, _ => M.fault .outOfFuel
  | f + 1, s, full => do
    let o ← getObj s
    if P.isLeaf s then leafRemove P s full
    else match (List.range (P.regions (some s))).find? (fun i => (o.inner i).isSome) with
      | none => do
        let m ← M.get
        if m.pOU = some s then do
          addRef s
          exitImpl P s full
        else M.fault .assertFail
      | some k =>
        removeLoop (fun c => removeF f c full) s
          (List.range' k (P.regions (some s) - k)).reverse

def remove (s : Sid) (full : Bool) : M W Unit := removeF P (P.n - s) s full

/-- `terminate_impl(state, performFullExit)` (state_machine.hpp:933-966). -/
def terminateState (s : Sid) (full : Bool) : M W Unit := do
  M.modify fun m => { m with ico := false }
  let m ← M.get
  if m.pOU ≠ none then remove P s full
  else if m.endIx = 0 then M.fault .badIterator
  else if m.endIx = 1 then do
    M.modify fun m => { m with endIx := 0 }
    let t ← takeSlot 0
    exitImpl P t full
  else if m.len > 1 then remove P s full
  else M.fault .assertFail

/-- Emptying queues and histories (state_machine.hpp:927-930). -/
def clearAll : M W Unit := M.modify fun m =>
  { m with evq := [], dq := [], sh := fun _ => none, dh := fun _ => none, shKeys := fun _ => false, dhKeys := fun _ => false,
           qlog := m.qlog ++ [.clear], hlog := m.hlog ++ [.clear] }

/-- `terminate_impl(bool)` (state_machine.hpp:918-931). -/
def terminateMachine (full : Bool) : M W Unit := do
  M.modify fun m => { m with fullExit := true }
  let m ← M.get
  (match m.outermost with
    | none => pure ()
    | some s => terminateState P s full)
  clearAll

/-! ## Construction -/

/-- `set_context` (simple_state.hpp:607-613, detail/state_base.hpp:104-108). -/
def setContext (s : Sid) : M W Unit := do
  (match P.parent s with
    | none => pure ()
    | some p => addRef p)
  let o ← getObj s
  setObj s { o with ctxSet := true }
  addInner P (P.parent s) (P.pos s) s

/-- The user's constructor. A `simple_state` constructor that uses the machine
fails an assertion (simple_state.hpp:216-232, 643-656). -/
def runCtor (s : Sid) : M W Unit := fun m =>
  if P.isSimple s ∧ (P.ctor s m.view m.world).cmds ≠ [] then .fault .assertFail
  else runUser (P.ctor s) [.enter s] [.enterFail s] m

/-- `add_impl` (state_machine.hpp:969-993): a leaf is put into the state list. The
new list node (if one is needed) is allocated first. -/
def addLeaf (s : Sid) : M W Unit := do
  let m ← M.get
  (if m.endIx = m.len then do
    allocate P (.leafNode s)
    M.modify fun m => { m with len := m.len + 1 }
  else pure ())
  (match m.slot m.endIx with
    | none => pure ()
    | some t => releaseBase t)
  addRef s
  let o ← getObj s
  setObj s { o with lpos := m.endIx }
  M.modify fun m => { m with slot := upd m.slot m.endIx (some s), endIx := m.endIx + 1 }

/-- `is_in_highest_orthogonal_region` (state_machine.hpp:995-1004). -/
def isHighest (s : Sid) : Bool := P.pos s + 1 == P.regions (P.parent s)

/-- `add` (state_machine.hpp:609-625). -/
def addToMachine (s : Sid) : M W Unit := do
  (if P.isLeaf s then addLeaf P s else pure ())
  let m ← M.get
  if m.ico ∨ (isHighest P s ∧ m.pOU = P.parent s) then do
    M.modify fun m => { m with ico := false }
    setOU (if P.isLeaf s then none else some s)
  else pure ()

/-- A newly allocated state object (detail/node_state.hpp:60-70,
detail/state_base.hpp:73-78, detail/counted_base.hpp:56-60). -/
def newObj : Obj := ⟨0, false, fun _ => none, false, 0⟩

/-- `shallow_construct` (simple_state.hpp:596-605 for `simple_state`: user
constructor first, then `set_context`; state.hpp:48-51, 80-92 for `state`:
`set_context` in the base constructor, before the user's). Returns with one
reference held by the caller. -/
def shallowConstruct (s : Sid) : M W Unit := do
  allocate P (.object s)
  let m ← M.get
  if (m.heap s).isSome then M.fault .doubleConstruct
  else do
    setObj s newObj
    (if P.isSimple s then do
      M.onThrow (runCtor P s) (baseDtor P (release P) s)
      addRef s
      setContext P s
    else do
      setContext P s
      M.onThrow (runCtor P s) (baseDtor P (release P) s)
      addRef s)
    M.onThrow (addToMachine P s) (release P s)

/-- The mutually recursive construction functions: `S::deep_construct`
(simple_state.hpp:587-594), an element of an inner initial list (plain or
history, state_machine.hpp:1025-1052), `detail::constructor<List>::construct`
(detail/constructor.hpp:39-109) and `deep_construct_inner`
(simple_state.hpp:873-904). -/
inductive Task
  | deep (s : Sid)
  | target (t : Target)
  | chain (above : List Sid) (t : Target)
  | inners (l : List Target)

/-- Look-up in `construct_with_history_impl` (state_machine.hpp:1025-1052). -/
def lookupHist (k : TKind) (d : Sid) : M W (Option HFn) := fun m =>
  match P.parent d with
  | none => .ok none m
  | some p => match k with
    | .plain => .ok none m
    | .shallow => .ok (m.sh (p, P.pos d)) m
    | .deep => .ok (m.dh (p, P.pos d)) m

/-- The stored function is called with the context pointer of the default
state; anything else than a construct function for that context would be a
wrong `reinterpret_cast` (state_machine.hpp:1040-1050). -/
def hfnTask (d : Sid) : HFn → Option Task
  | .deep s => if P.parent s = P.parent d then some (.deep s) else none
  | .chain cs t => if P.parent (cs.headD t) = P.parent d then some (.chain cs ⟨.plain, t⟩) else none

def build : Nat → Task → M W Unit
  | 0, _ => M.fault .outOfFuel
  | f + 1, .deep s => do
    shallowConstruct P s
    M.finally' (build f (.inners (P.init s))) (release P s)
  | _ + 1, .inners [] => pure ()
  | f + 1, .inners (t :: ts) => do
    build f (.target t)
    build f (.inners ts)
  | f + 1, .target ⟨k, d⟩ => do
    let h ← lookupHist P k d
    match h with
    | none => build f (.deep d)
    | some h => match hfnTask P d h with
      | none => M.fault .badCast
      | some t => build f t
  | f + 1, .chain [] d => build f (.target d)
  | f + 1, .chain (x :: cs) d => do
    shallowConstruct P x
    let i := P.pos (cs.headD d.st)
    M.finally' (do
      build f (.inners ((P.init x).take i))
      build f (.chain cs d)
      build f (.inners ((P.init x).drop (i + 1)))) (release P x)

/-- Recursion fuel that is sufficient for every well-formed chart. -/
def buildFuel : Nat := (P.n + 1) * (P.n + 300)

/-- `initial_construct` (state_machine.hpp:702-706). -/
def initialConstruct : M W Unit := build P (buildFuel P) (.deep P.initial)

/-! ## Transition and termination as reactions -/

/-- Call of an optional user action (`no_transition_function`
simple_state.hpp:104-110 or `transition_function` 112-137). -/
def runAction : Option Nat → M W Unit
  | none => pure ()
  | some a => runUser (P.action a) [.act a] [.act a]

/-- A pointer to a context is usable: the state is alive. -/
def checkCtx : Option Sid → M W Unit
  | none => pure ()
  | some p => do
    let _ ← getObj p
    pure ()

/-- `terminate_as_part_of_transit` (state_machine.hpp:596-600). -/
def terminateInTransit (t : Sid) : M W Unit := do
  let m ← M.get
  terminateState P t m.fullExit
  M.modify fun m => { m with ico := true }

/-- `transit_impl` without RELAX_TRANSITION_CONTEXT
(simple_state.hpp:698-725, 781-803) to a state or to a history, and `terminate_as_part_of_transit`
(state_machine.hpp:596-600). `pCommonContext` keeps the common context alive. -/
def transitDefault (s : Sid) (d : Target) (act : Option Nat) : M W Unit := do
  match P.termState s d.st with
  | none => M.fault .assertFail
  | some t => do
    let _ ← getObj t
    let c := P.commonCtx s d.st
    (match c with
      | none => pure ()
      | some p => addRef p)
    M.finally' (do
      let m ← M.get
      terminateState P t m.fullExit
      M.modify fun m => { m with ico := true }
      checkCtx c
      runAction P act
      build P (buildFuel P) (.chain (P.pathBelow c d.st) d))
      (match c with
        | none => pure ()
        | some p => release P p)

/-- The part of `transit_impl` that exits states and runs the action, with
BOOST_STATECHART_RELAX_TRANSITION_CONTEXT (simple_state.hpp:727-780). `q` is the TransitionContext, `t` the
termination state, `c` the common context. -/
def relaxedExit (s t : Sid) (c q : Option Sid) (act : Option Nat) : M W Unit :=
  let proposed := (P.actionCtxs s).idxOf q
  let uml := (P.ctxList s).idxOf c + 1
  let real := (P.actionCtxs s).getD (min proposed uml) none
  if proposed = 0 ∧ P.isLeaf s = true then do
    checkCtx (some s)
    runAction P act
    terminateInTransit P t
  else if uml ≤ proposed then do
    terminateInTransit P t
    checkCtx real
    runAction P act
  else match real with
    | none => M.fault .assertFail
    | some r => do
      addRef r
      M.finally' (do
        terminateInTransit P r
        checkCtx (some r)
        runAction P act) (release P r)
      terminateInTransit P t

/-- `transit_impl` with BOOST_STATECHART_RELAX_TRANSITION_CONTEXT
(simple_state.hpp:698-780, 787-803) and transition context `q`. -/
def transitRelaxed (s : Sid) (d : Target) (q : Option Sid) (act : Option Nat) : M W Unit := do
  match P.termState s d.st with
  | none => M.fault .assertFail
  | some t => do
    let _ ← getObj t
    let c := P.commonCtx s d.st
    (match c with
      | none => pure ()
      | some p => addRef p)
    M.finally' (do
      relaxedExit P s t c q act
      build P (buildFuel P) (.chain (P.pathBelow c d.st) d))
      (match c with
        | none => pure ()
        | some p => release P p)

/-- `transit_impl` as configured (simple_state.hpp:698-803); the TransitionContext is that of the action
(simple_state.hpp:309-327). -/
def transit (s : Sid) (d : Target) (act : Option Nat) : M W Unit :=
  if P.relaxed = true then transitRelaxed P s d (P.ctxOf act) act else transitDefault P s d act

/-- `simple_state::terminate` (simple_state.hpp:327-331),
`terminate_as_reaction` (state_machine.hpp:590-594). -/
def terminateReaction (s : Sid) : M W Unit := do
  let m ← M.get
  terminateState P s m.fullExit
  setOU none

end SC
