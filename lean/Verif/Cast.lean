import Verif.Machine
/-!
# `state_cast`, `state_downcast` and `context`

None of them changes the machine.  `hit` tells which states match: for `state_cast` those whose type
converts to the target by `dynamic_cast`, for `state_downcast` the one whose type is the target.
-/

namespace SC
variable {W : Type} (P : Prog W)

/-- `outer_state_ptr` (simple_state.hpp:472-480, 854-871): null for an outermost state, otherwise
`pContext_`. -/
def outerStatePtr (s : Sid) : M W (Option Sid) := do
  let o ← getObj s
  if o.ctxSet then pure (P.parent s) else pure none

/-- The inner loop (state_machine.hpp:293-319, 338-350). -/
def searchUp (hit : Sid → Bool) : Nat → Option Sid → M W (Option Sid)
  | _, none => pure none
  | 0, some _ => M.fault .outOfFuel
  | f + 1, some s => do
    let _ ← getObj s
    if hit s then pure (some s)
    else do
      let p ← outerStatePtr P s
      searchUp hit f p

/-- The outer loop (state_machine.hpp:288-320, 333-351): `n` list nodes from node `i` on. -/
def searchLeaves (hit : Sid → Bool) : Nat → Nat → M W (Option Sid)
  | 0, _ => pure none
  | n + 1, i => do
    let m ← M.get
    let r ← searchUp P hit (P.n + 1) (m.slot i)
    match r with
    | some s => pure (some s)
    | none => searchLeaves hit n (i + 1)

/-- What is asked for: a pointer or a reference (state_machine.hpp:101-174).  `bad` stands for
`std::bad_cast`. -/
inductive CastTarget
  | pointer
  | reference (bad : Exc)

/-- `not_found` (state_machine.hpp:125-129, 161-165). -/
def notFound : CastTarget → M W (Option Sid)
  | .pointer => pure none
  | .reference bad => M.throw bad

/-- `state_cast` (state_machine.hpp:283-323); a failing `dynamic_cast` to a reference type throws
inside the loop and is swallowed there. -/
def stateCast (conv : Sid → Bool) (k : CastTarget) : M W (Option Sid) := do
  let m ← M.get
  let r ← searchLeaves P conv m.endIx 0
  match r with
  | some s => pure (some s)
  | none => notFound k

/-- `state_downcast` (state_machine.hpp:325-354), with `dynamic_type` and `static_type`
(detail/rtti_policy.hpp:91-98, 156-163): the ids of two types are equal iff the types are. -/
def stateDowncast (t : Sid) (k : CastTarget) : M W (Option Sid) := do
  let m ← M.get
  let r ← searchLeaves P (fun s => s == t) m.endIx 0
  match r with
  | some s => pure (some s)
  | none => notFound k

/-- `context<>()` of a state (simple_state.hpp:234-254, 672-697) and of the machine
(state_machine.hpp:551-569): `this` tells which states derive from the class asked for; `none` is
the machine.  Reading `pContext_` of an object that no longer exists is undefined. -/
def contextUp (this : Sid → Bool) : Nat → Option Sid → M W (Option Sid)
  | _, none => pure none
  | 0, some _ => M.fault .outOfFuel
  | f + 1, some s => do
    let o ← getObj s
    if this s then pure (some s)
    else if o.ctxSet then contextUp this f (P.parent s)
    else M.fault .assertFail

def context (this : Sid → Bool) (s : Sid) : M W (Option Sid) := contextUp P this (P.n + 1) (some s)

/-- `outermost_context()` and `outermost_context_base()` (simple_state.hpp:216-232, 454-470), which
`post_event`, `state_cast`, `state_begin` and others called on a state go through. -/
def outermostContextUp : Nat → Option Sid → M W Unit
  | _, none => pure ()
  | 0, some _ => M.fault .outOfFuel
  | f + 1, some s => do
    let o ← getObj s
    if o.ctxSet then outermostContextUp f (P.parent s) else M.fault .assertFail

def outermostContext (s : Sid) : M W Unit := outermostContextUp P (P.n + 1) (some s)

end SC
