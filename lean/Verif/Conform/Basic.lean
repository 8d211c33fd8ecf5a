import Verif.Cast
import Verif.Check
import Verif.Reach
/-!
# The test suite of the library

The modules in this directory run the model on the state machines of `/repo/test` and compare what happens with what the tests require.
These are tests of the model, not proofs about it. -/

namespace SC.Conform

/-- Calls made by a test: the environment, the calls, each with whether it is required to throw, and the required observations. -/
structure Step (W : Type) where
  world : W
  calls : List (Call × Bool)
  obs : List Obs

def runCalls {W : Type} (P : Prog W) : List (Call × Bool) → Mach W → Option (Mach W)
  | [], m => some m
  | (c, t) :: l, m =>
    match c.run P m with
    | .ok true m' => if t then none else runCalls P l m'
    | .thrown _ m' => if t then runCalls P l m' else none
    | _ => none

/-- Run a test. -/
def conforms {W : Type} (P : Prog W) : List (Step W) → Mach W → Bool
  | [], _ => true
  | s :: l, m =>
    match runCalls P s.calls { m with world := s.world } with
    | some m' => decide ((m'.trace.drop m.trace.length).map (·.2) = s.obs) && conforms P l m'
    | none => false

/-- `exit()` and destructor. -/
def left (s : Sid) : List Obs := [.exit s, .destroy s]

/-- What a test does with a machine after its construction, in order. -/
inductive Do
  /-- A call that has to return. -/
  | call (c : Call)
  /-- A call that has to throw. -/
  | throws (c : Call)
  /-- `state_downcast` and `state_cast` to pointer and to reference have to succeed. -/
  | isIn (s : Sid)
  /-- `state_downcast` and `state_cast` to pointer have to return null, to reference have to throw `std::bad_cast`. -/
  | notIn (s : Sid)
  /-- The states visited by iteration over `state_begin()..state_end()`, sorted. -/
  | leaves (l : List Sid)
  /-- The states visited by iteration over `state_begin()..state_end()` and from there by `outer_state_ptr()`, sorted. -/
  | active (l : List Sid)
  | terminated (b : Bool)
  /-- Number of observations so far that are among `os`. -/
  | count (os : List Obs) (n : Nat)
  /-- Lower bound for this number. -/
  | atLeast (os : List Obs) (n : Nat)
  /-- All observations so far, each with the triggering event. -/
  | trace (l : List (Option Event × Obs))

/-- The states from `s` outwards by `outer_state_ptr()`. -/
def outward {W : Type} (P : Prog W) : Nat → Sid → M W (List Sid)
  | 0, _ => M.fault .outOfFuel
  | f + 1, s => do
    let p ← outerStatePtr P s
    match p with
    | none => pure [s]
    | some p => do
      let l ← outward P f p
      pure (s :: l)

def outwards {W : Type} (P : Prog W) : List Sid → M W (List Sid)
  | [] => pure []
  | s :: l => do
    let a ← outward P (P.n + 1) s
    let b ← outwards P l
    pure (a ++ b)

/-- The numbers below `n` that are in the list. -/
def sorted (n : Nat) (l : List Sid) : List Sid := (List.range n).filter (l.contains ·)

def isOk {W α : Type} (p : α → Bool) : Res W α → Bool
  | .ok a _ => p a
  | _ => false

def isThrown {W α : Type} (x : Exc) : Res W α → Bool
  | .thrown y _ => x == y
  | _ => false

/-- Run a test. -/
def passes {W : Type} (P : Prog W) : List Do → Mach W → Bool
  | [], _ => true
  | .call c :: l, m =>
    match c.run P m with
    | .ok true m' => passes P l m'
    | _ => false
  | .throws c :: l, m =>
    match c.run P m with
    | .thrown _ m' => passes P l m'
    | _ => false
  | .isIn s :: l, m =>
    isOk (· == some s) (stateDowncast P s .pointer m) && isOk (· == some s) (stateDowncast P s (.reference 7) m) &&
    isOk (· == some s) (stateCast P (· == s) .pointer m) && isOk (· == some s) (stateCast P (· == s) (.reference 7) m) && passes P l m
  | .notIn s :: l, m =>
    isOk (· == none) (stateDowncast P s .pointer m) && isThrown 7 (stateDowncast P s (.reference 7) m) &&
    isOk (· == none) (stateCast P (· == s) .pointer m) && isThrown 7 (stateCast P (· == s) (.reference 7) m) && passes P l m
  | .leaves k :: l, m => decide (sorted P.n m.leaves = k) && passes P l m
  | .active k :: l, m => isOk (fun a => decide (sorted P.n a = k)) (outwards P m.leaves m) && passes P l m
  | .terminated b :: l, m => (m.terminated == b) && passes P l m
  | .count os n :: l, m => (((m.trace.map (·.2)).countP fun o => decide (o ∈ os)) == n) && passes P l m
  | .atLeast os n :: l, m => decide (n ≤ (m.trace.map (·.2)).countP fun o => decide (o ∈ os)) && passes P l m
  | .trace k :: l, m => decide (m.trace = k) && passes P l m

/-- User code that does nothing. -/
def quiet (C : Chart) : Prog Unit :=
  { C with
    ctor := fun _ _ w => { world := w }
    exit := fun _ _ w => { world := w }
    dtor := fun _ _ w => (w, [])
    action := fun _ _ w => { world := w }
    react := fun _ _ _ _ w => ({ world := w }, .discard)
    unconsumed := fun _ _ w => { world := w }
    alloc := fun _ w => (w, none)
    translate := fun _ => none }

end SC.Conform
