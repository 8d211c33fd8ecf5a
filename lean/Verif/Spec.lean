import Verif.Machine
/-!
# Independent specification

Nothing here refers to reference counts, list slots or other internals of the
implementation model; only to the chart (contexts, positions), to sets of
active states and to lists of observations.
-/

namespace SC.Spec
open SC

/-- `Below C t s`: `t` is `s` or an outer state of `s`. -/
inductive Below (C : Chart) (t : Sid) : Sid → Prop
  | refl : Below C t t
  | step {s p : Sid} : C.parent s = some p → Below C t p → Below C t s

/-- `t` is a proper outer state of `s`. -/
def Outer (C : Chart) (t s : Sid) : Prop := ∃ p, C.parent s = some p ∧ Below C t p

/-- No active state lives in the region of `s`. -/
def regionEmpty (C : Chart) (act : Sid → Bool) (s : Sid) : Bool :=
  (List.range C.n).all fun c => !(act c && C.parent c == C.parent s && C.pos c == C.pos s)

/-- `s` has no active direct inner state. -/
def childless (C : Chart) (act : Sid → Bool) (s : Sid) : Bool :=
  (List.range C.n).all fun c => !(act c && C.parent c == some s)

/-- The direct outer state of `s` is active (or `s` is outermost). -/
def parentActive (C : Chart) (act : Sid → Bool) (s : Sid) : Bool :=
  match C.parent s with
  | none => true
  | some p => act p

/-- State of the life-cycle checker: the active states and the state whose
`exit()` was called and which therefore has to be destroyed next. -/
structure Life where
  act : Sid → Bool
  pend : Option Sid

/-- One step of the life-cycle checker; `none` = illegal. -/
def lifeStep (C : Chart) (st : Life) : Obs → Option Life
  | .enter s =>
    if st.pend = none ∧ s < C.n ∧ st.act s = false ∧ parentActive C st.act s ∧ regionEmpty C st.act s
    then some ⟨fun x => if x = s then true else st.act x, none⟩ else none
  | .enterFail s =>
    if st.pend = none ∧ s < C.n ∧ st.act s = false ∧ parentActive C st.act s ∧ regionEmpty C st.act s
    then some st else none
  | .exit s =>
    if st.pend = none ∧ st.act s = true ∧ childless C st.act s then some ⟨st.act, some s⟩ else none
  | .exitFail s =>
    if st.pend = none ∧ st.act s = true ∧ childless C st.act s then some ⟨st.act, some s⟩ else none
  | .destroy s =>
    if (st.pend = none ∨ st.pend = some s) ∧ st.act s = true ∧ childless C st.act s
    then some ⟨fun x => if x = s then false else st.act x, none⟩ else none
  | .act _ => if st.pend = none then some st else none
  | .react s _ => if st.pend = none ∧ st.act s = true then some st else none
  | .defer s => if st.pend = none ∧ st.act s = true then some st else none
  | .unconsumed => if st.pend = none then some st else none

/-- Replay of a whole observation list from "nothing active". -/
def life (C : Chart) (tr : List Obs) : Option Life :=
  tr.foldl (fun st o => st.bind fun l => lifeStep C l o) (some ⟨fun _ => false, none⟩)

/-- The active direct inner state of `s` in region `i`. -/
def childAt (C : Chart) (act : Sid → Bool) (s : Sid) (i : Nat) : Option Sid :=
  (List.range C.n).find? fun c => act c && C.parent c == some s && C.pos c == i

/-- Exit order of the active subtree of `s`: regions in descending order,
each inner subtree before its outer state. -/
def exitOrderF (C : Chart) (act : Sid → Bool) : Nat → Sid → List Sid
  | 0, _ => []
  | f + 1, s => ((List.range (C.regions (some s))).reverse.flatMap fun i =>
      match childAt C act s i with
      | none => []
      | some c => exitOrderF C act f c) ++ [s]

def exitOrder (C : Chart) (act : Sid → Bool) (s : Sid) : List Sid := exitOrderF C act (C.n - s) s

/-- `act` without the members of `l`. -/
def without (act : Sid → Bool) (l : List Sid) : Sid → Bool := fun x => act x && !(l.contains x)

/-- Outer states that terminate because they have no active inner state left,
innermost first, starting at context `c`; states in `lock` are kept. -/
def upwardF (C : Chart) (lock : Sid → Bool) : Nat → (Sid → Bool) → Option Sid → List Sid
  | 0, _, _ => []
  | _ + 1, _, none => []
  | f + 1, act, some s =>
    if lock s || !childless C act s then []
    else s :: upwardF C lock f (without act [s]) (C.parent s)

def upward (C : Chart) (lock : Sid → Bool) (act : Sid → Bool) (c : Option Sid) : List Sid :=
  upwardF C lock (C.n + 1) act c

end SC.Spec
