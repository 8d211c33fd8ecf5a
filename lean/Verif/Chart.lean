/-!
# Static structure of a statechart

Compile-time data of a Boost.Statechart program: which state types exist,
their contexts, orthogonal positions, inner initial lists, history modes and
reaction lists, together with the MPL list computations the library performs
on them. Paths are relative to `/repo/include/boost/statechart`.
-/

namespace SC

/-- Identifier of a state *type* (`MostDerived` of simple_state.hpp:169-191). -/
notation "Sid" => Nat

/-- An event: its dynamic type id (`event_base::dynamic_type`,
event_base.hpp:77-84, rtti_policy.hpp:29-198) and an opaque payload. -/
structure Event where
  ty : Nat
  val : Nat
deriving DecidableEq, Repr

/-- An exception object, opaque. -/
abbrev Exc := Nat

/-- Element of an inner initial list or destination of a transition: a state, `shallow_history<S>` or
`deep_history<S>` (shallow_history.hpp:24-54, deep_history.hpp:24-54). The contexts and the orthogonal position of a history are those of
its default state `S` (shallow_history.hpp:39-45). -/
inductive TKind | plain | shallow | deep
deriving DecidableEq, Repr

structure Target where
  kind : TKind
  st : Sid
deriving DecidableEq, Repr

/-- What a listed reaction does (transition.hpp:29-61, in_state_reaction.hpp:27-64,
termination.hpp:25-62, deferral.hpp:25-62, custom_reaction.hpp:27-65).
Numbers identify user supplied actions / `react` members. -/
inductive RKind
  | transition (dest : Target) (action : Option Nat)
  | inState (action : Option Nat)
  | termination
  | deferral
  | custom (id : Nat)
deriving DecidableEq, Repr

/-- One entry of a state's `reactions` list: the event type it names, `none`
for `event_base` (detail/reaction_dispatcher.hpp:37-111), and its kind. -/
structure Reaction where
  ev : Option Nat
  kind : RKind
deriving DecidableEq, Repr

/-- A statechart. `parent s = none` means the context of `s` is the state
machine itself. `init s = []` means `s` is a leaf (`node_state`/`leaf_state` are
chosen by the size of the inner initial list, simple_state.hpp:77-105). `isSimple` tells `simple_state` from `state`
(state.hpp:30-92). `shallowH`/`deepH` come from `history_mode`
(simple_state.hpp:176-182, 428-440). `relaxed` tells whether BOOST_STATECHART_RELAX_TRANSITION_CONTEXT is defined
(simple_state.hpp:727, doc/configuration.html:135); `actCtx a` is the TransitionContext of which the transition action `a` is a member (simple_state.hpp:318-327; `none`: the machine). -/
structure Chart where
  n : Nat
  parent : Sid → Option Sid
  pos : Sid → Nat
  init : Sid → List Target
  shallowH : Sid → Bool
  deepH : Sid → Bool
  isSimple : Sid → Bool
  reactions : Sid → List Reaction
  initial : Sid
  relaxed : Bool := false
  actCtx : Nat → Option Sid := fun _ => none

namespace Chart
variable (C : Chart)

/-- Recursion body for `ancestors`. -/
def ancF : Nat → Sid → List Sid
  | 0, _ => []
  | f + 1, s => match C.parent s with
    | none => []
    | some p => p :: ancF f p

/-- Proper outer states of `s`, innermost first: `context_type_list` without
the machine at its end (simple_state.hpp:410-412). -/
def ancestors (s : Sid) : List Sid := C.ancF s s

/-- `context_type_list`: outer states, then the machine (`none`). -/
def ctxList (s : Sid) : List (Option Sid) := (C.ancestors s).map some ++ [none]

/-- `no_of_orthogonal_regions` of a context (simple_state.hpp:405-409;
the machine has one region, state_machine.hpp:504-505). -/
def regions : Option Sid → Nat
  | none => 1
  | some p => (C.init p).length

/-- A state is a leaf iff its inner initial list is empty. -/
def isLeaf (s : Sid) : Bool := (C.init s).isEmpty

/-- `inherited_deep_history` (simple_state.hpp:434-437); the machine's is
false (state_machine.hpp:519). -/
def inhDeep (s : Sid) : Bool := (s :: C.ancestors s).any C.deepH

/-- `inherited_deep_history` of a context. -/
def inhDeepCtx : Option Sid → Bool
  | none => false
  | some p => C.inhDeep p

/-- `stores_shallow_history` (simple_state.hpp:430): the context has
shallow history. The machine has none. -/
def storesShallow (s : Sid) : Bool := match C.parent s with
  | none => false
  | some p => C.shallowH p

/-- `stores_deep_history` (simple_state.hpp:438-440): only leaf states store
deep history, if they inherit it. -/
def storesDeep (s : Sid) : Bool := C.inhDeep s && C.isLeaf s

/-- Innermost common context of a transition: `mpl::find_if` of the first element of the
source's context list contained in the destination's (simple_state.hpp:703-709). -/
def commonCtx (s d : Sid) : Option Sid :=
  ((C.ctxList s).find? (fun c => (C.ctxList d).contains c)).getD none

/-- `termination_state_type` (simple_state.hpp:710-718): the element of
`MostDerived :: context_type_list` at the distance of the common context. -/
def termState (s d : Sid) : Option Sid :=
  (some s :: C.ctxList s).getD ((C.ctxList s).idxOf (C.commonCtx s d)) none

/-- `make_context_list` without its last element, which is the destination
itself (detail/constructor.hpp:112-129): the destination's contexts before
`common`, outermost first. -/
def pathBelow (common : Option Sid) (d : Sid) : List Sid :=
  (((C.ctxList d).takeWhile (fun c => !(c == common))).filterMap id).reverse

/-- `mpl::front<context_list_type>` (simple_state.hpp:794-796): the outermost state
entered by the transition. -/
def firstEntered (common : Option Sid) (d : Sid) : Sid :=
  (C.pathBelow common d).headD d

/-- The static asserts on histories (shallow_history.hpp:30-33, deep_history.hpp:30-33): the context of the default state has the history mode;
the machine has none (state_machine.hpp:517-518). -/
def histOK (t : Target) : Bool := match t.kind with
  | .plain => true
  | .shallow => match C.parent t.st with
    | none => false
    | some p => C.shallowH p
  | .deep => match C.parent t.st with
    | none => false
    | some p => C.deepH p

/-- `possible_transition_contexts` (simple_state.hpp:714-715): the source state and its contexts. -/
def actionCtxs (s : Sid) : List (Option Sid) := some s :: C.ctxList s

/-- The TransitionContext that `transit` passes on (simple_state.hpp:309-327): without action it is the outermost context. -/
def ctxOf : Option Nat → Option Sid
  | none => none
  | some a => C.actCtx a

/-- The static assert on transitions (simple_state.hpp:793-796): no
transition between different orthogonal regions. With relaxed transition context the action is a member of the source state or of
one of its contexts (the call of `transition_function` does not compile otherwise, simple_state.hpp:112-137). -/
def transitOK (s : Sid) (d : Target) (a : Option Nat) : Bool :=
  decide (s < C.n) && decide (d.st < C.n) && C.histOK d && (!C.relaxed || (C.actionCtxs s).contains (C.ctxOf a)) &&
  match C.termState s d.st with
  | none => false
  | some t => C.pos t == C.pos (C.firstEntered (C.commonCtx s d.st) d.st)

/-- Static well-formedness: the library's static asserts and language-level
restrictions.
* state types are numbered so that contexts come before their inner states
  (every C++ type is complete only after its context is declared; any forest
  can be numbered this way);
* positions are below the number of regions of the context
  (simple_state.hpp:380-389), inner initial entries name a state of this
  context at its own position (simple_state.hpp:881-890);
* at most 255 regions: `orthogonal_position_type` is `unsigned char`
  (detail/state_base.hpp:33) and the loop detail/node_state.hpp:62-70 does
  not end otherwise;
* `deep_history`/`shallow_history` targets need the history mode
  (deep_history.hpp:30-33, shallow_history.hpp:30-33);
* a state whose context has inherited deep history has at most one region
  (simple_state.hpp:414-426);
* declared transitions satisfy the static assert of `transit_impl`. -/
structure WF : Prop where
  parent_lt : ∀ {s p : Sid}, s < C.n → C.parent s = some p → p < s
  pos_lt : ∀ {s : Sid}, s < C.n → C.pos s < C.regions (C.parent s)
  init_ok : ∀ {s : Sid} {i : Nat} {t : Target}, s < C.n → (C.init s)[i]? = some t →
    t.st < C.n ∧ C.parent t.st = some s ∧ C.pos t.st = i
  init_len : ∀ {s : Sid}, s < C.n → (C.init s).length ≤ 255
  init_shallow : ∀ {s : Sid} {i : Nat} {t : Target}, s < C.n → (C.init s)[i]? = some t → t.kind = .shallow → C.shallowH s = true
  init_deep : ∀ {s : Sid} {i : Nat} {t : Target}, s < C.n → (C.init s)[i]? = some t → t.kind = .deep → C.deepH s = true
  deep_one : ∀ {s : Sid}, s < C.n → C.inhDeepCtx (C.parent s) = true → (C.init s).length ≤ 1
  initial_ok : C.initial < C.n ∧ C.parent C.initial = none
  trans_ok : ∀ {s : Sid} {r : Reaction} {d : Target} {a : Option Nat}, s < C.n → r ∈ C.reactions s → r.kind = .transition d a → C.transitOK s d a = true

end Chart
end SC
