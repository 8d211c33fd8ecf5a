# Formal model of Boost.Statechart: design

Source: `/repo/include/boost/statechart` (read as text, never built).
Prover: Lean 4.33.0, project in `lean/`, modules in `lean/Verif/`.

## 1. Trusted base

* Lean's kernel.
* The axioms reported by `#print axioms` for each theorem: at most `propext`,
  `Classical.choice`, `Quot.sound`. No axiom is added. No `sorry`, `admit`,
  `native_decide`, `bv_decide`.
* The faithfulness of the model to the C++ text (hand translation; each
  definition cites file and lines), and the statements of the theorems.

## 2. What is modelled, and how

The library is a set of class templates. A *program* `P` of the model is a
statechart (the compile-time data) together with all user callbacks; every
theorem quantifies over all programs.

Model of the code (each definition cites file and lines):

| Module | Code modelled |
|---|---|
| `Chart` | static structure: state types, contexts, orthogonal positions, inner initial lists, history modes, reaction lists; `WF` = the library's static asserts plus documented restrictions; MPL context-list computations (`constructor.hpp`, `transit_impl`) |
| `Machine` | run-time state: heap of state objects with intrusive reference counts, `currentStates_`/`currentStatesEnd_`, `pOutermostState_`, `isInnermostCommonOuter_`, `pOutermostUnstableState_`, `performFullExit_`, the two history maps, the two event queues, `pTriggeringEvent_`; user code; reference counting and destructors |
| `Exec` | construction, exit, removal, transit, terminate (simple_state, state, node_state, leaf_state, state_machine), histories |
| `Dispatch` | reactions, `react_impl`, `send_event`, exception translation, `terminator`, the API functions |
| `Relax` | lemmas about `transit_impl` with BOOST_STATECHART_RELAX_TRANSITION_CONTEXT; the code is `transitRelaxed` in `Exec`, and `transit` chooses by `Chart.relaxed` |
| `Cast` | `state_cast`, `state_downcast`, `state_iterator` |
| `HistoryKey` | `history_key` and its order |
| `Result` | `result`, `safe_reaction_result` and their consistency assertions |
| `EventRef` | event reference counting, `intrusive_from_this` |
| `Rtti` | `detail/rtti_policy.hpp`: type information of states and events, with both settings of `BOOST_STATECHART_USE_NATIVE_RTTI` and `NDEBUG` |
| `Fifo/Worker`, `Fifo/Threads` | `fifo_worker`, alone and with concurrent producers |
| `Fifo/Scheduler` | `fifo_scheduler`, `processor_container`, handles |
| `Fifo/Shared` | `fifo_scheduler` called by other threads while one thread runs its work items |
| `Fifo/Async` | `asynchronous_state_machine`, `event_processor`: the machines of `Dispatch` as processors of a scheduler |
| `Fifo/AsyncShared` | the same, with other threads that use the scheduler |

Specifications, independent of the model's functions: `Spec` (exit order, regions), `EntrySpec` (what is entered given
what is remembered), `ReactSpec` (search for a reaction, transitions, terminations), `QueueSpec` (abstract queue machine),
`HistSpec` (memory as a function of the past), `Props/Vocab` (forests, legal configurations, life cycles, orders), `Ref` (a complete state machine
without pointers, counts, list nodes and loops over them; about 500 lines, executable), `Calm` (the same for code that does not throw; about 250 lines),
`AnyOrder.Run` (`Calm` with the innermost states in any order), `Fifo/Hub` (a queue of operations on machines of `Ref`, for C58),
`Fifo/HubShared` (the same as sequences of steps, with other threads acting before each of them, for C61).

Proof infrastructure: `Wp` (weakest preconditions), `ChartLemmas`, `Inv` (structural invariant), `Release`, `Release2`,
`Exit`, `Remove`, `Term`, `Construct`, `Build`, `Transit`, `React`, `Send`, `Api`, `Api2`, `Reach` (one lemma per
library function, up to all sequences of API calls), `Watch`, `Tidy`, `Tidy2` (what user code sees), `Pres` (relations kept by every library function: `Keeps`), and its instances
`History`, `Defer`, `Trig`, `Raise`, `Queue`, `Released`, `HistLog`; `Refine1` to `Refine8` (forward simulation between the library and `Ref`, one
lemma per library function), `Calms` (`Ref` without exceptions is `Calm`), `Cascade` (turns of the queue on `Ref`), `AnyOrder` (`Calm` with permuted lists).

Property theorems: `Props/*`, `HistoryKey`, `Result`, `EventRef`, `Demo/*`. `Check` and `Example` provide a concrete program
(nesting, orthogonal regions, both histories, all kinds of reactions, throwing code) that meets the
hypotheses; the examples beside the theorems use it.

Ghost state (written, never read by the modelled code): `trace` (entries, exits, destructions, actions, reactions, each with the
triggering event at the time), `qlog` (queue operations), `hlog` (completed exits and clearing of history), `xlog` (exceptions raised by
user code and allocations). The specifications replay these logs.

Code is modelled as total functions in a state-and-exception monad
`M α := Mach → Res α`, `Res = ok | thrown | fault`. `fault` is a separate
outcome for everything that is undefined behaviour or a failing
`BOOST_ASSERT` in the C++ code: null dereference, access to a destroyed
state object, list iterator out of range, violated assertion, bad
`reinterpret_cast`, recursion fuel exhausted. "No fault" is a theorem.

User code is an arbitrary function of an opaque world value and a view of the
machine (the range `state_begin()..state_end()`, the state objects reachable from it, `terminated()`,
`triggering_event()`); it returns a
new world, a list of commands (`post_event`, `clear_shallow_history`,
`clear_deep_history`) and optionally an exception. Constructors, `exit()`,
transition and in-state actions, custom reactions, `unconsumed_event` may
throw; destructors may not. Every allocation (state object, list node, history
map node, deferral queue node) is preceded by an allocation oracle that may
throw.

Simplifications (each is repeated at the definition concerned):

* State objects are keyed by their type. The library can only hold one object
  of each state type (a state type has one context type and one region);
  creating a second one is a fault of the model and is proved unreachable.
* `intrusive_ptr` locals are modelled where they are the last owner or keep an
  object alive across user code; increment/decrement pairs that are adjacent
  are elided.
* A destructor that throws, and an exception that leaves a cleanup during unwinding, is a fault (`std::terminate` in C++).
* A custom reaction calls `transit`, `terminate`, `defer_event`, ... as its last action (it returns their result); user code
  that throws between that call and the return is not modelled. The documentation asks for this (doc/tutorial.html:676).
* A history map allocates a node only for a key it does not contain (`shKeys`, `dhKeys`). If this throws, the exit is logged as `cut`:
  completed, but recorded only in the histories that come before the one that failed (C44).
* The restore functions stored in history maps are the data that determine them (`deep s` or a path), not function pointers.
* Callbacks do not re-enter `process_event`, `initiate`, `terminate` on the
  same machine (doc/tutorial.html:1682-1686: "strictly non-reentrant").
* Calls of the scheduler made inside callbacks of an asynchronous machine are executed when the operation on the machine ends (same queue
  order); see `Fifo/Async`.
* `Fifo/Scheduler`: the insertion into `processorSet_` throws for the handles a parameter says (`Fun.node`; each handle is inserted once). Holders, functors and
  nodes of the work queue are allocated by the caller before anything changes; lack of memory there is the same as a caller that throws instead of calling.
* `Fifo/Shared`: other threads queue one work item at a time (`queue_work_item` holds the mutex; `Fifo/Threads` has the steps of the locking) before each
  access of the running code to shared data; a holder is made and its creation is queued in one step, as nobody else knows the holder before. The waiting of
  `dequeue_item` is in `Fifo/Threads`; here a worker that waits just makes no step. `terminated()` is called by the thread that runs `operator()` only, as
  fifo_worker.hpp 110-111 asks for. Other threads change data of user code as a relation `U` allows (any relation in C49 and in C51 for processors).
* `Fifo/AsyncShared`: other threads change the environment, but not the machines, and not in the middle of an operation on a machine.
* Events and exceptions are opaque values; dispatch by static event type is a
  match on an event-type id. By C50 this is what comparing
  `dynamic_type()` and `static_type()` comes to, with either setting of `BOOST_STATECHART_USE_NATIVE_RTTI`, for classes that are their own `MostDerived`. Allocator
  parameters and configuration macros other than this one, `NDEBUG` and the relaxed transition context are not modelled.
* `process_queued_events` may really run forever when user code keeps posting.
  The model takes a step bound `k` and reports whether the queue was drained;
  theorems hold for all `k`.

## 3. Properties: how they are proved

* C01 safety: invariant `Inv L m` relating reference counts to the tree, the
  leaf list, the unstable-state pointer and the stack references `L`;
  Hoare-style lemma for each function: `Inv` in, no fault, `Inv` out.
  Induction over call sequences (`Reach`).
* C02, C03, C04, C16: consequences of the same invariant, stated over the
  active states/leaf list by a separate specification.
* C05: the ghost trace of enter/exit/destroy observations is replayed by an
  independent legality checker; invariant "replay succeeds and yields the
  active set".
* C06 - C14, C20: exact trace theorems for transitions, terminations and calls.
* C10: the MPL list computation against "deepest common proper ancestor".
* C15, C17, C29, C35: post-conditions of the exception paths; `xlog` tells which exceptions were raised.
* C18, C39: every function's lemma also says what a run that throws did (`ExitsUntil`, `Begins`, `TransitsUntil`, `SearchUntil`); the unstable
  state is determined from the observed calls (`OfferedTo`).
* C19: refinement of the nested loops by a search relation (`Sweep`, `Search`, `Local`).
* C21, C22, C38: replay of the queue log by an abstract two-queue machine; invariant
  on the deferral flags.
* C23, C24, C25: the history maps equal a function of the log of exits and clearings (`Exact`); entry is specified relative to it. C44 covers
  exits that could not be recorded completely.
* C26: trace entries carry `triggering_event()`.
* C27: search over leaf lists and contexts against "exists active state".
* C40: user code is arbitrary, so it may take notes of what it sees. `Prog.watch` adds this to any program; `Tidy` is an
  invariant that holds at every call of user code (unlike `Inv`) and includes that all notes are right.
* C42: the notes of C40; `terminated()` is first related to the outermost state according to the calls (`topOf`), then to
  the states alive.
* C43: the turns of C22 with the potential `t (t - 1) / 2 + c`, where `t` counts all events that are or will be there and
  `c` those that are pending or will be posted: a deferral lowers `c`, any other turn lowers `t`.
* C28, C30 - C34, C50: separate small models, invariants by induction over their steps.
* C41: invariant over the executions of a scheduler whose processors are machines; each machine is one obtained by feeding a
  fresh machine (`Fed`), so all theorems about `Reach` apply to it.
* C47: invariant over all code, also code that calls `operator()` again: the references to a holder are those of `processorSet_`, of queued
  creations and of running functions (`Frames`), so the processor exists as long as one of these does.
  Releasing a reference that is not held is a fault; `nulls` records each null dereference with the log at that time (`C47_safe`).
* C49: the invariant of C47 is also kept by the steps of other threads. Between taking an item out and its first action, these steps commute with taking
  the item out (`Popped.others`).
* C51: the invariants of C32 and C41 are kept by the steps of other threads.
* C52: leads-to reasoning over infinite executions with strong fairness; a spurious return of `wait` is never counted on. Between a call and its
  effect the measure is the number of items still before the one in question.
* C53: forward simulation. `abs` forgets pointers, counts, links and positions; each library function, started in a machine that meets the invariant,
  does to `abs m` what the corresponding operation of `Ref` does. As library and reference machine are functions and the library never faults, the
  simulation holds in both directions (`C53_library`, `C53_reference`). `Ref` takes from the model the chart, the vocabulary of observations, the
  exit order of `Spec` and the functions on context lists of `Chart`; it has no heap. `Plain`: user code does not read the private members of state
  objects, which the model's `View` contains. Where the code is peculiar, `Ref` has to be so as well, and shows it: `first`
  (`isInnermostCommonOuter_`), `unstable`, `nodes` (list nodes are reused, which matters for `bad_alloc` only), `drop` (what goes away when an exception
  leaves a scope that kept a state alive).
* C54: if nothing throws, most of `Ref` is idle. `Calm` is what remains, written as plain functions from states to states; `Calms` proves that `Ref`
  computes them (`Does`), with C53 the library does. The function `Calm.run` is the shortest complete description of the library's semantics in this
  project; `leaveAndAct` shows that the three cases of relaxed transition context are two.
* C55: on the reference machine. Each turn lowers the multiset of the ranks of all events in the two queues (Dershowitz-Manna order, the only thing used
  from Mathlib), or it defers the event; then the multiset stays the same and the queue of posted events becomes shorter. A reaction that defers and posts
  breaks the second case: `wheel` runs forever.
* C56: `AnyOrder.Run` permutes the list of innermost states before every dispatch, all else is `Calm`. Every function of `Calm` keeps the relation
  "equal up to the order of that list" (`Twin`, `Even`); that the list has no duplicates comes from the library's invariant, by C54. Only the search
  itself depends on the order, and the searches from all innermost states find the same state (`Unambiguous`, `ask_perm`): they are pairwise in different
  regions (`leaves_separate`).
* C57: the invariant `Inv` says of the number of list nodes that as many innermost states existed at some time of the past (`Peak`, a statement about a
  prefix of the observed calls). Only `add` creates nodes, and only if all of them are in use. The entries of the history maps are those that the log of
  exits and clearing asks for (`Held`, needed for C25 anyway). `width` computes the bound from the chart, by induction on the nesting of states.
* C59: on the calm machine. `Independent` says what it means that a region has nothing to do with the rest. Handling an event of the region, two states that
  agree in the region do the same there (`Own`); handling another event, a state goes on agreeing with any state it agreed with (`Other`); one lemma of each kind
  per function of `Calm`. The order of the region's leaves in the list may depend on the other regions, so an event of the region must have one
  possible handler (`ask_filter`, `ask_perm` from C56). `Feed` interleaves. `Ex.C59_deferral_connects` shows that "does not defer" cannot be dropped.
* C58: `Hub.of` forgets counts, holders and functors, and applies `abs` to each machine; every step of the scheduler is a step of `Hub` on what remains
  (`work_hub`, `loop_hub`, `client_hub`), so the simulation is a function and holds in both directions. The invariant is that of C32 (`SInv`) and: a holder is
  full iff its machine exists, and machines are reachable ones (`MInv`), which makes C53 applicable to each operation. The simplifications of `Fifo/Async` apply
  to both sides: a machine's callbacks call the scheduler at the end of the operation, and an illegal `initiate()` is not executed but noted (`bad`).
* C61: as C58, but the simulation is a relation: `Script` is a work item as a sequence of steps of the reference scheduler, and each step of the scheduler among other
  threads is one step of the script or none (`Follows`). Between the reading and the writing of the user's state by one operation, other threads may queue work; it is as if they did
  it afterwards (`Others.over`), and their changes of the environment in between are lost on both sides. Conversely (`Props/SharedHubBack`), the
  script may be ahead by steps of other threads (`Lag`), which the library takes before its next step. This direction is about calls that end, not about moments during a
  call.
* C62 - C65, C67, C68: `Demo/Basic` reduces a statement about a program that feeds inputs to the library to one step of `Calm` (`fed_follows`, by C54). The steps are
  computed symbolically on `Core`, which is a state of `Calm` without histories and trace.
* C66: `Demo/PingPong` computes the turns of the reference scheduler of C58 by induction on the number of returns. What a player does is computed on `Calm`.
* C69, C70: `Recast` shows function by function that what does not react to events does not depend on the reactions. `localReact_first`: the loop over the list of
  reactions finds the first one that fits. For C70, `Same` is `Blind` for two different functions, with logs that may differ in the names of actions and
  functions `react`; that a call on the second machine is legal and does not fault comes from C01 for the first one.
* C71: `Recast` has the macro as a parameter. `uml_le`: an action that fits is a member of a context at or after the common one in the list of possible transition contexts,
  hence `transit_aligned`: both versions of `transit_impl` are the same function of the machine; the rest of the library follows by congruence.
* C72: on the reference machine of C53 the base class of a state only decides when `enter` attaches it to its context; attaching commutes with the
  constructor (`enter_order`), the rest is congruence, and C53 carries the result to the library.
* C73: `ctx_up`: common context and termination state of a transition out of `S` are the same for all states inside `S`, and `transit_impl` depends on the
  source only by them. `Le`: a function does what another one does unless that one faults; faults are excluded by C01.
* C74: `Only` (Verif/Only.lean): what leaves the functions of the library that construct, exit and react is an exception of user code or of an allocation (`CanRaise`).
  `handle_futile`: an exception event that no state reacts to leaves the machine as it was, apart from the flag `performFullExit_`; the original exception goes on. The flag does not
  matter, as the following termination sets it first (`LeT.guardTerm`). Both translators are compared with the one that leaves out all useless translations, and faults are excluded by C01.
* C75: `Eqv` (Verif/Recode.lean): two functions do the same in all machines whose states, histories and log of constructor calls are within the set, and stay there. Every function of
  the library accesses a state object before it uses the code of the state, so the state is in the set; construction starts from destinations, initial states and histories.
* C76: `Deaf` (Verif/Unsent.lean): two functions do the same in all machines whose queued and deferred events, current event and logged events are in the set, and keep these events there. Functions
  that do not react to events are equal by Verif/Recast.lean; the first fitting reaction (C69) is the only one that counts.
* C77: `Only` (Verif/Only.lean, continued in Verif/Props/Throws.lean): which exceptions can leave a function of the model. `Born` (Verif/Born.lean): an exception that leaves a function was raised in it, or before it inside the same call (rethrown by exception handling). bad_cast of `state_cast` is not part of these calls (C27).
* C48: a relation between machines that differ only in logs (and, if they are terminated, in `isInnermostCommonOuter_`; and in allocated nodes) is kept by
  every function of the model (`Blind`, `Near`). Reference counts, links, positions and the remaining members of a machine between calls are functions of
  what C48 lists, by the invariant (`Alike.core`). `Blind` also shows that the logs of the model are not read by it.
* C36: false in general; witness by evaluation and partial theorem.
* Partial because of an assumption the statement does not make: C02, C05 (legal `initiate()`), C23, C24 (every exit recorded, as with `HistAlloc`), C25
  (termination other than by `terminate()` or an unhandled exception), C32 (flat code, no throwing constructor). `MANIFEST.json` names what is missing. The other whole-machine properties are quantified over
  the same reachable machines (`Reach`, `Call.legal`): after a call of `initiate()` as in finding 1 they say nothing.
* C37: `transit` is `transitDefault` or `transitRelaxed`, depending on `Chart.relaxed`; all whole-machine theorems (C01 - C44) are about both
  configurations unless they say `relaxed = false`. C37 says what is different.
* C18, C45, C60: the unstable state chosen is `SentTo`: an unstable state, and the outermost one unless `relaxed = true` and the interrupted work shows a `LateExit`: an exit
  after an action that came after a destruction (`SentTo.offeredTo`). Only then it need not be the outermost one (finding 14; C45 is partial for this reason). An
  interrupted transition whose action is a member of the innermost common context or of a context outside it has no such exit (`Fits.early`, `Broken.not_late`): C60.
* C46: a transition enters a state in every region it exits a state of, unless it exits the region's owner. An exception leaves regions empty only in unstable states; the
  exception event is offered to the outermost one, and its reaction counts only if it destroys some state (`Mends`), i.e. if it is a transition or a termination of that state or an outer one.

## 4. Disagreements between code and documentation

1. C36. `initiate()` calls `terminate()`. If an `exit()` throws there and an
   `exception_translator` is used and the exception event is handled by a
   transition, `terminate()` returns normally although the machine is running;
   `initiate()` then constructs a second outermost state. The first one stays active when the machine is terminated later
   (`terminated()` is true then) and is destroyed only with the member `currentStates_` (`Ex.C36_zombie`).
2. The reference manual says `transit` exits "all currently active direct and
   indirect inner states of the innermost common context". The code exits
   only those in the orthogonal region of the source (C07).
3. `processor_container::create_processor_impl0` inserts the holder before it
   runs `new Processor`. If that throws, the handle stays valid but refers to an empty
   holder; the next queued operation dereferences null (C32).
   The same happens while the constructor runs, if it queues an event for its own processor and calls `operator()` (C47, `Ex.rashly`).
   If the insertion throws for lack of memory, the handle is dead: all operations for it are discarded (C32).
4. If `unconsumed_event` throws, the remaining posted events stay queued; the
   next `process_event` dispatches its argument before them (C29).
5. A reaction of an outer state shared by several active leaves that forwards
   is executed once per leaf (C19).
6. If a work item or processor calls `operator()` of its own scheduler, a destruction executed there does not take effect while a call of the
   processor is running (C47); operations queued after the destruction still reach it (`Ex.C32_nested`).
7. Any state that ever deferred an event releases all deferred events when it is destroyed, not only those it deferred (C22).
8. With the relaxed transition context an action that clears history runs before some exits store history, so the
   entered states can differ from the default configuration (C37, `C37_clearing_matters`).
9. When an `exit()` throws after a state in another region was already exited, outer states of the throwing state that have no
   other inner state are destroyed without a call of their `exit()` (C39, example in `Props/Handling`).
10. If `exit()` throws in `terminate()` and the reaction to the exception event terminates the rest, `terminate()` returns
   normally without clearing histories and queues (C13). If `initiate()` was called, it goes on with the initial entry, which then restores
   histories of the old configuration instead of entering the default states (C25, `Ex.C25_history_survives`).

11. Inside user code the queries do not cover all active states: a state is found only if some innermost state at or inside it has
   been added and is not being left. E.g. the constructor or `exit()` of an innermost state does not find its own outer states unless
   another region has an innermost state. `terminated()` is then not equivalent to `state_begin() == state_end()` (C40,
   `Ex.C40_terminated_differs`); between calls it is (C03). What `terminated()` returns there is C42: it is also true in the
   action of a transition between outermost states.

12. A termination reaction that ends the machine does not clear histories; only `terminate()` and unhandled
   exceptions do (state_machine.hpp:918-931). This has no visible effect, as `initiate()` calls `terminate()` (C09, C25).
13. If inserting into a history map throws (`std::bad_alloc`; only for a region never recorded before), the `exit()` call has been made but is not remembered:
   that region enters its default (`Ex.C23_exit_not_remembered`), and deep histories further outside keep an older entry (`Ex.C24_exit_not_remembered`). C44 says
   exactly what is remembered then.
14. With the relaxed transition context an exception event can be offered to the wrong state. Suppose the context of the action (B) is in one orthogonal region of a
   state A that the transition leaves, and after the action `exit()` of a state in another region of A throws. Then B and A are unstable, but
   `pOutermostUnstableState_` is still B: it was set when the states inside B were exited, and `exit_impl` changes it only if it is null or the state itself.
   The exception event is offered to B. If B reacts with a transition, the machine counts as stable although a region of A is empty
   (C45, `Ex.C45_not_outermost`) and stays so after the call (C46, `Ex.C46_relaxed`), against doc/definitions.html:201-209. This is the only such case
   (`C45_process_event_partial`), and there is none if the action's context is one that is allowed without the macro (C60).
15. `fifo_scheduler` destroys `worker_` before `container_`. A processor that still exists then, and whose destructor uses its scheduler (its
   `processor_context` outlives the worker), uses a queue that has been destroyed (C47, `C47_late`, `Ex.C47_late_destructor`).
16. `BOOST_STATECHART_USE_NATIVE_RTTI` is not only an optimisation: an event of a class that derives from a concrete event (`struct E2 : E1`, `struct E1 :
   event< E1 >`) triggers the reactions to `E1` by default; with the macro it triggers none, but a copy of it made by `post_event` or by a deferral does
   (C50, `Ex.C50_derived_event`). The documentation asks for `MostDerived` to be the most derived class, so this is a trap rather than a bug.
17. If states in two orthogonal regions react to the same event, which one does depends on the past of the machine, not only on its active states: a leaf
   that is left gives its place in `currentStates_` to the last one, and a leaf that is entered is appended. A self-transition in one region thus turns the
   order round (C56, `Ex.C56_past_matters`). The documentation calls the order arbitrary (reference.html, `process_event`), so this is allowed; C56 says
   when it cannot be noticed.
18. Orthogonal regions that share nothing influence each other as soon as both defer events: when a state that has deferred an event is left, the whole
   queue of deferred events is released, and an event deferred in another region is dispatched again although nothing has happened there; a custom reaction that
   defers is called once more (C59, `Ex.C59_deferral_connects`). The documentation says so (reference.html, `~simple_state`), but not where it explains
   deferral (reference.html, `defer_event`; tutorial.html).
19. The example program Keyboard labels the innermost states "Orthogonal region a", "b", "c" in the order of `state_begin()`..`state_end()`. This order is not that of
   the regions: after the first key, region a is shown to be in `ScrollLockOff` (C62, `C62_order_is_not_regions`; compare 17).
20. In the example program PingPong with one scheduler, the player that is told of the end of the game calls `destroy_processor` for itself and `terminate`, but the
   scheduler has been terminated by the other player before these are executed. The two work items stay in the queue, and the player is destroyed by the
   destructor of the scheduler (C66). This is harmless.

## 5. Seeded bugs

`seeded/LOG.jsonl` lists edits of the model that imitate realistic bugs, tried in a scratch copy, with the theorems that
stop being provable.

## 6. The tests of the library, run on the model

`lean/Verif/Conform` runs the model on the state machines of `/repo/test` and compares with what the tests require. Calls and requirements were
extracted from the test sources by a script where possible. These are tests of the model (evaluated by the kernel), not proofs about it; they
show that the model does what the authors of the library expect on the charts the authors chose.

| Test | Module | Result |
|---|---|---|
| TransitionTest (all transitions; exceptions with and without translator; also with relaxed transition context) | Transition | every sequence of constructors, exits, destructors and actions agrees |
| HistoryTest | History | agrees |
| DeferralTest, DeferralBug | Deferral | agrees |
| TerminationTest, StateIterationTest | Termination | agrees |
| InStateReactionTest, CustomReactionTest, TriggeringEventTest, StateCastTest | Reactions | agrees |
| FifoSchedulerTest | Scheduler | agrees; references as constructor arguments are not modelled |
| InvalidChartTest1-3, InvalidTransitionTest1-2, InconsistentHistoryTest1-4, UnsuppDeepHistoryTest | Static | `Chart.WF` is false, and true for the corrected chart |
| TypeInfoTest | TypeInfo | agrees |
| InvalidResultCopyTest, UnconsumedResultTest | Static | agrees |
| InconsistentHistoryTest5-8, InvalidResultAssignTest, InvalidResultDefCtorTest, TuTest | - | no counterpart in the model |

## 7. The example programs of the library

`lean/Verif/Demo` contains the state machines of `/repo/example`, and theorems about what these programs do with any input (C62 - C68). Each is compared with a small
specification in terms of what a user of the program sees. Output and members of the classes are in the environment of the model.

| Program | Module | Not modelled |
|---|---|---|
| Keyboard | Demo/Keyboard | `DisplayStateConfiguration` (only the order of its lines) |
| BitMachine, any number of bits | Demo/BitMachine | `UniqueObject`, the text of `Display` |
| StopWatch | Demo/StopWatch | rounding of `double`; the clock is read once for each call |
| StopWatch2 | Demo/StopWatch2 | as StopWatch |
| Camera | Demo/Camera | - |
| PingPong | Demo/PingPong | `USE_TWO_THREADS`; overflow of the counters; the output |
| Performance, any number of bits | Demo/Performance | the measured times, the output; overflow of the counters |

Not contained: Handcrafted (does not use the library).
