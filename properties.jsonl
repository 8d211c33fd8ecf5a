{"id": "C01", "title": "State-object memory safety", "statement": "For every statechart accepted by the library's static asserts and every user code that obeys the documented contract, no call of initiate(), terminate(), process_event(), post_event() or the destructor ever dereferences a null or dangling state pointer, moves a list iterator out of range, releases a reference that is not held, or fails one of the library's BOOST_ASSERTs, whatever user callbacks do or throw.", "quantifier": "all charts (any number of states, nesting, regions, history), all user callbacks (posting, clearing history, throwing anywhere), all allocation failures, all sequences of API calls in which initiate() is called on a terminated machine (or with null_exception_translator)", "why_tests_cant": "The reference-count arithmetic that decides which states die depends on the tree shape, the exception point and the history of earlier operations; tests cover a handful of shapes.", "anchors": ["include/boost/statechart/state_machine.hpp:terminate_impl", "include/boost/statechart/simple_state.hpp:exit_impl", "detail/node_state.hpp:remove_from_state_list", "detail/leaf_state.hpp:remove_from_state_list", "detail/counted_base.hpp"]}
{"id": "C02", "title": "Well-formed active configuration", "statement": "Whenever an API call returns (normally or by exception) the active states form a legal configuration: the direct outer state of an active state is active, every orthogonal region of an active state holds at most one active state, at most one outermost state is active, and every active non-leaf state has at least one active direct inner state.", "quantifier": "all charts, user code, exception points and API call histories", "why_tests_cant": "Universal over histories and exception points.", "anchors": ["include/boost/statechart/state_machine.hpp:process_event", "include/boost/statechart/state_machine.hpp:add", "include/boost/statechart/simple_state.hpp:exit_impl"]}
{"id": "C03", "title": "terminated() is exact", "statement": "terminated() returns true iff state_begin() == state_end() iff no state object of the machine exists.", "quantifier": "all reachable machines; sequences of API calls as in C01", "why_tests_cant": "Universal over histories.", "anchors": ["include/boost/statechart/state_machine.hpp:terminated", "include/boost/statechart/state_machine.hpp:state_begin", "include/boost/statechart/state_machine.hpp:remove_inner_state"]}
{"id": "C04", "title": "State iteration is exact", "statement": "The range [state_begin(), state_end()) contains every active innermost state exactly once and nothing else.", "quantifier": "all reachable machines; sequences of API calls as in C01", "why_tests_cant": "The list is maintained by swap-with-last and slot reuse; correctness depends on all earlier entries and exits.", "anchors": ["include/boost/statechart/state_machine.hpp:add_impl", "detail/leaf_state.hpp:remove_from_state_list", "include/boost/statechart/state_machine.hpp:state_iterator"]}
{"id": "C05", "title": "Nested lifetimes", "statement": "Every state object whose constructor returned is destructed exactly once; a state is entered only while its direct outer state is active and its region is empty; a state is destructed only when none of its inner states is active; exit() is called at most once per object, after all its inner states are gone and immediately before its destruction.", "quantifier": "all finite executions, including every exception point", "why_tests_cant": "Holds of every prefix of every execution trace; tests see a few traces.", "anchors": ["include/boost/statechart/simple_state.hpp:exit_impl", "include/boost/statechart/simple_state.hpp:~simple_state", "include/boost/statechart/simple_state.hpp:shallow_construct"]}
{"id": "C06", "title": "Transition exit order", "statement": "A transition exits the affected states innermost first, orthogonal regions in descending number, each outer state immediately after its last inner state; exit() is called on each exited state.", "quantifier": "all charts, all stable machines, all source/destination pairs, default transition context (relaxed: C37)", "why_tests_cant": "Depends on arbitrary tree shape and on list order left behind by earlier operations (single-leaf fast path versus recursive path).", "anchors": ["include/boost/statechart/simple_state.hpp:transit_impl", "include/boost/statechart/state_machine.hpp:terminate_impl", "detail/node_state.hpp:remove_from_state_list"]}
{"id": "C07", "title": "Transition exit set", "statement": "A transition from S to D exits exactly the active states at or below the direct inner state of the innermost common context that contains S; states in other orthogonal regions and all outer states keep their identity.", "quantifier": "all charts, all stable machines, all source/destination pairs", "why_tests_cant": "Universal over configurations; relies on reference counts held by stack variables.", "anchors": ["include/boost/statechart/simple_state.hpp:transit_impl", "include/boost/statechart/simple_state.hpp:exit_impl"]}
{"id": "C08", "title": "Transition entry order and result", "statement": "After the exits, a transition enters the states from below the innermost common context down to the destination and then the destination's inner initial tree, depth first with regions in ascending order; outer states on the path get their other regions initialised; afterwards those are exactly the new active states.", "quantifier": "all charts, all stable machines, all source/destination pairs", "why_tests_cant": "Universal over tree shapes.", "anchors": ["include/boost/statechart/detail/constructor.hpp:outer_constructor", "include/boost/statechart/simple_state.hpp:deep_construct", "include/boost/statechart/simple_state.hpp:transit_impl"]}
{"id": "C09", "title": "initiate() enters the initial configuration", "statement": "initiate() on a terminated machine, if no constructor throws, enters exactly the initial state and the tree of its inner initial states depth first with regions in ascending order.", "quantifier": "all charts and histories", "why_tests_cant": "Universal over charts.", "anchors": ["include/boost/statechart/state_machine.hpp:initiate", "include/boost/statechart/state_machine.hpp:initial_construct", "include/boost/statechart/simple_state.hpp:deep_construct"]}
{"id": "C10", "title": "Innermost common context", "statement": "The context up to which a transition exits is the innermost state (or the machine) that is a proper context of both source and destination; in particular a self transition and transitions to or from an inner/outer state exit and re-enter the outer one of the two.", "quantifier": "all pairs of states of all charts", "why_tests_cant": "Compile-time list algorithm; universal over charts.", "anchors": ["include/boost/statechart/simple_state.hpp:transit_impl", "include/boost/statechart/detail/constructor.hpp:make_context_list"]}
{"id": "C11", "title": "Transition action placement", "statement": "The transition action runs exactly once, after all exits and before any entry of that transition, while the innermost common context is still active.", "quantifier": "all charts, sources, destinations, default transition context (relaxed: C37)", "why_tests_cant": "Universal.", "anchors": ["include/boost/statechart/simple_state.hpp:transit_impl", "include/boost/statechart/simple_state.hpp:transition_function"]}
{"id": "C12", "title": "Termination reaction", "statement": "terminate() called by a state exits that state and its active inner states, and then each outer state that has no other active inner state, in exit order; every other state stays active and the machine is stable.", "quantifier": "all charts and stable machines", "why_tests_cant": "Cascade length depends on configuration history (earlier terminated regions).", "anchors": ["include/boost/statechart/simple_state.hpp:terminate", "include/boost/statechart/state_machine.hpp:terminate_as_reaction", "include/boost/statechart/simple_state.hpp:exit_impl"]}
{"id": "C13", "title": "Machine termination", "statement": "state_machine::terminate() (when no exit() throws) exits all active states in exit order calling exit() on each, leaves the machine terminated, and empties posted events, deferred events and all history.", "quantifier": "all reachable machines; sequences of API calls as in C01", "why_tests_cant": "Universal over configurations.", "anchors": ["include/boost/statechart/state_machine.hpp:terminate", "include/boost/statechart/state_machine.hpp:terminate_impl"]}
{"id": "C14", "title": "Machine destruction", "statement": "~state_machine() destructs all active states innermost first, highest region first, and never calls exit().", "quantifier": "all reachable machines; sequences of API calls as in C01", "why_tests_cant": "Universal over configurations.", "anchors": ["include/boost/statechart/state_machine.hpp:~state_machine"]}
{"id": "C15", "title": "Unhandled exceptions terminate", "statement": "If process_event(), initiate() or terminate() propagates an exception raised while reacting (not from unconsumed_event()), then on return all states have been destructed without further exit() calls, the machine is terminated, and queues and history are empty; unless an exception escaped from the exception event's own reaction, the propagated exception is the original one.", "quantifier": "all exception points in all executions, both exception translators; sequences of API calls as in C01", "why_tests_cant": "Every user callback and allocation is a crash point.", "anchors": ["include/boost/statechart/state_machine.hpp:terminator", "include/boost/statechart/state_machine.hpp:handle_exception_event", "include/boost/statechart/state_machine.hpp:send_event"]}
{"id": "C16", "title": "Run to completion / stability", "statement": "The machine is stable whenever it returns to the client and whenever the next event is dequeued, even if entry, exit or transition actions threw.", "quantifier": "all executions; sequences of API calls as in C01", "why_tests_cant": "Universal over exception points.", "anchors": ["include/boost/statechart/state_machine.hpp:send_event", "include/boost/statechart/state_machine.hpp:handle_exception_event", "include/boost/statechart/state_machine.hpp:add"]}
{"id": "C17", "title": "No exit() while an exception is pending", "statement": "With exception_translator, from the moment an exception is caught until the exception reaction has completed, states are destructed without calling exit().", "quantifier": "all executions with exception_translator; sequences of API calls as in C01", "why_tests_cant": "Universal over exception points.", "anchors": ["include/boost/statechart/state_machine.hpp:handle_exception_event", "include/boost/statechart/simple_state.hpp:exit_impl"]}
{"id": "C18", "title": "Where exception events are dispatched", "statement": "The exception event is first offered to the outermost unstable state if the machine is unstable, otherwise to the innermost state being visited when the exception was thrown; that state is alive at that time; search only moves outward.", "quantifier": "all executions with exception_translator, default transition context (relaxed transition context: C45); sequences of API calls as in C01", "why_tests_cant": "Requires an invariant on the unstable-state bookkeeping over all partial entries/exits.", "anchors": ["include/boost/statechart/state_machine.hpp:handle_exception_event", "include/boost/statechart/state_machine.hpp:add", "include/boost/statechart/simple_state.hpp:exit_impl"]}
{"id": "C19", "title": "Reaction search order", "statement": "An event is offered to active innermost states in iteration order, for each moving outward through its contexts; in each state the first listed reaction whose event matches (or which names event_base) is executed; the search ends at the first result other than forward_event; unconsumed_event() is called exactly once iff every result was forward.", "quantifier": "all charts, events, configurations; sequences of API calls as in C01", "why_tests_cant": "Universal over reaction lists and trees.", "anchors": ["include/boost/statechart/state_machine.hpp:send_event", "include/boost/statechart/simple_state.hpp:react_impl", "include/boost/statechart/simple_state.hpp:local_react", "detail/reaction_dispatcher.hpp"]}
{"id": "C20", "title": "Non-transition reactions do not change states", "statement": "in_state_reaction, discard_event, forward_event and defer_event enter, exit or destroy no state.", "quantifier": "all executions", "why_tests_cant": "Universal.", "anchors": ["include/boost/statechart/in_state_reaction.hpp", "include/boost/statechart/simple_state.hpp:discard_event", "include/boost/statechart/simple_state.hpp:defer_event"]}
{"id": "C21", "title": "Event queue discipline", "statement": "Posted events are appended to the queue and dispatched strictly in queue order, one at a time, before the processing call returns; no event is lost, duplicated or reordered: the pending and deferred events are at all times what a two-queue abstract machine driven by the post/dispatch/defer/release/clear log contains.", "quantifier": "all executions; sequences of API calls as in C01", "why_tests_cant": "Conservation over all histories.", "anchors": ["include/boost/statechart/state_machine.hpp:process_event", "include/boost/statechart/state_machine.hpp:process_queued_events", "include/boost/statechart/state_machine.hpp:post_event_impl", "include/boost/statechart/state_machine.hpp:release_events"]}
{"id": "C22", "title": "Deferral release", "statement": "When a state that has deferred at least one event is destructed all deferred events move, in deferral order, to the front of the posted queue; deferred events are never stranded: while any event is deferred an active state that has deferred an event exists.", "quantifier": "all executions; sequences of API calls as in C01", "why_tests_cant": "Liveness-style invariant over all histories.", "anchors": ["include/boost/statechart/simple_state.hpp:~simple_state", "include/boost/statechart/state_machine.hpp:release_events", "include/boost/statechart/simple_state.hpp:defer_event"]}
{"id": "C23", "title": "Shallow history", "statement": "Entering through shallow_history<Default> enters, with its inner initial states, the state that was most recently exited (with exit()) in that region, or Default if none was or the history was cleared.", "quantifier": "all charts and histories", "why_tests_cant": "Depends on the whole history of exits.", "anchors": ["include/boost/statechart/state_machine.hpp:store_shallow_history", "include/boost/statechart/state_machine.hpp:construct_with_history_impl", "include/boost/statechart/simple_state.hpp:check_store_shallow_history"]}
{"id": "C24", "title": "Deep history", "statement": "Entering through deep_history<Default> restores the exact chain of states down to the innermost state most recently exited in that region, or enters Default if none was or the history was cleared.", "quantifier": "all charts and histories", "why_tests_cant": "Depends on the whole history of exits.", "anchors": ["include/boost/statechart/state_machine.hpp:store_deep_history", "include/boost/statechart/simple_state.hpp:deep_history_storer", "include/boost/statechart/state_machine.hpp:construct_with_history_impl"]}
{"id": "C25", "title": "History is cleared on termination and on request", "statement": "clear_shallow_history / clear_deep_history make the next history entry of that region use the default state and affect no other region; termination of the machine (including by exception) clears all history.", "quantifier": "all charts and histories", "why_tests_cant": "Universal.", "anchors": ["include/boost/statechart/state_machine.hpp:clear_shallow_history", "include/boost/statechart/state_machine.hpp:terminate_impl"]}
{"id": "C26", "title": "triggering_event()", "statement": "While user code runs triggering_event() returns the event being dispatched (the exception event while its reaction runs, 0 during initiate()/terminate()); after every API call, normal or exceptional, it has the value it had before.", "quantifier": "all executions; sequences of API calls as in C01", "why_tests_cant": "Universal over exception points.", "anchors": ["include/boost/statechart/state_machine.hpp:terminator", "include/boost/statechart/state_machine.hpp:triggering_event"]}
{"id": "C27", "title": "state_cast / state_downcast", "statement": "state_downcast<T> finds a state iff a state of most-derived type T is active, state_cast<T> iff an active state converts to T; otherwise 0 / bad_cast.", "quantifier": "all reachable machines and target types; sequences of API calls as in C01", "why_tests_cant": "Universal over configurations.", "anchors": ["include/boost/statechart/state_machine.hpp:state_cast", "include/boost/statechart/state_machine.hpp:state_downcast"]}
{"id": "C28", "title": "History keys are ordered lexicographically", "statement": "The key order used by the history map is a strict total order and two keys are equivalent iff context and region are equal, so std::map behaves as a finite function.", "quantifier": "all keys", "why_tests_cant": "Universal.", "anchors": ["include/boost/statechart/state_machine.hpp:history_key"]}
{"id": "C29", "title": "unconsumed_event() exceptions", "statement": "An exception from unconsumed_event() propagates without destroying, entering or exiting any state and leaves pending events queued.", "quantifier": "all executions", "why_tests_cant": "Universal.", "anchors": ["include/boost/statechart/state_machine.hpp:send_event"]}
{"id": "C30", "title": "FIFO worker executes work in order exactly once", "statement": "operator()(n) executes queued non-empty work items in FIFO order, each exactly once, stops exactly at termination, after n items (n != 0) or on an empty queue (non-blocking), and returns the number executed; items queued by executing items are appended.", "quantifier": "all queue contents, item behaviours and n", "why_tests_cant": "Universal over item programs.", "anchors": ["include/boost/statechart/fifo_worker.hpp:operator()", "include/boost/statechart/fifo_worker.hpp:queue_work_item"]}
{"id": "C31", "title": "FIFO worker under concurrency", "statement": "With any number of producer threads, items of one producer execute in the order queued, each at most once and none twice, and a blocked worker is always woken when an item is queued (no lost wake-up).", "quantifier": "all interleavings of any number of producers with the worker", "why_tests_cant": "Thread schedules cannot be enumerated by tests.", "anchors": ["include/boost/statechart/fifo_worker.hpp:dequeue_item", "include/boost/statechart/fifo_worker.hpp:queue_work_item"]}
{"id": "C32", "title": "Scheduler and processor handles", "statement": "Operations on a processor handle take effect in queue order on the processor created for it; after destroy_processor has executed, later queued operations for that handle are silently discarded, and so are all operations for a handle whose creation found no memory in processorSet_; different handles never affect each other's processor.", "quantifier": "all sequences of scheduler operations", "why_tests_cant": "Universal over operation sequences.", "anchors": ["include/boost/statechart/processor_container.hpp", "include/boost/statechart/fifo_scheduler.hpp"]}
{"id": "C33", "title": "Event object lifetime", "statement": "intrusive_from_this() yields another reference to the event if it is already reference counted and a reference to a fresh copy otherwise; a queued or deferred event object lives at least as long as it is queued and is freed exactly once when its last reference goes away.", "quantifier": "all sequences of reference operations", "why_tests_cant": "Universal over histories.", "anchors": ["include/boost/statechart/event_base.hpp:intrusive_from_this", "include/boost/statechart/detail/counted_base.hpp"]}
{"id": "C34", "title": "Reaction results are single use", "statement": "In debug builds a result value that is returned through any chain of copies is read exactly once; copying a consumed result or dropping an unconsumed one fails an assert, and nothing else does.", "quantifier": "all chains of copies, reads and destructions", "why_tests_cant": "Universal over usage sequences.", "anchors": ["include/boost/statechart/result.hpp:safe_reaction_result"]}
{"id": "C35", "title": "Failing exception reactions", "statement": "If the reaction to the exception event itself throws, leaves the machine unstable, forwards or defers, the machine is terminated with all states destructed; a reaction that throws replaces the original exception, otherwise the original is rethrown.", "quantifier": "all executions with exception_translator; sequences of API calls as in C01", "why_tests_cant": "Universal over exception points.", "anchors": ["include/boost/statechart/state_machine.hpp:handle_exception_event"]}
{"id": "C36", "title": "initiate() on a running machine", "statement": "initiate() called on a running machine first terminates it and then enters the initial configuration, so that afterwards exactly one outermost state is active.", "quantifier": "all reachable machines, both exception translators", "why_tests_cant": "Interaction of a throwing exit() with a recovering exception reaction inside terminate().", "anchors": ["include/boost/statechart/state_machine.hpp:initiate", "include/boost/statechart/state_machine.hpp:terminate"]}
{"id": "C37", "title": "Relaxed transition context", "statement": "With BOOST_STATECHART_RELAX_TRANSITION_CONTEXT a transition's action runs exactly once, while its context (the source state, one of its contexts, or the machine) is alive, after the states inside that context that the transition leaves were exited and before all other exits and all entries. The set of exited states is the same as in the default configuration. So are the entered states, in the same order, and the states active and remembered afterwards, provided no user code clears history during the transition (or there are no histories).", "quantifier": "all charts, sources, destinations, transition contexts; C01 - C44 also hold in this configuration, except that C06, C11 and C18 change as stated here and in C45", "why_tests_cant": "Universal.", "anchors": ["include/boost/statechart/simple_state.hpp:transit_impl"]}
{"id": "C38", "title": "Reactions run one at a time", "statement": "post_event() called from any user callback never triggers a nested dispatch: the event is dispatched only after the current reaction has completed.", "quantifier": "all executions; sequences of API calls as in C01", "why_tests_cant": "Universal.", "anchors": ["include/boost/statechart/state_machine.hpp:post_event_impl", "include/boost/statechart/state_machine.hpp:process_queued_events"]}
{"id": "C39", "title": "An interrupted reaction did a prefix of the normal work", "statement": "When an exception leaves a constructor, exit() or action during a reaction, initiate() or terminate(), the callbacks made up to then are exactly those that the same operation would have made without the exception, in the same order, up to the call that threw. After that call, states are only destroyed, without exit(), until the exception event is dispatched.", "quantifier": "all charts, events, reactions, throwing callbacks; sequences of API calls as in C01", "why_tests_cant": "Any callback of any chart may throw.", "anchors": ["include/boost/statechart/simple_state.hpp:transit_impl", "include/boost/statechart/simple_state.hpp:exit_impl", "include/boost/statechart/state_machine.hpp:terminate_impl", "include/boost/statechart/state_machine.hpp:handle_exception_event"]}
{"id": "C40", "title": "State queries inside user code", "statement": "While a constructor, destructor, exit(), action, reaction or unconsumed_event() runs, the range [state_begin(), state_end()) contains no null pointer and no duplicate and consists of exactly the innermost states whose constructor has returned and whose destructor has not yet been called, without the one whose exit() or destructor is running. state_cast and state_downcast called there never touch a null or dangling pointer, and find a matching state iff one is at or outside a state in that range; otherwise they return null or throw std::bad_cast.", "quantifier": "all charts, all user code, all sequences of calls, every call of user code, with any exceptions; also the destructor of the machine; sequences of API calls as in C01", "why_tests_cant": "The list is in an intermediate state during every callback; the number of points at which user code can look at it, times charts and exceptions, is unbounded.", "anchors": ["include/boost/statechart/state_machine.hpp:state_begin", "include/boost/statechart/state_machine.hpp:state_cast", "include/boost/statechart/state_machine.hpp:state_downcast", "include/boost/statechart/state_machine.hpp:add", "include/boost/statechart/detail/leaf_state.hpp:remove_from_state_list", "include/boost/statechart/simple_state.hpp:deep_construct"]}
{"id": "C41", "title": "Asynchronous machines are state machines fed with the queued operations", "statement": "For every processor handle of a fifo_scheduler whose processors are asynchronous_state_machines: the machine exists exactly from the execution of its creation, unless this throws, to the execution of its destruction. At any time its state is that of a state_machine that was constructed and then received exactly the initiate, terminate and process_event calls executed for the handle, in the order they were queued, each returning or throwing. No operation on a machine touches a null or dangling pointer, the container does so only after the constructor of a processor has thrown, and destroying the processor destroys all its states. An exception that leaves a machine leaves operator() of the scheduler, with the rest of the queue and the machine as they are.", "quantifier": "all charts, numbers of machines and handles, user code that does not call operator() of its own scheduler and calls initiate() only where terminate() leaves the machine terminated, sequences of scheduler calls and runs, with exceptions leaving operator(), as long as no operation was executed for a processor whose constructor threw", "why_tests_cant": "Any interleaving of operations for any number of machines, self-destruction, and exceptions in the middle of queued work.", "anchors": ["include/boost/statechart/asynchronous_state_machine.hpp:process_event_impl", "include/boost/statechart/event_processor.hpp:process_event", "include/boost/statechart/processor_container.hpp:queue_event_impl", "include/boost/statechart/fifo_scheduler.hpp:queue_event"]}
{"id": "C42", "title": "terminated() and context access inside user code", "statement": "While user code runs, terminated() returns true iff no state is alive (constructor returned, destructor not yet called) and no constructor of an outermost state<> is running. User code that belongs to a state runs only while the state is alive or being constructed, and all its outer states are alive. context<T>() called there on any such state touches only existing objects and returns the innermost of the state and its outer states that is a T, or the machine if there is none; outermost_context() returns the machine. The only exception is the object whose simple_state constructor is running: on it both fail the documented assertion, unless T is its own class.", "quantifier": "all charts, all user code, all sequences of calls, every call of user code, with any exceptions; also the destructor of the machine; between calls for all active states; sequences of API calls as in C01", "why_tests_cant": "Contexts are raw pointers to reference-counted objects that are being built or torn down during every callback; a dangling one usually still reads as valid.", "anchors": ["include/boost/statechart/simple_state.hpp:context", "include/boost/statechart/simple_state.hpp:outermost_context", "include/boost/statechart/simple_state.hpp:outermost_context_base", "include/boost/statechart/simple_state.hpp:set_context", "include/boost/statechart/state.hpp:shallow_construct", "include/boost/statechart/state_machine.hpp:terminated"]}
{"id": "C43", "title": "process_event() and initiate() end unless user code posts without end", "statement": "Let n be the number of events that are in the machine or come into it during a call of process_event(e): e itself, the events pending and deferred at the call, and the events posted by user code during the call. The call dispatches at most n(n+1)/2 events (deferred and released events are counted each time), and the bound is attained. So process_event() and initiate() can run forever only if user code posts events without end; if no function of the user posts an event they return or throw. What they return does not depend on the bound on the number of dispatches used in the model once they have ended.", "quantifier": "all charts, all user code (each function called by the library terminates), all machines reachable by sequences of API calls as in C01, all events, calls that have not thrown so far", "why_tests_cant": "A test can only observe that it has waited long enough; a deferral cycle (an event released and deferred again and again) would show up only in particular combinations of deferral, transitions and queue contents.", "anchors": ["include/boost/statechart/state_machine.hpp:process_queued_events", "include/boost/statechart/state_machine.hpp:process_event", "include/boost/statechart/state_machine.hpp:initiate", "include/boost/statechart/state_machine.hpp:release_events"]}
{"id": "C44", "title": "History after failed insertions", "statement": "When a state s is exited, its exit() is recorded in the shallow history of its region and then, if s is innermost, in the deep histories of its contexts from the inside to the outside. If there is no memory for one of these entries, an exception interrupts the reaction; this happens only if the history has no entry for the region, i.e. since the machine was last terminated no exit was recorded in it and it was not cleared; that region enters its default state until the next exit from it is recorded. Memory is needed whenever there is no entry. The histories before it in this order have been updated, those after it and all other histories are as before the exit. In a reaction that is not interrupted every exit is recorded in all histories, and if memory for history is always available every exit is.", "quantifier": "all charts with any combination of nested shallow and deep histories, all user code, all allocation failures, all machines reachable by sequences of API calls as in C01", "why_tests_cant": "Requires an allocation failure at one particular map insertion, combined with every nesting of histories and every later history entry.", "anchors": ["include/boost/statechart/state_machine.hpp:store_history_impl", "include/boost/statechart/state_machine.hpp:store_shallow_history", "include/boost/statechart/state_machine.hpp:store_deep_history", "include/boost/statechart/simple_state.hpp:check_store_shallow_history", "include/boost/statechart/simple_state.hpp:deep_history_storer"]}
{"id": "C45", "title": "Exception events with relaxed transition context", "statement": "With BOOST_STATECHART_RELAX_TRANSITION_CONTEXT, too, the exception event is first offered to the outermost unstable state if the machine is unstable, otherwise to the innermost state being visited when the exception was thrown; that state is alive at that time.", "quantifier": "all charts, transition contexts, user code, executions with exception_translator and relaxed transition context; sequences of API calls as in C01", "why_tests_cant": "The library's tests throw from every callback, but the statement depends on which orthogonal region the action's context is in relative to the failing exit().", "anchors": ["include/boost/statechart/simple_state.hpp:transit_impl", "include/boost/statechart/simple_state.hpp:exit_impl", "include/boost/statechart/state_machine.hpp:handle_exception_event"]}
{"id": "C46", "title": "No region of an active state is empty", "statement": "After each API call, whether it returned or threw, every orthogonal region of an active state has exactly one active direct inner state, unless a state in that region has a termination reaction (or a react member that may call terminate()). Transitions refill what they empty; a machine left unstable by an exception is either made stable by the reaction to the exception event or terminated. With BOOST_STATECHART_RELAX_TRANSITION_CONTEXT this holds if exceptions are not translated to events, or if every transition action is a member of the innermost common context or of a context outside it; otherwise it does not hold in general.", "quantifier": "all charts, states and regions without termination reactions inside, all user code and exceptions at any point, all machines reachable by sequences of API calls as in C01; default configuration, or relaxed transition context without exception translation or with actions in such contexts", "why_tests_cant": "A missing inner state shows up only when an event is not reacted to later; finding it needs every combination of failing exit(), constructor or action with the reaction to the exception event.", "anchors": ["include/boost/statechart/simple_state.hpp:transit_impl", "include/boost/statechart/state_machine.hpp:handle_exception_event", "include/boost/statechart/state_machine.hpp:terminate_impl", "doc/definitions.html:UnstableStateMachine"]}
{"id": "C47", "title": "A processor lives once and survives its own calls", "statement": "The processor behind a handle is constructed at most once, by the execution of its create_processor() and with the arguments given there; it is called only after that, by queued operations in queue order, and destroyed at most once, never while it is being called. When a call of the client has returned or thrown, a processor was constructed (or its constructor threw, or there was no memory for its node in processorSet_) iff its creation was executed, and a constructed one was destroyed iff its destroy_processor() was executed. At any time: no reference to a holder was released that was not held, and a null pointer was dereferenced only by an operation for a processor whose creation had begun and which had not been constructed (its constructor was running, or had thrown). Destroying the scheduler destroys every remaining processor exactly once and leaves no holder behind, if destructors of processors do not use the scheduler then.", "quantifier": "all code of processors, work items and clients, including code that throws anywhere (also in constructors), lack of memory for nodes of processorSet_, and code that calls operator() of its own scheduler at any depth; all sequences of client calls; all states in the middle of a call at work item boundaries; all orders of processorSet_", "why_tests_cant": "Leaks, double destruction and use after destruction depend on the interleaving of nested operator() calls with creations and destructions that are still queued; tests exercise a few flat sequences and do not observe released memory.", "anchors": ["include/boost/statechart/processor_container.hpp:create_processor", "include/boost/statechart/processor_container.hpp:create_processor_impl0", "include/boost/statechart/processor_container.hpp:destroy_processor_impl", "include/boost/statechart/processor_container.hpp:queue_event_impl", "include/boost/statechart/fifo_scheduler.hpp", "include/boost/statechart/fifo_worker.hpp"]}
{"id": "C48", "title": "No hidden state", "statement": "What a state machine does next is determined by its active states (in the order of state_begin()), the states that deferred events, the stored histories, the two event queues and the environment. Two machines that agree in these react to every sequence of API calls with the same results, the same exceptions and the same calls of user code, and agree again afterwards; nothing else that happened before (handled or unhandled exceptions, interrupted transitions, the way states were entered) has an influence. Nodes of containers allocated earlier matter only if their allocation can fail. If it cannot fail, initiate() of a terminated machine does exactly what it does on a newly constructed one.", "quantifier": "all charts, all user code (deterministic in its environment, which it may read and change), all pairs of machines reachable as in C01 that agree in what is listed, all sequences of API calls, with initiate() called as in C01, changes of the environment in between, and the destructor", "why_tests_cant": "State left over from an earlier reaction (a flag, an iterator, a reference count, an unset pointer) shows only in a later reaction that happens to read it; tests cannot compare all pairs of histories that lead to the same configuration.", "anchors": ["include/boost/statechart/state_machine.hpp:isInnermostCommonOuter_", "include/boost/statechart/state_machine.hpp:pOutermostUnstableState_", "include/boost/statechart/state_machine.hpp:performFullExit_", "include/boost/statechart/state_machine.hpp:initiate", "include/boost/statechart/state_machine.hpp:terminate_impl", "include/boost/statechart/state_machine.hpp:add"]}
{"id": "C49", "title": "A scheduler used by several threads", "statement": "While one thread runs operator(), other threads may create, destroy, initiate and terminate processors, queue events and work items and request termination at any moment. At any time: the executed items followed by the queued ones are the items that were queued, in queue order; nothing is executed after a termination; each processor is constructed at most once, by the execution of its creation, called only while it exists and by executed operations in their order, and destroyed at most once and not while it is being called. When operator() has returned or thrown, a processor was constructed (or its constructor threw, or there was no memory for its node in processorSet_) iff its creation was executed, and a constructed one was destroyed iff its destruction was executed. At any time: no reference to a holder was released that was not held, and a null pointer was dereferenced only by an operation for a processor whose creation had begun and which had not been constructed (its constructor was running, or had thrown). operator()( n ) returns only when the worker is terminated, after n items, or, if it does not wait, when the queue is empty. Destroying the scheduler afterwards destroys the remaining processors once each.", "quantifier": "all interleavings of the running thread with any number of other threads; waiting and non-waiting workers; all code of processors, work items and clients, also code that throws or calls operator() again; all moments of an execution", "why_tests_cant": "The number of interleavings is unbounded and which of them occur is up to the operating system; wrong ones show up as rare use after free.", "anchors": ["include/boost/statechart/fifo_scheduler.hpp", "include/boost/statechart/processor_container.hpp:create_processor_impl0", "include/boost/statechart/processor_container.hpp:destroy_processor_impl", "include/boost/statechart/processor_container.hpp:queue_event_impl", "include/boost/statechart/fifo_worker.hpp:queue_work_item", "include/boost/statechart/fifo_worker.hpp:operator()"]}
{"id": "C50", "title": "Type information identifies types", "statement": "dynamic_type() of a state or event, also of a copy that post_event() or a deferral made, equals S::static_type() iff S and the class of the object have the same MostDerived; with BOOST_STATECHART_USE_NATIVE_RTTI the same holds for all objects whose class is its own MostDerived. custom_dynamic_type_ptr< T >() and custom_static_type_ptr< T >() return the pointer that was last set for the class, 0 if none was; in debug builds an assert fails iff this pointer is not 0 and was set with another type. Setting it for one class does not affect other classes.", "quantifier": "all class hierarchies; all sequences of constructing, copying and destroying objects and setting custom ids; all classes and types; both settings of BOOST_STATECHART_USE_NATIVE_RTTI and NDEBUG", "why_tests_cant": "Tests check two classes and one sequence of sets; event dispatch, state_downcast and history all rely on the comparison for every pair of classes.", "anchors": ["include/boost/statechart/detail/rtti_policy.hpp:rtti_base_type", "include/boost/statechart/detail/rtti_policy.hpp:rtti_derived_type", "include/boost/statechart/event.hpp:clone"]}
{"id": "C51", "title": "Processors and asynchronous machines served for several threads", "statement": "While one thread runs operator(), other threads may use the scheduler at any moment (as in C49). When operator() has returned or thrown: what happened to each processor is what its executed operations ask for, in the order they were queued, whichever thread queued them; after the execution of its destruction nothing happens to it; the container dereferences a null pointer only after the constructor of a processor has thrown. If the processors are asynchronous_state_machines, each is in the state of a state_machine that was constructed and then received exactly the operations executed for its handle, in this order, each in the environment other threads left; no operation on a machine touches a null or dangling pointer; destroying the processor destroys all its states. If an operation makes a machine throw, the exception leaves operator() of the scheduler, with the machine as it is and the rest of the queue followed by what other threads queued meanwhile.", "quantifier": "all interleavings of the running thread with any number of other threads, which queue operations and change data that user code reads, between operations on a machine; waiting and non-waiting workers; all charts, numbers of handles, user code that does not call operator() of its own scheduler and calls initiate() only where terminate() leaves the machine terminated, with exceptions leaving operator(), as long as no operation was executed for a processor whose constructor threw", "why_tests_cant": "Any interleaving of threads and any environment; a lost or misrouted event shows up only under particular timing.", "anchors": ["include/boost/statechart/fifo_scheduler.hpp", "include/boost/statechart/processor_container.hpp:create_processor_impl0", "include/boost/statechart/processor_container.hpp:queue_event_impl", "include/boost/statechart/asynchronous_state_machine.hpp:process_event_impl", "include/boost/statechart/fifo_worker.hpp:operator()"]}
{"id": "C52", "title": "Queued work is executed in the end", "statement": "If the threads are scheduled fairly, work items return or throw, and operator() is called again whenever it has returned or thrown before the worker is terminated: every queued work item is executed at some time, after exactly the items queued before it, unless the worker is terminated before; every call of queue_work_item() and terminate() returns; after the first terminate() the worker is terminated at some time, and what it has executed then is exactly the items queued before that call of terminate().", "quantifier": "all infinite executions of one thread running operator() with any number of other threads calling queue_work_item() and terminate(), interleaved step by step (mutex, swap, pop, notify, wait, spurious returns of wait allowed), waiting and non-waiting workers, any maxNumberOfItems; fair: a thread that can make a step again and again makes one (also when it competes for the mutex)", "why_tests_cant": "A lost wakeup or starvation appears only under particular timing, and a test cannot observe that something happens eventually in every schedule.", "anchors": ["include/boost/statechart/fifo_worker.hpp:operator()", "include/boost/statechart/fifo_worker.hpp:queue_work_item", "include/boost/statechart/fifo_worker.hpp:terminate", "include/boost/statechart/fifo_worker.hpp:operator_impl"]}
{"id": "C53", "title": "The library is equivalent to a machine without pointers", "statement": "There is a reference machine (Ref.lean) whose configuration is a set of states with a list of innermost states, and whose reactions are: determine the list of states to leave, leave them in this order, call the action, enter the states of the target tree in order, with what is undone when an exception occurs. For every sequence of calls by a client (initiate, terminate, process_event, post_event, clear_shallow_history, clear_deep_history, and finally the destructor), with any changes of the environment in between, the library and the reference machine end each call in the same way (return, or the same exception), make the same calls of user code in the same order with the same triggering event, and agree between the calls in the existing states, the range state_begin()..state_end(), terminated(), triggering_event(), the posted and the deferred events. Every sequence of call results that one of them has the other has too.", "quantifier": "all charts that meet the static requirements, all user code (also code that throws anywhere, looks at the machine, posts events, clears history; not code that reads private members of state objects), all allocation failures, all exception translators, with and without relaxed transition context, all sequences of calls in which initiate() is called only where its initial termination succeeds", "why_tests_cant": "Reference counts, the removal loops and the list of innermost states interact; whether they implement the intended semantics in every configuration, after every exception, cannot be enumerated.", "anchors": ["include/boost/statechart/state_machine.hpp", "include/boost/statechart/simple_state.hpp:transit_impl", "include/boost/statechart/detail/state_base.hpp:remove_from_state_list", "include/boost/statechart/detail/node_state.hpp:remove_from_state_list", "include/boost/statechart/detail/constructor.hpp"]}
{"id": "C54", "title": "Without exceptions the library is a simple function on configurations", "statement": "If no user code throws and memory does not run out, no call of a client throws, initiate() may be called at any time, and every call has the effect of a function (Calm.lean) that is described without exceptions, unstable states and memory: an event goes to the innermost states in order, from each outward until a state does not forward it; a transition leaves the states of the source below the innermost common outer state, innermost first and regions in descending order, calls the action (with relaxed transition context before the state that owns it is left), and enters the states down to the target, outermost first and regions in ascending order, with history where it is asked for; a termination leaves the state with everything in it and the outer states that have become empty; deferred events are kept until a state that deferred is left; unconsumed events are reported; then the posted and released events are handled in the same way. The library makes the same calls of user code, and agrees between the calls in the existing states, the range state_begin()..state_end(), terminated(), triggering_event(), the posted and the deferred events.", "quantifier": "all charts that meet the static requirements, all user code that does not throw (it may look at the machine, post events, clear history), all sequences of calls, all environments", "why_tests_cant": "A test compares one run of one chart; that the code computes one simple function of the configuration for every chart, history content and event order needs a proof about all of them.", "anchors": ["include/boost/statechart/state_machine.hpp", "include/boost/statechart/simple_state.hpp", "include/boost/statechart/detail/constructor.hpp", "include/boost/statechart/detail/leaf_state.hpp:remove_from_state_list", "include/boost/statechart/detail/node_state.hpp:remove_from_state_list"]}
{"id": "C55", "title": "Cascades of posted events end", "statement": "Let the events be ranked (in any well-founded order) so that whatever user code posts while an event is handled ranks lower than this event and nothing is posted while an exception event is handled; let reactions post nothing when they defer their event, or forward an event that some state may defer. Then process_event() and initiate() end, from every machine a client can have: after finitely many events they return or throw, and the outcome does not depend on the bound on the number of events used in the model. No limit is set to the number of events posted, deferred and released. The condition on deferral cannot be dropped: there is a machine whose user code posts only events ranked lower, but whose reaction defers its event and posts another; initiate() of this machine never ends.", "quantifier": "all charts that meet the static requirements, all well-founded preorders and rankings, all user code as described (it may throw, look at the machine, clear history), all machines reachable by sequences of API calls as in C01, all events; initiate() is called where its initial termination leaves the machine terminated, as in C01", "why_tests_cant": "No test can show that a loop ends for every order of posted, deferred and released events, or that it never ends.", "anchors": ["include/boost/statechart/state_machine.hpp:process_queued_events", "include/boost/statechart/state_machine.hpp:process_event", "include/boost/statechart/state_machine.hpp:initiate", "include/boost/statechart/state_machine.hpp:release_events", "include/boost/statechart/state_machine.hpp:send_event"]}
{"id": "C56", "title": "The arbitrary order of the innermost states is immaterial for unambiguous machines", "statement": "The documentation says that an event is offered to the innermost states in an arbitrary order and that their position in the range state_begin()..state_end() is arbitrary. If no user code throws and memory does not run out, the library behaves like one of the machines that this allows: machines that put the innermost states into any order before each event is dispatched. If, in addition, user code does not depend on the order of the states in the range, and from any two states in different regions the first state outward that has a reaction to an event is the same one (unless one of them has none), then all these machines behave alike: after the same calls with the same results they have made the same calls of user code, and agree with each other and with the library in the existing states, the set of states in the range, terminated(), triggering_event(), the posted and the deferred events. Otherwise the order matters: there is a chart, with a state in each of two regions that reacts to the same event, for which these machines differ, and on which the library itself reacts differently in two situations that differ only in what has happened before.", "quantifier": "all charts that meet the static requirements, all user code that does not throw (and as described), all sequences of calls, all orders chosen before each dispatch, all environments", "why_tests_cant": "A test sees the one order that the library happens to use; that no other order that the documentation allows would make a difference concerns all orders, charts and histories.", "anchors": ["include/boost/statechart/state_machine.hpp:send_event", "include/boost/statechart/state_machine.hpp:state_begin", "include/boost/statechart/detail/leaf_state.hpp:remove_from_state_list", "doc/reference.html:process_event", "doc/reference.html:state_begin"]}
{"id": "C57", "title": "Nodes and history entries are used again, so they do not pile up", "statement": "The nodes of the list of innermost states and the entries of the history maps are not given back while the machine lives (the entries only when it terminates). Nevertheless a machine that runs forever does not need more and more of them: at every time the list has at least one node per innermost state, and not more nodes than innermost states existed together at some time before; so there are at most as many nodes as the chart allows innermost states together, which is one for an innermost state, the sum over its regions for another state, and the maximum over the states of a region; it is one if there are no orthogonal regions. The history maps have entries only for regions whose outer state has history of this kind, or whose history the client has cleared.", "quantifier": "all charts that meet the static requirements, all user code that keeps to the documented contract (it may throw; memory may run out), all sequences of API calls, of any length, with exceptions and terminations on the way", "why_tests_cant": "A leak of nodes along some path (an exception during entry, an interrupted exit, a termination in the middle of a transition) shows only when this path is taken; the bound holds for executions of any length.", "anchors": ["include/boost/statechart/state_machine.hpp:add", "include/boost/statechart/state_machine.hpp:remove_from_state_list", "include/boost/statechart/detail/leaf_state.hpp:set_list_position", "include/boost/statechart/state_machine.hpp:store_history_impl", "include/boost/statechart/state_machine.hpp:clear_shallow_history"]}
{"id": "C58", "title": "A scheduler of asynchronous machines is equivalent to a queue of operations on reference machines", "statement": "There is a reference scheduler (Fifo/Hub.lean) that has no reference counts, weak pointers, processor holders and function objects: a first-in-first-out queue of operations, and for each handle a reference machine (C53) or nothing. create_processor, destroy_processor, queue_event, initiate_processor, terminate_processor, queue_work_item and terminate add one entry to the queue; executing the entries makes, destroys and operates machines, and does nothing where there is none; making a machine may fail for lack of memory. For every program of a client that creates, destroys and uses asynchronous state machines through a fifo_scheduler and calls operator() with any limits, the library and the reference scheduler end each step in the same way (return value, or the same exception leaving operator()), and afterwards agree in the queue, terminated(), the handles given out, the environment of the user code, the sequence of constructions, operations and destructions, which machines exist, and in the state of each (existing states, the range of innermost states, terminated(), triggering event, posted and deferred events, calls of user code). The destructor of the scheduler destroys the machines that exist, in the order of the processor set, as the reference scheduler does, unless user code that runs meanwhile calls the scheduler, which is then a call to a destroyed object. No machine touches a null or dangling pointer; the container does so only after the constructor of a processor has thrown.", "quantifier": "all charts that meet the static requirements, any number of machines of any number of classes, all user code of the machines as in C53 and constructors, destructors and work items that call the scheduler but not its operator(), all code of the client (which may call operator() anywhere, also in reaction to exceptions), all numbers of steps, one thread; operations of machines end, and initiate is queued only where the initial termination leaves the machine terminated; calls of the scheduler by callbacks of a machine take effect at the end of its operation", "why_tests_cant": "Holders, weak references and the set of processors interact with exceptions, self-destruction and work queued in between; that they never make an observable difference to the simple picture concerns all programs and all charts.", "anchors": ["include/boost/statechart/fifo_scheduler.hpp:operator()", "include/boost/statechart/fifo_worker.hpp:operator()", "include/boost/statechart/processor_container.hpp:create_processor_impl", "include/boost/statechart/processor_container.hpp:destroy_processor_impl", "include/boost/statechart/processor_container.hpp:queue_event_impl", "include/boost/statechart/asynchronous_state_machine.hpp"]}
{"id": "C59", "title": "A region that is not connected with the others behaves as if it were alone", "statement": "Call an orthogonal region independent if its events (those it handles, or that user code of it posts) are handled by none of the other states and it handles no other ones, they are handled by at most one state at a time, its transitions stay in it and the others do not exit it, user code on either side neither reads nor changes what belongs to the other (states, histories, posted events, environment), and its states do not defer events. Take two machines of the same program that agree in the region: the same states exist there, the same histories are recorded, its part of the environment is the same. If the clients call process_event with any events, and the events of the region are the same in the same order, then the machines agree in the region again, and the calls of user code caused by events of the region are the same in the same order, with the same triggering events. User code of a state is called only during the handling of an event of its own side. In particular, other events leave the region alone, and an event of the region and another one can be exchanged. Deferral must be excluded: two regions without any other connection influence each other if both defer events, because the exit of one state that has deferred an event releases the events that all other states have deferred.", "quantifier": "all charts that meet the static requirements, all regions of any state, all user code that does not throw and meets the conditions above (it sees existence of the states of its side, triggering event, terminated()), no termination reactions, all reachable machines with no posted events, and no deferred events of the region, all sequences of process_event calls that return, with changes of the rest of the environment between them", "why_tests_cant": "Regions share the list of innermost states, both event queues, both history maps and the triggering event. That nothing leaks from one to the other is a statement about all charts and all interleavings of events.", "anchors": ["include/boost/statechart/state_machine.hpp:process_event", "include/boost/statechart/state_machine.hpp:send_event", "include/boost/statechart/state_machine.hpp:release_events", "include/boost/statechart/simple_state.hpp:transit_impl", "include/boost/statechart/detail/node_state.hpp:exit_impl", "doc/tutorial.html#OrthogonalStates"]}
{"id": "C60", "title": "Relaxed transition context is safe for actions that would be allowed without it", "statement": "Let BOOST_STATECHART_RELAX_TRANSITION_CONTEXT be defined, and let the action of every transition be a member of the innermost common context of source and destination, or of a context outside it, or of the machine. If an exception is thrown by any user code during a reaction and translated to an exception event, that event is first offered to the outermost unstable state if a state is unstable, otherwise to the innermost state being visited when the exception was thrown; that state is alive at that time. (In general this fails, see C45: it does so only when a transition is interrupted while it leaves states after its action, having left others before.)", "quantifier": "all charts whose actions are in such contexts, all user code, exceptions thrown anywhere, translators, process_event calls that return or throw, on all machines reachable by sequences of API calls as in C01", "why_tests_cant": "The three cases of the transition code update the pointer to the outermost unstable state at different times. That the wrong one is never chosen for these actions needs all charts and all points where exceptions can be thrown.", "anchors": ["include/boost/statechart/simple_state.hpp:transit_impl", "include/boost/statechart/simple_state.hpp:exit_impl", "include/boost/statechart/state_machine.hpp:handle_exception_event"]}
{"id": "C61", "title": "A scheduler of asynchronous machines used by several threads does exactly what a queue of operations on reference machines can do", "statement": "Let one thread run code of a client and call operator() of a fifo_scheduler of asynchronous state machines, waiting or not, while any number of other threads create, destroy and use machines, queue work items, call terminate() and change the environment. However the steps of the threads interleave, the calls of the client end as they can end (return value, or exception) with the reference scheduler of C58 used by several threads: entries are added to its queue by whole calls, the entry at the front is executed step by step, and an operation of a machine, including its destruction, is one step. Afterwards, and at any moment during a call, the queue, terminated(), the handles given out, the environment, the sequence of constructions, operations and destructions, the machines that exist and the state of each are the same as with the reference scheduler. Conversely, every sequence of calls of the client and every way in which they can end with the reference scheduler is possible with the library too, leaving the same behind. No machine touches a null or dangling pointer; between calls, the container has done so only if the constructor of a processor has thrown.", "quantifier": "all charts, machines, user code and client code as in C58, all numbers of other threads and all interleavings of their steps (each a whole call of the scheduler, or a change of the environment) with the steps of the thread that calls operator(); other threads do not change the environment while a machine performs an operation", "why_tests_cant": "Other threads can add work and change the environment between any two steps, also while a processor is made, called or destroyed. Tests see few interleavings.", "anchors": ["include/boost/statechart/fifo_scheduler.hpp:operator()", "include/boost/statechart/fifo_worker.hpp:operator()", "include/boost/statechart/fifo_worker.hpp:queue_work_item", "include/boost/statechart/processor_container.hpp:create_processor_impl", "include/boost/statechart/processor_container.hpp:destroy_processor_impl", "include/boost/statechart/processor_container.hpp:queue_event_impl"]}
{"id": "C62", "title": "The keyboard example shows the lights and accepts shutdown requests as a user expects", "statement": "Let a program initiate() the state machine of example/Keyboard and then call process_event with EvNumLockPressed, EvCapsLockPressed, EvScrollLockPressed and EvRequestShutdown in any order and number. All calls return. Until a shutdown request has been accepted, the state On of a lock is active if its key has been pressed an odd number of times, otherwise the state Off of that lock. A shutdown request is accepted if and only if all three locks are off; then the machine is terminated and stays so, and nothing more is output. state_begin()..state_end() contains the three active lock states, in an order that is not always that of the regions (after EvNumLockPressed, the first one is ScrollLockOff, which DisplayStateConfiguration calls region a).", "quantifier": "all sequences of the four events", "why_tests_cant": "The example processes one sequence of twelve events. The order of the innermost states changes with each transition, so there are many internal configurations for the same lights.", "anchors": ["example/Keyboard/Keyboard.cpp:Active::react", "include/boost/statechart/state_machine.hpp:process_event", "include/boost/statechart/simple_state.hpp:transit_impl"]}
{"id": "C63", "title": "The bit machine example is in the state given by the flipped bits, and its tour visits every state exactly once", "statement": "Let a program initiate() the state machine of example/BitMachine, generated for any number of bits, and then call process_event with any sequence of EvFlipBit events. All calls return, and the only state, which is also the only element of state_begin()..state_end(), is BitState< n >, where bit i of n is set if and only if EvFlipBit< i > has been processed an odd number of times. VisitAllStates, whatever has been done before, takes the machine to every state, and with the state in which it starts it visits each of the 2^NO_OF_BITS states exactly once.", "quantifier": "all numbers of bits, all sequences of events", "why_tests_cant": "The number of states and transitions grows exponentially with the number of bits; the example's authors could not compile it for more than 8 bits. The claim is about all sizes.", "anchors": ["example/BitMachine/BitMachine.cpp:BitState", "example/BitMachine/BitMachine.cpp:VisitAllStates", "include/boost/statechart/state_machine.hpp:process_event"]}
{"id": "C64", "title": "The stop watch example displays the time measured since the last reset", "statement": "Let a program initiate() the state machine of example/StopWatch/StopWatch.cpp and then call process_event with EvStartStop and EvReset at any times. All calls return, and at any time the display is the sum of the times between the first and the second EvStartStop after the last EvReset (or since the beginning), between the third and the fourth, and so on; if their number is odd, the last interval ends now.", "quantifier": "all sequences of the two events, all times at which they are processed (also if the clock is set back), all times of the display; std::time does not change during a call, and times are exact", "why_tests_cant": "The time is accumulated by a destructor that writes into the outer state, also while the outer state is left by a reset. Tests measure few intervals.", "anchors": ["example/StopWatch/StopWatch.cpp:Running::~Running", "example/StopWatch/StopWatch.cpp:Running::ElapsedTime", "include/boost/statechart/simple_state.hpp:context"]}
{"id": "C65", "title": "The camera example behaves as the four-state machine a user sees", "statement": "Let a program initiate() the state machine of example/Camera and then call process_event with EvShutterHalf, EvShutterFull, EvShutterRelease and EvConfig in any order and number, while IsBatteryLow and IsMemoryAvailable return whatever they like for each event. All calls return. The output and the active states are those of a machine with the four modes idle, configuring, focused and storing: between calls the camera is never seen focusing, pressing the shutter half-way focuses at once unless the battery is low, pressing it fully takes a picture only when focused and only if memory is available, releasing it leads back to idle. There is at most one picture more than there are releases of the shutter.", "quantifier": "all sequences of the four events, all results of IsBatteryLow and IsMemoryAvailable for each of them", "why_tests_cant": "The example is interactive, IsBatteryLow and IsMemoryAvailable return constants in it, and there are infinitely many sequences.", "anchors": ["example/Camera/Camera.cpp:NotShooting::react", "example/Camera/Shooting.cpp:Focusing::react", "example/Camera/Shooting.cpp:Focused::react", "include/boost/statechart/state_machine.hpp:process_event"]}
{"id": "C66", "title": "The players of the PingPong example return the ball as often as they should, and the scheduler stops", "statement": "Let a program with one fifo_scheduler do what example/PingPong does without USE_TWO_THREADS: create and initiate two players, queue a ball to the second one, and call operator(). With a maximal number M of returns per player (noOfEvents / 2), operator() ends because the scheduler has been terminated, after exactly 2M + 8 work items, with 2M + 1 balls processed, and the players get the ball alternately. No machine faults. The second player has been destroyed. The first one has terminated, but its destroy_processor and terminate are still in the queue and are never executed; it is destroyed with the scheduler, whatever the order in which the scheduler destroys its processors.", "quantifier": "all numbers M of returns, all counts of events processed before, any number of steps that is large enough", "why_tests_cant": "The example runs one M (500000) and prints a time only; that player 1 outlives its own request for destruction cannot be seen in the output.", "anchors": ["example/PingPong/Waiting.hpp:react", "example/PingPong/PingPong.cpp:main", "include/boost/statechart/fifo_worker.hpp:operator()", "include/boost/statechart/fifo_scheduler.hpp:queue_event", "include/boost/statechart/asynchronous_state_machine.hpp:process_event_impl"]}
{"id": "C67", "title": "The stop watch example with a query event assigns the time measured since the last reset", "statement": "Let a program initiate() the state machine of example/StopWatch/StopWatch2.cpp and then call process_event with EvStartStop, EvReset and EvGetElapsedTime at any times, as main does. All calls return. What EvGetElapsedTime assigns to the variable it refers to is the sum of the times between the first and the second EvStartStop after the last EvReset (or since the beginning), between the third and the fourth, and so on; if their number is odd, the last interval ends now. Asking any number of times does not change what is measured.", "quantifier": "all sequences of the three events, all times at which they are processed (also if the clock is set back); std::time does not change during a call, and times are exact", "why_tests_cant": "The example is interactive, and there are infinitely many sequences of keys and times.", "anchors": ["example/StopWatch/StopWatch2.cpp:Running::react", "example/StopWatch/StopWatch2.cpp:Stopped::react", "example/StopWatch/StopWatch2.cpp:main", "include/boost/statechart/custom_reaction.hpp:custom_reaction"]}
{"id": "C68", "title": "The assertions of the Performance example hold for every number of bits that divides its constant", "statement": "Let a program initiate() the state machine of example/Performance, generated for any number of bits and any FirstTransitionBit, and then call process_event with any sequence of EvFlipBit events. All calls return. Each event of a bit below FirstTransitionBit is counted as in-state reaction and leaves the state as it is; each other one is counted as transition and flips its bit. In PerformanceTester::Test the sum of both counters is the number of events sent; the number of events sent is eventsToSend_ if and only if 2^NoOfBits - 1 divides it, which is so for 1 to 8 bits and the constant of the program, but not for 9 bits; and each lap makes 2^(NoOfBits - FirstTransitionBit) - 1 transitions.", "quantifier": "all numbers of bits, all FirstTransitionBit, all sequences of events; all values of eventsToSend_; counters do not overflow", "why_tests_cant": "The program instantiates 1 to 3 bits, and checks the sum of the counters at the end of one sequence of events only.", "anchors": ["example/Performance/Performance.cpp:BitMachine", "example/Performance/Performance.cpp:FlipTransition", "example/Performance/Performance.cpp:PerformanceTester::Test", "include/boost/statechart/in_state_reaction.hpp:in_state_reaction", "include/boost/statechart/transition.hpp:transition"]}
{"id": "C69", "title": "Of the reactions of a state only the first one that fits an event counts", "statement": "Let two state machines differ only in the lists `reactions` of their states, such that for every state and every type of event the first reaction in the list that is for this event (or for event_base) is the same in both. Then they are indistinguishable: every call of initiate, terminate, process_event, post_event, clear_shallow_history, clear_deep_history and the destructor does the same in the same situation: same result or exception, same state objects, queues and histories, same calls of user code in the same order. In particular the order of reactions for different events does not matter, and a reaction that stands behind one for the same event or behind one for event_base is never executed and can be removed.", "quantifier": "all charts (also malformed ones), all user code (which may throw and post), all exception translators, all states of the machine, all calls, all sequences of calls", "why_tests_cant": "A test can compare two machines for a few orders, events and sequences of calls only; the lists, charts, user code and histories are unbounded.", "anchors": ["include/boost/statechart/simple_state.hpp:local_react", "include/boost/statechart/detail/reaction_dispatcher.hpp:reaction_dispatcher", "include/boost/statechart/simple_state.hpp:react_impl"]}
{"id": "C70", "title": "The built-in reactions are abbreviations for custom reactions", "statement": "Let some or all reactions of a state machine be replaced by custom reactions whose functions react() do by hand what the replaced ones do: transit<>() with the action for a transition, the action followed by discard_event() for an in_state_reaction, terminate() for a termination, defer_event() for a deferral. Then a client can make the same calls on both machines: each call returns or throws the same exception on both, and after any sequence of calls both machines have the same state objects, the same innermost states in the same order, the same queues, deferred events and histories; states were entered, exited and destroyed in the same order with the same triggering events, and the environment of the program (all that user code reads and writes) is the same. Every machine can thus be written with custom reactions only.", "quantifier": "all well-formed charts, all user code that keeps the contract (it may throw and post), all exception translators, all sequences of calls, all choices of replaced reactions", "why_tests_cant": "The tests use both kinds of reactions, but for different machines; equality for all charts, user code, exceptions and sequences of calls is not testable.", "anchors": ["include/boost/statechart/custom_reaction.hpp:custom_reaction", "include/boost/statechart/transition.hpp:transition", "include/boost/statechart/in_state_reaction.hpp:in_state_reaction", "include/boost/statechart/termination.hpp:termination", "include/boost/statechart/deferral.hpp:deferral"]}
{"id": "C71", "title": "BOOST_STATECHART_RELAX_TRANSITION_CONTEXT changes nothing for machines that are possible without it", "statement": "Let the action of every transition of a state machine (declared with transition<>, or passed to transit<>() in a function react that returns) be a member of the innermost common context of source and destination, of a context outside it, or of the state machine, as is required without the macro BOOST_STATECHART_RELAX_TRANSITION_CONTEXT. Then the machine compiled with the macro and the one compiled without are indistinguishable: every call of initiate, terminate, process_event, post_event, clear_shallow_history, clear_deep_history and the destructor does the same in the same situation (same result or exception, same state objects, queues and histories, same calls of user code in the same order). For an action that is a member of an inner context this is not so: it is called before outer states are left.", "quantifier": "all well-formed charts whose actions meet the condition, all user code that keeps the contract (it may throw and post), all exception translators, all states of the machine, all calls, all sequences of calls", "why_tests_cant": "The tests are compiled in both configurations for a few machines only; equality for all machines, states and sequences of calls is not testable.", "anchors": ["include/boost/statechart/simple_state.hpp:transit_impl", "doc/configuration.html:BOOST_STATECHART_RELAX_TRANSITION_CONTEXT"]}
{"id": "C72", "title": "It does not matter which states derive from simple_state and which from state", "statement": "Let some states of a state machine be derived from state instead of simple_state or the other way round. The constructors of states derived from simple_state do not use their context, as the documentation requires, and constructors of outermost states whose base class was changed do not find out (by other means) whether the machine is terminated. Then a client can make the same sequences of calls on both machines: each call returns or throws the same exception on both, and after any sequence of calls both machines have the same active states, the same range state_begin()..state_end(), the same terminated(), queues, deferred events and histories, and user code was called in the same order, with the same triggering events and the same effects on the environment. The second condition is needed: while the constructor of the initial state runs, terminated() is true if the state derives from simple_state and false if it derives from state.", "quantifier": "all well-formed charts, all choices of base classes, all user code that keeps the contract and depends on the machine only by what can be observed (it may throw and post), all allocation failures, all exception translators, all sequences of calls", "why_tests_cant": "Each test machine is written with one choice of base classes; equality for all choices, charts, exceptions and sequences of calls is not testable.", "anchors": ["include/boost/statechart/state.hpp:shallow_construct", "include/boost/statechart/simple_state.hpp:shallow_construct", "include/boost/statechart/simple_state.hpp:set_context"]}
{"id": "C73", "title": "Inner states inherit the reactions of outer states", "statement": "Let a state (and all states between it and some outer state S) have no reaction to events of some type, and let the first reaction of S to such events be an in_state_reaction, or a transition to a state that is not inside S (with BOOST_STATECHART_RELAX_TRANSITION_CONTEXT: whose action is a member of the innermost common context of S and the destination or of a context outside). Then writing the same reaction into the inner state changes nothing, for any number of such changes made at once: every legal call in every reachable situation has the same result or exception, leads to the same machine (state objects, queues, histories) and calls user code in the same order. So a reaction of an outer state behaves as if it were written in all inner states that forward the event to it. For a transition to a state inside S this is not so: written in S it leaves S, written in an inner state it may not.", "quantifier": "all well-formed charts, all user code that keeps the contract (it may throw and post), all exception translators, all reachable states of the machine, all calls, all sequences of calls, all choices of inner states and event types", "why_tests_cant": "A test compares two machines for a few reactions and sequences of calls; charts, user code, exceptions and histories are unbounded.", "anchors": ["include/boost/statechart/simple_state.hpp:react_impl", "include/boost/statechart/simple_state.hpp:transit_impl", "include/boost/statechart/detail/reaction_dispatcher.hpp:reaction_dispatcher", "include/boost/statechart/in_state_reaction.hpp:in_state_reaction"]}
{"id": "C74", "title": "Useless exception translations change nothing", "statement": "Two exception translators are equivalent for a machine if each exception that constructors, exit(), react() and actions of states can throw, or that a failing allocation of a state object, list node or history entry can throw, is either translated to the same event by both, or each of them does not translate it or translates it to an event that no state reacts to. Then every legal call in every reachable situation has the same result or exception, leads to the same machine (state objects, queues, histories) and calls user code in the same order. So exception_translator<> without reactions to exception_thrown is equivalent to null_exception_translator, all translators are equivalent for machines without exceptions, and what a translator does with exceptions of unconsumed_event() or of storing events in the queues does not matter.", "quantifier": "all well-formed charts, all user code that keeps the contract (it may throw and post), all pairs of translators related in this way, all reachable states of the machine, all calls, all sequences of calls", "why_tests_cant": "A test compares two translators for a few exceptions raised at a few places; the places where exceptions can be raised, the states the machine is in then and the charts are unbounded.", "anchors": ["include/boost/statechart/null_exception_translator.hpp:null_exception_translator", "include/boost/statechart/exception_translator.hpp:exception_translator", "include/boost/statechart/state_machine.hpp:handle_exception_event", "include/boost/statechart/state_machine.hpp:send_event"]}
{"id": "C75", "title": "States that cannot be entered do not matter", "statement": "Let a set of states contain the initial state of the machine and be closed: with a state it contains the outer state, the inner initial states (also those that are only defaults of histories) and the destinations of all transitions of the state, including those its react() functions ask for. Then no constructor of a state outside the set is ever called, whatever the client does and whatever is thrown, and none of these states is ever active. The code of the other states (base class, reactions, constructor, destructor, exit(), react()) can be replaced without effect: every call, and the destructor of the machine, has the same result or exception, leads to the same machine (state objects, queues, histories) and calls user code in the same order.", "quantifier": "all charts, all user code (it may throw and post), all exception translators, all closed sets of states, all reachable states of the machine, all calls, all sequences of calls", "why_tests_cant": "A test enters states by some sequences of calls; that no sequence of calls, history or exception leads to a certain state is a statement about all executions.", "anchors": ["include/boost/statechart/simple_state.hpp:deep_construct", "include/boost/statechart/simple_state.hpp:transit_impl", "include/boost/statechart/detail/constructor.hpp:constructor", "include/boost/statechart/state_machine.hpp:construct_with_history_impl", "include/boost/statechart/state_machine.hpp:initial_construct"]}
{"id": "C76", "title": "Reactions to events that do not occur do not matter", "statement": "Let a set of events contain all events that user code posts (as long as it handles only events of the set) and all events exceptions are translated to. If the client passes only events of the set to process_event() and post_event(), then no other event is ever queued or deferred, and user code never runs while another event is processed. The reactions to the other events can then be changed without effect, by other reaction lists and other react() functions: every call, and the destructor of the machine, has the same result or exception, leads to the same machine (state objects, queues, histories) and calls user code in the same order.", "quantifier": "all charts, all user code (it may throw and post), all exception translators, all sets of events, all machines reached by clients that send only events of the set, all such calls, all sequences of such calls", "why_tests_cant": "A test compares two machines for some sequences of events; that a reaction to an event that is never sent has no influence on any sequence, with deferral, posting and exceptions, is a statement about all executions.", "anchors": ["include/boost/statechart/simple_state.hpp:local_react", "include/boost/statechart/detail/reaction_dispatcher.hpp:react", "include/boost/statechart/state_machine.hpp:send_event", "include/boost/statechart/state_machine.hpp:process_queued_events", "include/boost/statechart/state_machine.hpp:release_events"]}
{"id": "C77", "title": "Calls throw only what user code or an allocation throws", "statement": "An exception that leaves initiate(), terminate() or process_event() is one that a constructor, exit(), a react() function or an action can throw, or an allocation of a state object, a node of the state list or a history entry; for initiate() and process_event() it can also come from unconsumed_event() or from the allocation of a node for a deferred event. post_event() throws only what the allocation of the node for the event throws, and clear_shallow_history() and clear_deep_history() only what the allocation of the entry of this history throws. The exception was raised during this call, not by an earlier one. So a legal call returns if none of these throws.", "quantifier": "all charts, all user code, all exception translators, all states of the machine, all calls (that the call returns: reachable states and legal calls, as in C01)", "why_tests_cant": "A test sees the exceptions of some executions; that no other exception is made, swapped or invented on any path of exception handling is a statement about all executions.", "anchors": ["include/boost/statechart/state_machine.hpp:handle_exception_event", "include/boost/statechart/state_machine.hpp:send_event", "include/boost/statechart/exception_translator.hpp:operator()", "include/boost/statechart/null_exception_translator.hpp:operator()", "include/boost/statechart/state_machine.hpp:initiate", "include/boost/statechart/state_machine.hpp:terminate"]}
