{
 "claims": [
  {
   "property": "C01",
   "status": "proved",
   "theorems": [
    "SC.C01_call_is_safe",
    "SC.C01_destructor_is_safe",
    "SC.C01_initiate_is_legal"
   ],
   "note": "Every call by a client on every reachable machine; initiate() on a running machine with exception translation is excluded because it really goes wrong there (see C36)."
  },
  {
   "property": "C02",
   "status": "partial",
   "theorems": [
    "SC.C02_legal_configuration_partial",
    "SC.Ex.C36_two_outermost"
   ],
   "note": "Missing: histories in which initiate() was called on a machine that terminate() did not terminate. There the statement is false: Ex.C36_two_outermost."
  },
  {
   "property": "C03",
   "status": "proved",
   "theorems": [
    "SC.C03_terminated_exact"
   ],
   "note": "Reachable machines are those on which initiate() was only called when terminate() leaves the machine terminated (C01, C36)."
  },
  {
   "property": "C04",
   "status": "proved",
   "theorems": [
    "SC.C04_iteration_exact"
   ],
   "note": "Reachable machines are those on which initiate() was only called when terminate() leaves the machine terminated (C01, C36)."
  },
  {
   "property": "C05",
   "status": "partial",
   "theorems": [
    "SC.C05_constructed_once_destructed_once_partial",
    "SC.C05_entry_partial",
    "SC.C05_exit_partial",
    "SC.C05_destruction_partial",
    "SC.Ex.C36_two_outermost"
   ],
   "note": "Missing: histories in which initiate() was called on a machine that terminate() did not terminate. There a state is entered while its (outermost) region is not empty: Ex.C36_two_outermost."
  },
  {
   "property": "C06",
   "status": "proved",
   "theorems": [
    "SC.C06_transit",
    "SC.Spec.C06_exit_order"
   ],
   "note": ""
  },
  {
   "property": "C07",
   "status": "proved",
   "theorems": [
    "SC.C06_transit",
    "SC.Spec.C07_exit_set"
   ],
   "note": ""
  },
  {
   "property": "C08",
   "status": "proved",
   "theorems": [
    "SC.C08_transit",
    "SC.Spec.C08_entry_order",
    "SC.Spec.C08_entry_exact"
   ],
   "note": ""
  },
  {
   "property": "C09",
   "status": "proved",
   "theorems": [
    "SC.C09_initiate",
    "SC.C09_initiate_null"
   ],
   "note": ""
  },
  {
   "property": "C10",
   "status": "proved",
   "theorems": [
    "SC.C06_transit",
    "SC.C10_transit",
    "SC.Spec.C10_common_context",
    "SC.Spec.C10_self_and_nested"
   ],
   "note": ""
  },
  {
   "property": "C11",
   "status": "proved",
   "theorems": [
    "SC.C11_transit",
    "SC.Spec.C11_action_placement"
   ],
   "note": ""
  },
  {
   "property": "C12",
   "status": "proved",
   "theorems": [
    "SC.C12_terminate_reaction",
    "SC.Spec.C12_termination"
   ],
   "note": ""
  },
  {
   "property": "C13",
   "status": "proved",
   "theorems": [
    "SC.C13_terminate",
    "SC.C13_terminate_null"
   ],
   "note": "Reachable machines are those on which initiate() was only called when terminate() leaves the machine terminated (C01, C36)."
  },
  {
   "property": "C14",
   "status": "proved",
   "theorems": [
    "SC.C14_destruct"
   ],
   "note": "Reachable machines are those on which initiate() was only called when terminate() leaves the machine terminated (C01, C36)."
  },
  {
   "property": "C15",
   "status": "proved",
   "theorems": [
    "SC.C15_process_event",
    "SC.C15_initiate",
    "SC.C15_terminate"
   ],
   "note": "Reachable machines are those on which initiate() was only called when terminate() leaves the machine terminated (C01, C36)."
  },
  {
   "property": "C16",
   "status": "proved",
   "theorems": [
    "SC.C16_stable",
    "SC.C16_complete"
   ],
   "note": "Reachable machines are those on which initiate() was only called when terminate() leaves the machine terminated (C01, C36)."
  },
  {
   "property": "C17",
   "status": "proved",
   "theorems": [
    "SC.C17_handling",
    "SC.C17_reaction"
   ],
   "note": ""
  },
  {
   "property": "C19",
   "status": "proved",
   "theorems": [
    "SC.Visible.dispatched",
    "SC.C19_unconsumed",
    "SC.process_event_returns"
   ],
   "note": "Reachable machines are those on which initiate() was only called when terminate() leaves the machine terminated (C01, C36). The search order is the relation Spec.Sweep / Spec.Search / Spec.Local inside Spec.Episode."
  },
  {
   "property": "C20",
   "status": "proved",
   "theorems": [
    "SC.C20_other_reactions"
   ],
   "note": ""
  },
  {
   "property": "C21",
   "status": "proved",
   "theorems": [
    "SC.C21_queues",
    "SC.C21_process_event",
    "SC.C21_conserved",
    "SC.C21_fifo",
    "SC.C21_post_event",
    "SC.C21_user_posts"
   ],
   "note": "Reachable machines are those on which initiate() was only called when terminate() leaves the machine terminated (C01, C36)."
  },
  {
   "property": "C22",
   "status": "proved",
   "theorems": [
    "SC.C22_dispatch",
    "SC.C22_not_stranded"
   ],
   "note": "Reachable machines are those on which initiate() was only called when terminate() leaves the machine terminated (C01, C36)."
  },
  {
   "property": "C23",
   "status": "partial",
   "theorems": [
    "SC.C23_history",
    "SC.Spec.C23_shallow",
    "SC.Spec.C23_last_partial",
    "SC.C44_all_recorded",
    "SC.Ex.C23_exit_not_remembered"
   ],
   "note": "False in general: if there is no memory for a new entry of a history map, an exit completes without being remembered (Ex.C23_exit_not_remembered). C23_history and C23_shallow hold without assumption, in terms of what was recorded (C44 says what that is); C23_last_partial: if every exit was recorded completely (C44_all_recorded: always, if these allocations do not fail) it is the state exited last."
  },
  {
   "property": "C24",
   "status": "partial",
   "theorems": [
    "SC.C23_history",
    "SC.Spec.C24_deep",
    "SC.Spec.C24_last_partial",
    "SC.C44_all_recorded",
    "SC.Ex.C24_exit_not_remembered"
   ],
   "note": "As C23 (Ex.C24_exit_not_remembered)."
  },
  {
   "property": "C25",
   "status": "partial",
   "theorems": [
    "SC.C25_clear_call",
    "SC.Spec.C25_clear_shallow",
    "SC.Spec.C25_clear_shallow_other",
    "SC.Spec.C25_clear_shallow_deep",
    "SC.Spec.C25_clear_deep",
    "SC.Spec.C25_clear_deep_other",
    "SC.Spec.C25_clear_deep_shallow",
    "SC.C25_terminate_partial",
    "SC.C25_unhandled_partial",
    "SC.Ex.C25_history_survives",
    "SC.C09_initiate"
   ],
   "note": "The claim about clear_*_history is proved without assumption (if there is no memory these functions throw, and nothing was remembered in that region). The claim about termination is false in general: Ex.C25_history_survives, where exit() throws in terminate() and the reaction to the exception event ends the machine (second case of C25_terminate_partial); the next initiate() then restores history. If a termination reaction ends the machine, history is cleared by the next initiate() (C09_initiate: the default states are entered)."
  },
  {
   "property": "C26",
   "status": "proved",
   "theorems": [
    "SC.C26_between",
    "SC.C26_process_event",
    "SC.C26_terminate",
    "SC.C26_initiate",
    "SC.C26_dispatch"
   ],
   "note": "Reachable machines are those on which initiate() was only called when terminate() leaves the machine terminated (C01, C36)."
  },
  {
   "property": "C29",
   "status": "proved",
   "theorems": [
    "SC.C29_unconsumed"
   ],
   "note": ""
  },
  {
   "property": "C36",
   "status": "partial",
   "theorems": [
    "SC.C36_initiate_partial",
    "SC.initiate_returns",
    "SC.C36_unless",
    "SC.Ex.C36_two_outermost",
    "SC.Ex.C36_zombie"
   ],
   "note": "False in general: Ex.C36_two_outermost is a machine where it fails. Proved without exception translation. initiate_returns: what happens in general if terminate() leaves no states. C36_unless: it does, unless exit() has thrown and a reaction to the exception event has left states behind."
  },
  {
   "property": "C38",
   "status": "proved",
   "theorems": [
    "SC.C38_one_at_a_time",
    "SC.C38_posted_later"
   ],
   "note": "Reachable machines are those on which initiate() was only called when terminate() leaves the machine terminated (C01, C36)."
  },
  {
   "property": "C28",
   "status": "proved",
   "theorems": [
    "SC.C28_order",
    "SC.C28_equivalent",
    "SC.C28_map",
    "SC.C28_machine"
   ],
   "note": ""
  },
  {
   "property": "C30",
   "status": "proved",
   "theorems": [
    "SC.Fifo.C30_fifo",
    "SC.Fifo.C30_empty_item",
    "SC.Fifo.C30_terminated",
    "SC.Fifo.C30_returns",
    "SC.Fifo.C30_throws",
    "SC.Fifo.C30_after_termination",
    "SC.Fifo.C30_ends"
   ],
   "note": ""
  },
  {
   "property": "C31",
   "status": "proved",
   "theorems": [
    "SC.Fifo.C31_exclusive",
    "SC.Fifo.C31_order",
    "SC.Fifo.C31_conserved",
    "SC.Fifo.C31_terminated",
    "SC.Fifo.C31_item",
    "SC.Fifo.C31_no_lost_wakeup",
    "SC.Fifo.C31_no_deadlock",
    "SC.Fifo.C31_woken"
   ],
   "note": ""
  },
  {
   "property": "C32",
   "status": "partial",
   "theorems": [
    "SC.Fifo.C32_serve_partial",
    "SC.Fifo.C32_order",
    "SC.Fifo.C32_independent_partial",
    "SC.Fifo.C32_discarded_partial",
    "SC.Fifo.C32_safe",
    "SC.Fifo.Ex.C32_constructor_throws",
    "SC.Fifo.Ex.C32_nested"
   ],
   "note": "False in general: Ex.C32_constructor_throws and Ex.C32_nested. C32_order holds without conditions. The others are proved if no processor or work item calls operator() of its own scheduler and no operation has met a holder left empty by a throwing constructor."
  },
  {
   "property": "C34",
   "status": "proved",
   "theorems": [
    "SC.Result.C34_conserved",
    "SC.Result.C34_read_once",
    "SC.Result.C34_asserts",
    "SC.Result.C34_marks"
   ],
   "note": ""
  },
  {
   "property": "C27",
   "status": "proved",
   "theorems": [
    "SC.C27_state_cast",
    "SC.C27_first",
    "SC.C27_state_downcast"
   ],
   "note": "Reachable machines are those on which initiate() was only called when terminate() leaves the machine terminated (C01, C36)."
  },
  {
   "property": "C33",
   "status": "proved",
   "theorems": [
    "SC.EventRef.C33_safe",
    "SC.EventRef.C33_held",
    "SC.EventRef.C33_freed_once",
    "SC.EventRef.C33_last_reference",
    "SC.EventRef.C33_no_leak",
    "SC.EventRef.C33_from_this_counted",
    "SC.EventRef.C33_from_this_added",
    "SC.EventRef.C33_from_this_copied",
    "SC.EventRef.C33_value"
   ],
   "note": "Operations may come from any number of threads; Spec.Allowed states what clients have to observe."
  },
  {
   "property": "C35",
   "status": "proved",
   "theorems": [
    "SC.C35_process_event",
    "SC.C35_process_event_returns",
    "SC.C35_terminate",
    "SC.C35_terminate_returns",
    "SC.C35_initiate",
    "SC.C35_initiate_returns",
    "SC.Spec.Why.last",
    "SC.Spec.Why.original"
   ],
   "note": "Reachable machines are those on which initiate() was only called when terminate() leaves the machine terminated (C01, C36). Spec.Dies and Spec.Why say which exception propagates and that all states are destroyed; Spec.AllHandled what happened to exceptions that do not propagate."
  },
  {
   "property": "C18",
   "status": "proved",
   "theorems": [
    "SC.C18_process_event_returns",
    "SC.C18_process_event",
    "SC.C18_terminate_returns",
    "SC.C18_terminate",
    "SC.C18_initiate_returns",
    "SC.C18_initiate"
   ],
   "note": "Reachable machines are those on which initiate() was only called when terminate() leaves the machine terminated (C01, C36). Routed/Offers say it in terms of the observed calls: OfferedTo is the outermost state left without one of its regions by the calls made so far, otherwise the state that was visited; for reactions SentTo says so if relaxed = false (SentTo.offeredTo; relaxed transition context: C45, C60)."
  },
  {
   "property": "C39",
   "status": "proved",
   "theorems": [
    "SC.C39_process_event_returns",
    "SC.C39_process_event",
    "SC.C39_terminate",
    "SC.C39_initiate"
   ],
   "note": "Reachable machines are those on which initiate() was only called when terminate() leaves the machine terminated (C01, C36). The interrupted reaction is LocalUntil; an interrupted entry is a prefix of a completed one (Begins.completes). States destroyed by stack unwinding after the failing call are listed explicitly."
  },
  {
   "property": "C37",
   "status": "proved",
   "theorems": [
    "SC.C37_relaxed_transition",
    "SC.C37_relaxed_throw",
    "SC.C37_same_as_default",
    "SC.Ex.C37_clearing_matters",
    "SC.C06_transit",
    "SC.C08_transit",
    "SC.C11_transit"
   ],
   "note": "transit is transitRelaxed if BOOST_STATECHART_RELAX_TRANSITION_CONTEXT is defined (Chart.relaxed), so all whole-machine theorems cover it; C37_same_as_default compares it with transitDefault from the same machine. C37_clearing_matters shows why the proviso about clearing history is needed."
  },
  {
   "property": "C40",
   "status": "proved",
   "theorems": [
    "SC.C40_state_range",
    "SC.C40_state_cast",
    "SC.C40_state_downcast",
    "SC.stateCast_view",
    "SC.Ex.C40_terminated_differs"
   ],
   "note": "Reachable machines are those on which initiate() was only called when terminate() leaves the machine terminated (C01, C36). Stated for user code that notes what it sees (Prog.watch). stateCast_view: a query made on the machine gives the same answer as on what was noted."
  },
  {
   "property": "C41",
   "status": "proved",
   "theorems": [
    "SC.Fifo.C41_machine",
    "SC.Fifo.C41_safe",
    "SC.Fifo.C41_destroyed",
    "SC.Fifo.C41_exception",
    "SC.Fifo.Spec.Fed.reach"
   ],
   "note": "Assumptions as in the quantifier: bad = false says that initiate() was called legally and every call ended within the step bound; m.st.fault = false that no operation met a holder left empty by a throwing constructor; Fleet.Flat that user code does not call operator(). Scheduler calls made by callbacks are executed after the operation. By Fed.reach all theorems about Reach apply to each machine."
  },
  {
   "property": "C42",
   "status": "proved",
   "theorems": [
    "SC.C42_terminated",
    "SC.C42_subject",
    "SC.C42_context",
    "SC.C42_outermost_context",
    "SC.C42_simple_ctor",
    "SC.C42_outside"
   ],
   "note": "Noted: machines whose user code takes notes, between calls, when the next queued event is about to be dispatched, and after the destructor; v.mach is the part of the machine the functions read, as seen by that call."
  },
  {
   "property": "C43",
   "status": "proved",
   "theorems": [
    "SC.C43_process_event",
    "SC.C43_initiate",
    "SC.C43_forever",
    "SC.C43_returns",
    "SC.C43_initiate_returns",
    "SC.C43_limit",
    "SC.C43_limit_initiate",
    "SC.Ex.babble_forever"
   ],
   "note": "Reachable machines are those on which initiate() was only called when terminate() leaves the machine terminated (C01, C36). processEvent P e k = ok false: still running after k queued events. Functions of the user and of the library terminate by construction in the model (everything but the queue loop is structurally recursive). An example shows that the bound is attained, another one (babble) that process_event() can run forever."
  },
  {
   "property": "C44",
   "status": "proved",
   "theorems": [
    "SC.C44_where",
    "SC.C44_rest",
    "SC.C44_memory",
    "SC.C44_all_recorded",
    "SC.C25_clear_call",
    "SC.C23_history",
    "SC.Visible.last",
    "SC.Ex.C23_exit_not_remembered",
    "SC.Ex.C24_exit_not_remembered"
   ],
   "note": "Reachable machines are those on which initiate() was only called when terminate() leaves the machine terminated (C01, C36). `cut s k` in the log: exit() of s completed, recording ended at the shallow history (k = none) or at the deep history of context q (k = some q). C23_history (Recalls) says that exits of uninterrupted reactions are recorded completely."
  },
  {
   "property": "C45",
   "status": "partial",
   "theorems": [
    "SC.C45_process_event_returns_partial",
    "SC.C45_process_event_partial",
    "SC.Ex.C45_not_outermost"
   ],
   "note": "Proved: the state exists and is the outermost unstable one, or no state is unstable and it is the innermost visited one; only if a transition was interrupted while it left states after its action, having left others before (LateExit), it is just some unstable state. Missing: that it is the outermost one then, too, which is false: Ex.C45_not_outermost. See C60."
  },
  {
   "property": "C46",
   "status": "proved",
   "theorems": [
    "SC.C46_region_filled",
    "SC.Ex.C46_termination_empties",
    "SC.Ex.C46_relaxed"
   ],
   "note": "Orderly: default configuration, or Aligned (contexts of actions as without the macro), or no exception translation. Ex.C46_termination_empties: a termination reaction does empty a region. Ex.C46_relaxed: false with relaxed transition context and exception translation."
  },
  {
   "property": "C47",
   "status": "proved",
   "theorems": [
    "SC.Fifo.C47_life",
    "SC.Fifo.C47_exists",
    "SC.Fifo.C47_busy",
    "SC.Fifo.C47_safe",
    "SC.Fifo.C47_dispose",
    "SC.Fifo.C47_late",
    "SC.Fifo.Ex.C47_late_destructor"
   ],
   "note": "Used: client calls have returned or thrown; Busy: in the middle of a call, after any number of work items, also nested ones. C47_dispose assumes that destructors of processors do not use the scheduler while it is destroyed; C47_late and Ex.C47_late_destructor show that this is needed. A destructor that throws is not modelled. lost: no memory for the node in processorSet_."
  },
  {
   "property": "C48",
   "status": "proved",
   "theorems": [
    "SC.C48_no_hidden_state",
    "SC.C48_call",
    "SC.C48_legal",
    "SC.C48_destruct",
    "SC.C48_restart",
    "SC.Ex.C48_alike"
   ],
   "note": "Reachable machines are those on which initiate() was only called when terminate() leaves the machine terminated (C01, C36). Alike: what the machines agree in; Added: the same calls of user code, exceptions and queue operations. C48_restart assumes that nodes of the list and the maps can be allocated (NodeAlloc): a newly constructed machine has to allocate what a used one already has."
  },
  {
   "property": "C49",
   "status": "proved",
   "theorems": [
    "SC.Fifo.C49_life",
    "SC.Fifo.C49_exists",
    "SC.Fifo.C49_busy",
    "SC.Fifo.C49_safe",
    "SC.Fifo.C49_order",
    "SC.Fifo.C49_returns",
    "SC.Fifo.C49_dispose"
   ],
   "note": "Shared: between calls of the thread that runs the work items; SharedBusy: at any time. Other threads may act before every access to shared data. Data races are excluded by construction (one item is queued at a time, C31 has the locking); terminated() is called by the running thread only, as its comment asks for."
  },
  {
   "property": "C50",
   "status": "proved",
   "theorems": [
    "SC.Rtti.C50_type",
    "SC.Rtti.C50_native",
    "SC.Rtti.C50_same",
    "SC.Rtti.C50_custom",
    "SC.Rtti.C50_custom_static",
    "SC.Rtti.Ex.C50_derived_event"
   ],
   "note": "hm: the MostDerived of a MostDerived is itself, which event::clone needs. Each class has one id_holder object (not so across DLLs, doc/faq.html)."
  },
  {
   "property": "C51",
   "status": "proved",
   "theorems": [
    "SC.Fifo.C51_serve",
    "SC.Fifo.C51_discarded",
    "SC.Fifo.C51_safe",
    "SC.Fifo.C51_machine",
    "SC.Fifo.C51_machine_safe",
    "SC.Fifo.C51_destroyed",
    "SC.Fifo.C51_exception"
   ],
   "note": "Flat: code that does not call operator() of its own scheduler; bad: an initiate() that is not legal, or an operation longer than the bound (fuel). Steps of other threads come between operations on a machine, not inside of one. C51_serve, C51_discarded and C51_machine assume that no null pointer was dereferenced, which by C51_safe needs a constructor that threw."
  },
  {
   "property": "C52",
   "status": "proved",
   "theorems": [
    "SC.Fifo.C52_executed",
    "SC.Fifo.C52_returns",
    "SC.Fifo.C52_terminated"
   ],
   "note": "Live: strong fairness for every thread, work items end, operator() is called again unless terminated. long_live is an execution that meets it."
  },
  {
   "property": "C53",
   "status": "proved",
   "theorems": [
    "SC.C53_call",
    "SC.C53_library",
    "SC.C53_reference",
    "SC.C53_destroyed"
   ],
   "note": "Reachable machines are those on which initiate() was only called when terminate() leaves the machine terminated (C01, C36). Session: calls that returned or threw; C53_call also covers a call that is still processing queued events (result false after k events). abs maps a library object to a state of the reference machine, Matches lists what is observable. Plain: user code does not read private members of state objects."
  },
  {
   "property": "C54",
   "status": "proved",
   "theorems": [
    "SC.C54_call",
    "SC.C54_library",
    "SC.C54_calm",
    "SC.C54_initiate_is_legal"
   ],
   "note": "Smooth: no user code throws; allocations succeed and do not change the environment. Calm.Matches lists what is observable. Derived from C53: the reference machine computes the functions of Calm.lean if nothing throws (Calms.lean). The functions on context lists (common context, path) are those of Chart.lean (independent characterisation: CommonCtx, Props/Order.lean); the regions and states to leave are those of Spec.lean."
  },
  {
   "property": "C55",
   "status": "proved",
   "theorems": [
    "SC.C55_process_event",
    "SC.C55_initiate",
    "SC.Ex.C55_needed"
   ],
   "note": "Descends, MayDefer and Reticent (Cascade.lean) are the conditions. The proof is about the reference machine of C53: every turn lowers the multiset of the ranks of the events in both queues in the Dershowitz-Manna order, or defers the event and leaves the multiset as it was. Plain: user code does not read private members, as in C53."
  },
  {
   "property": "C56",
   "status": "proved",
   "theorems": [
    "SC.C56_library",
    "SC.C56_any_order",
    "SC.C56_call",
    "SC.C56_same",
    "SC.C56_one_behaviour",
    "SC.Ex.C56_order_matters",
    "SC.Ex.C56_past_matters"
   ],
   "note": "AnyOrder.Run is the machine of the documentation: Calm.lean with a permutation of the innermost states before each dispatch. Orderless and Unambiguous are the conditions on user code and chart; Smooth, Plain and Contract as in C54. Matches: what is observable, the range up to its order. The last two theorems are the counterexamples."
  },
  {
   "property": "C57",
   "status": "proved",
   "theorems": [
    "SC.C57_nodes",
    "SC.C57_bound",
    "SC.C57_one",
    "SC.C57_width",
    "SC.C57_width_exact",
    "SC.C57_entries"
   ],
   "note": "Mach.len is the number of nodes of currentStates_ (used or not), shKeys/dhKeys the keys of the history maps. alive and Forest: the objects that existed after a prefix of the observed calls, and the sets of objects that can exist together. The bound on nodes is part of the invariant (Peak, Inv.lean). width: the bound computed from the chart; C57_width_exact shows that it is the greatest number of innermost states of any set of objects that can exist together. Queues are not bounded by anything (see C55)."
  },
  {
   "property": "C58",
   "status": "proved",
   "theorems": [
    "SC.Fifo.C58_equivalent",
    "SC.Fifo.C58_reach",
    "SC.Fifo.C58_dispose"
   ],
   "note": "Turn: the client runs code of its own, or operator(); turns: one after the other, with the results. Hub is the reference scheduler, Fits what is compared. bad (an operation of a machine did not end within its fuel, or initiate() was called where its initial termination fails) is the same in both. C58_reach: the sessions are those of C41."
  },
  {
   "property": "C59",
   "status": "proved",
   "theorems": [
    "SC.C59_independent",
    "SC.C59_untouched",
    "SC.C59_swap",
    "SC.Ex.C59_deferral_connects"
   ],
   "note": "Part: the region with its states, events, transition actions and its part of the environment. Independent: the conditions; Unconnected: the same without the one about deferral. Feed: calls of process_event that return, and changes of the rest of the environment. Scoped: user code of a state is called for events of its side. C59_deferral_connects: a witness that regions with deferral are connected."
  },
  {
   "property": "C60",
   "status": "proved",
   "theorems": [
    "SC.C60_process_event_returns",
    "SC.C60_process_event"
   ],
   "note": "Reachable machines are those on which initiate() was only called when terminate() leaves the machine terminated (C01, C36). Aligned: the condition on actions. Aimed: what was observed, an event, an exception, the exception event and where it was dispatched; the last parameter, the excuse for missing the outermost unstable state, is False here. process_event that throws: as in C18."
  },
  {
   "property": "C61",
   "status": "proved",
   "theorems": [
    "SC.Fifo.C61_equivalent",
    "SC.Fifo.C61_moment",
    "SC.Fifo.C61_complete",
    "SC.Fifo.C61_exactly",
    "SC.Fifo.C61_reach",
    "SC.Fifo.C61_alone"
   ],
   "note": "Tale: the turns of a client and how they end, with steps of other threads in between; LibS and HubS: a turn with the library and with the reference scheduler, other threads acting before each step. C61_moment: at any moment during a call. C61_reach: the schedulers are those of C51. C61_alone: what C58 says of a client that is alone is among the outcomes of the reference scheduler. C61_complete: the converse, for calls that end (not for moments during a call); C61_exactly: both."
  },
  {
   "property": "C62",
   "status": "proved",
   "theorems": [
    "SC.Demo.Keyboard.C62_keyboard",
    "SC.Demo.Keyboard.C62_parity",
    "SC.Demo.Keyboard.C62_order_is_not_regions"
   ],
   "note": "Fed: initiate(), then process_event for each key. Lights.press: what the user expects of a key. The environment is the output of Active::react."
  },
  {
   "property": "C63",
   "status": "proved",
   "theorems": [
    "SC.Demo.BitMachine.C63_bit_machine",
    "SC.Demo.BitMachine.C63_bits",
    "SC.Demo.BitMachine.C63_visit_all",
    "SC.Demo.BitMachine.C63_visits"
   ],
   "note": "number: the xor of the flipped bits; visit: the bits flipped by VisitAllStates; shown: the states displayed. For all numbers of bits (the type unsigned int limits them to 32). UniqueObject, which replaces operator new, is not modelled."
  },
  {
   "property": "C64",
   "status": "proved",
   "theorems": [
    "SC.Demo.StopWatch.C64_stop_watch"
   ],
   "note": "The environment is the clock and the members elapsedTime_ and startTime_; presses and total: what the user expects. Whole seconds, no rounding of double; the clock does not change during a call."
  },
  {
   "property": "C65",
   "status": "proved",
   "theorems": [
    "SC.Demo.Camera.C65_camera",
    "SC.Demo.Camera.C65_one_picture_per_release",
    "SC.Demo.Camera.C65_no_picture_without_memory"
   ],
   "note": "The environment is the output and the results of IsBatteryLow and IsMemoryAvailable, set before each event. next: the four-state machine the user sees."
  },
  {
   "property": "C66",
   "status": "proved",
   "theorems": [
    "SC.Demo.PingPong.C66_ping_pong",
    "SC.Demo.PingPong.C66_scheduler_destroyed"
   ],
   "note": "The library with the fleet game M fuel: a player is an asynchronous_state_machine with the state Waiting, and its calls of the scheduler are made when its reaction has ended (Async). The counters are unbounded. played: what the client has done and got. rally: who got the ball. Proved on the reference scheduler by induction on M, and transferred by C58. The variant with two schedulers and two threads is not modelled."
  },
  {
   "property": "C67",
   "status": "proved",
   "theorems": [
    "SC.Demo.StopWatch2.C67_stop_watch2"
   ],
   "note": "The library with the chart and the user code of StopWatch2.cpp. The variable of main to which the event refers is the member shown of the environment; setup makes it anew for each event, as main does. total and presses say what the user expects. Times are integers."
  },
  {
   "property": "C68",
   "status": "proved",
   "theorems": [
    "SC.Demo.Performance.C68_counts",
    "SC.Demo.Performance.C68_test",
    "SC.Demo.Performance.C68_constant"
   ],
   "note": "The library with the chart and the actions of Performance.cpp for b bits. number, countP: what the user expects. sent: the events sent by PerformanceTester::Test. C68_constant is a computation about the constant of the program. The measured times are not modelled; counters are unbounded."
  },
  {
   "property": "C69",
   "status": "proved",
   "theorems": [
    "SC.C69_first",
    "SC.C69_sessions",
    "SC.C69_order",
    "SC.C69_dead"
   ],
   "note": "Equality of the functions of the interface for two programs that differ only in `reactions`, without assumptions on chart or user code. firstFor is the specification: the first reaction of the list that fits."
  },
  {
   "property": "C70",
   "status": "proved",
   "theorems": [
    "SC.C70_handwritten",
    "SC.C70_custom"
   ],
   "note": "For sequences of calls (Session) in both directions. `handwritten` says what a function react returns in place of a built-in reaction; Interchangeable does not compare which actions and functions react were called (that is what differs), but their effects on the environment."
  },
  {
   "property": "C71",
   "status": "proved",
   "theorems": [
    "SC.C71_call",
    "SC.C71_sessions"
   ],
   "note": "Equality of the functions of the interface, for any value of Chart.relaxed of the given program. Aligned is the condition on actions (Fits). States that have reactions exist (their number is below n). An example shows that the macro matters for an action of an inner context."
  },
  {
   "property": "C72",
   "status": "proved",
   "theorems": [
    "SC.C72_base_class"
   ],
   "note": "For sequences of calls (Session) in both directions, by the reference machine of C53: it differs only in the moment at which an entered state is attached to its context. Unaware is the condition on outermost states. An example shows that it is needed."
  },
  {
   "property": "C73",
   "status": "proved",
   "theorems": [
    "SC.C73_call",
    "SC.C73_sessions"
   ],
   "note": "Inherits: for each state and event type the first reaction is unchanged, or there was none and now it is that of the outer state to which the event was forwarded (Unheard, Inheritable). The machine afterwards is equal in all members of the model. An example shows that the condition on the destination is needed."
  },
  {
   "property": "C74",
   "status": "proved",
   "theorems": [
    "SC.C74_call",
    "SC.C74_sessions"
   ],
   "note": "SameTranslations: for all exceptions of CanRaise (user code of states, allocations for states) both translators give the same event, or both are Futile. The machine afterwards is equal in all members of the model. An example shows that a translation to an event with a reaction matters."
  },
  {
   "property": "C75",
   "status": "proved",
   "theorems": [
    "SC.C75_never_entered",
    "SC.C75_states",
    "SC.C75_call",
    "SC.C75_sessions"
   ],
   "note": "Sealed: the closure condition; SameCode: the code of the states in the set is unchanged. No well-formedness of the chart or contract of user code is needed: the functions of the model are equal, also in their faults. never_entered is about all constructor calls in the log of the model."
  },
  {
   "property": "C76",
   "status": "proved",
   "theorems": [
    "SC.C76_events",
    "SC.C76_call",
    "SC.C76_sessions",
    "SC.C76_reach"
   ],
   "note": "Posts: what user code and the translator may post; SameFor: the first fitting reaction and react() are unchanged for the events of the set; Sends and ReachBy: the client. No well-formedness of the chart or contract of user code is needed: the functions of the model are equal, also in their faults."
  },
  {
   "property": "C77",
   "status": "proved",
   "theorems": [
    "SC.C77_call",
    "SC.C77_raised",
    "SC.C77_returns"
   ],
   "note": "MayThrow lists the sources of exceptions per call. C77_call and C77_raised hold for every machine of the model, reachable or not; C77_returns uses C01 and so needs a well-formed chart, the contract of user code, a reachable machine and a legal call."
  }
 ]
}