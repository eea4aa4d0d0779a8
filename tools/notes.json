{
 "C30": {
  "note": "Lens laws hold on in-range keys; C30_at_law_limits shows where put-get fails by design, C30_at_insert_not_inert shows insert-style containers."
 },
 "C35": {
  "status": "proved",
  "note": "The English statement says when it fails and when it holds: the witnesses are C35_alternative_false, C35_map_opt_false, C35_bind_opt_false, C35_zip_false and C35_value_write_false; C35_agrees is the positive part for every lens expression, and C35_covered and C35_map_opt_covered say which writes it covers."
 },
 "C41": {
  "status": "proved",
  "note": "The claim as listed is that nested step is broken: lost task and undefined behaviour are proved on witnesses, and that the first nested step always throws is proved for all histories."
 },
 "C67": {
  "status": "proved",
  "note": "The English statement says when it fails: C67_false is a witness, C67_old_branch says what is shown in every such case, C67_shows_result is the positive part."
 },
 "C73": {
  "status": "proved",
  "note": "The English statement says where it fails: C73_sdl_finish_false and C73_sdl_simple_paused_false are the witnesses, the other theorems the positive part."
 },
 "C75": {
  "status": "proved",
  "note": "The claim as listed is false; the witness schedule is proved."
 },
 "C07": {
  "status": "proved",
  "note": "Proved for comparable value types on the path to the reader (the library's own has_changed test); C07_not_comparable_false shows the claim fails for types without operator==, and the English statement says so."
 },
 "C17": {
  "status": "proved",
  "note": "Proved as stated. C17_late_stays_false is a witness for the limit in the statement: a reader destroyed after the loop has gone past it keeps its link until the next notification."
 },
 "C24": {
  "status": "proved",
  "note": "Proved as stated; C24_fed_again_false is the witness for the exception in the statement (writing through a cursor zoomed from the transformed one processes the present source value once more)."
 },
 "C09": {
  "status": "proved",
  "note": "Proved as stated, for every graph and every stack from which the call is made; C09_merged_false is the witness for the exception in the statement."
 },
 "C10": {
  "status": "proved",
  "note": "Proved as stated: the two counterexamples of the statement are C10_diamond_false and C10_restored_false; C10_commit and C10_set are the positive part, for any number of writes to transactional states before the commit (C10_commit) and for one write through any zoomed cursor of an automatic state (C10_set)."
 },
 "C12": {
  "status": "proved",
  "note": "The English statement says for which cursors it holds: C12_zoomed_false is the counterexample for zoomed transactional cursors, C12_state and C12_automatic are the positive parts."
 },
 "C13": {
  "status": "proved",
  "note": "The English statement says when it holds: C13_uncommitted_false is the counterexample, C13_merged the positive part."
 },
 "C25": {
  "status": "proved",
  "note": "The English statement says FALSE: C25_diamond_false is the counterexample. C25_single_path shows that it holds without a diamond."
 },
 "C54": {
  "status": "proved",
  "note": "The recognition is false (C54_false); that running a noop effect is observably equal to skipping it is C54_same; C54_null says what becomes of null effects."
 },
 "C57": {
  "status": "proved",
  "note": "The English statement says that minimality is false: C57_minimal_false is the witness; the other parts are C57_covers, C57_added and C57_compatible."
 },
 "C55": {
  "status": "proved",
  "note": "Contexts are not values in the store model: a thunk's code may do whatever user code may do (dispatch, futures). For reducers without effects on transactional stores the equality is that of models (C55_commit, C55_shown), the future being fulfilled one task later."
 },
 "C59": {
  "status": "proved",
  "note": "The English statement includes the limit: C59_absent_false is its witness."
 },
 "C26": {
  "status": "proved",
  "note": "The English statement names the two cases in which it is false: C26_initial_false and C26_update_false are the witnesses. C26_same_value and C26_latched cover reading, C26_same_write, C26_write and C26_write_auto writing. C26_write is for transactional sources, C26_write_auto for cursors zoomed from distinct automatic states."
 },
 "C71": {
  "status": "proved",
  "note": "The English statement says it is false for non-empty targets: C71_sequence_false, C71_map_false and C71_id_false are the witnesses; C71_loads and C71_fresh are the positive part, for every nesting of the serialised types."
 },
 "C72": {
  "status": "proved",
  "note": "The English statement says it is false for exceptions not derived from std::exception: C72_other_false is the witness."
 },
 "C77": {
  "status": "proved",
  "note": "The English statement says it is false before the first change: C77_initial_false is the witness. The JSON text of the bodies is not modelled."
 },
 "C78": {
  "status": "proved",
  "note": "The English statement says it is false in general: C78_false is the witness, C78_inside the part that holds."
 },
 "C79": {
  "status": "proved",
  "note": "Proved as stated; C79_distinct_false has the witnesses for the part that the statement says is false."
 },
 "C80": {
  "status": "proved",
  "note": "Proved as stated; C80_missed_false and C80_atomic_false are the witnesses for the parts that the statement says are false."
 },
 "C83": {
  "status": "proved",
  "note": "The English statement says where it fails: C83_qml_unseen proves that nothing runs before the first frame; the other theorems are the positive part."
 },
 "C84": {
  "status": "proved",
  "note": "The claim as listed is false: C84_qml_nested_false is the witness, C84_qml_nested_throws says what happens in every history up to the first nested step."
 },
 "C85": {
  "status": "proved",
  "note": "Proved as stated; C85_stale_false and C85_mixed_false are the witnesses for the part that the statement says is false. Readers with unpublished changes (Tidy) are excluded from the statement that readers become or stay right."
 },
 "C86": {
  "status": "proved",
  "note": "The English statement says when it fails and when it holds: C86_nullopt_false and C86_value_false are the witnesses, C86_lvalue with C86_covered and C86_at_member the positive part. getset is modelled for getters that take a constant reference."
 },
 "C87": {
  "status": "proved",
  "note": "The English statement says what fails and what holds: C87_inside_false and C87_copies_false are the witnesses, the other theorems the positive part. Programs that use a promise object inside of its own call, or after an exception has left it, end in the outcome 'misuse', about which only C87_unlocked and C87_no_deadlock speak."
 },
 "C88": {
  "status": "proved",
  "note": "C88_mixed_false and C88_early_false are the witnesses for what the statement says is false; the other theorems prove the positive part. The store is a node that evaluates actions at arbitrary moments and publishes at arbitrary moments; which moments these are for a given event loop is the subject of C48 to C51."
 },
 "C89": {
  "status": "proved",
  "note": "C89_exponential_false is the witness for what the statement says is false, for every k; the other theorems prove the positive part. Writes through zoomed cursors also compute values on the way up (refresh); these are not counted."
 },
 "C91": {
  "status": "proved",
  "note": "C91_pending_false, C91_context_false and C91_inside_false are the witnesses for what the statement says is false; C91_exact, C91_safe and C91_reader prove the positive part."
 },
 "C92": {
  "status": "proved",
  "note": "C92_future_false is the witness for what the statement says is false; the other theorems prove the positive part."
 },
 "C93": {
  "status": "proved",
  "note": "C93_early_false and C93_lost_false are the witnesses for what the statement says is false; C93_model, C93_resume and C93_stuck prove the positive part. C93_model is for reducers that do not throw, as the model of the debugger in C61 to C65."
 },
 "C94": {
  "status": "proved",
  "note": "C94_pool_false and C94_get_false are the witnesses for what the statement says is false; the other theorems prove the positive part. A closure that a promise has posted is one step, and the queue of the event loop and the promises are taken to be thread safe."
 },
 "C95": {
  "status": "proved",
  "note": "C95_paused_false and C95_automatic_false are the witnesses for what the statement says is false; the other theorems prove the positive part."
 },
 "C96": {
  "status": "proved",
  "note": "C96_branch_false is the witness for what the statement says is false; the other theorems prove the positive part."
 },
 "C99": {
  "status": "proved",
  "note": "C99_null_false and C99_clear_false are the false part of the statement; everything else is proved, with the exact effect of writing nullopt in C99_null."
 },
 "C100": {
  "status": "proved",
  "note": "C100_merge_false is the witness of the false part; C100_assertion says exactly when the assertion fails."
 },
 "C101": {
  "status": "proved",
  "note": "C101_debug_false is the witness of the false part; C101_debug says that no other data races exist."
 },
 "C102": {
  "status": "proved",
  "note": "C102_adopt_false and C102_adopt_local_false are the witnesses of the false part."
 },
 "C103": {
  "status": "proved",
  "note": "C103_stale_false is the witness of the false part. C85_left, C85_unrelated, C85_nothing_written hold for all causes of exceptions."
 },
 "C104": {
  "status": "proved",
  "note": "C104_missed_false is the witness of the false part. That assigning and loading immer::atom is atomic is assumed."
 },
 "C53": {
  "status": "proved",
  "note": "C53_null is the false part for null effects."
 },
 "C105": {
  "status": "proved",
  "note": "C105_optional_false and C105_sequence_false are the witnesses of the false parts. Lazy references may have been called already (C58)."
 },
 "C106": {
  "status": "proved",
  "note": "C106_rejected_false, C106_update_false and C106_again_false are the witnesses of the false parts."
 },
 "C107": {
  "status": "proved",
  "note": "C107_attach_false is the witness of the false part. C107_returns and C107_goes_on together say that calls return."
 },
 "C108": {
  "status": "proved",
  "note": "C108_endless_false and C108_not_comparable_false prove the false parts false for all graphs."
 },
 "C109": {
  "status": "proved",
  "note": "C109_before_false is the witness of the false part."
 },
 "C110": {
  "status": "proved",
  "note": "C110_exponential_false is the witness of the false part, for every k."
 },
 "C111": {
  "status": "proved",
  "note": "C111_forever_false has the two witnesses of the false part."
 },
 "C112": {
  "status": "proved",
  "note": "C112_order_false and C112_starved_false are the witnesses of the false parts. Other threads dispatch to stores without futures only; adopt() and nested step() are excluded (C75, C42)."
 },
 "C113": {
  "status": "proved",
  "note": "C113_throw_false is the witness of the false part. For futures on the manual loop see C87."
 },
 "C114": {
  "status": "proved",
  "note": "C114_graph connects this with the one list of callbacks in the model of the graph (C01 and others)."
 },
 "C115": {
  "status": "proved",
  "note": "An exception is a reader that was moved out of the property: its signal is still emitted while READ throws (C115_moved_false). What Qt does with signals is not modelled."
 },
 "C116": {
  "status": "proved",
  "note": "What is assumed of Boost.Asio is listed in Loop/Asio.lean. C116_stopped_false: work can be lost after finish()."
 },
 "C117": {
  "status": "proved",
  "note": "Exact numbers instead of float, and no wrap-around of the clock. C117_emscripten_false: with Emscripten, frames that are any time apart get 0."
 },
 "C118": {
  "status": "proved",
  "note": "What is assumed of Qt is listed in Loop/QtPool.lean. C118_deadlock_false and C118_pending_false are the false parts."
 },
 "C119": {
  "status": "proved",
  "note": "Reducers without exceptions; C119_loop_false is the false part."
 },
 "C120": {
  "status": "proved",
  "note": "For stores on one loop see C98. A future of another store is a future of user code. C120_get_false is the false part."
 },
 "C121": {
  "status": "proved",
  "note": "Overload resolution of C++ is part of the model; parameters differ by type only. C121_converted_false is the false part."
 },
 "C122": {
  "status": "proved",
  "note": "Asio and Beast are events: an operation ends, with or without an error. C122_accept_error_false is the false part."
 },
 "C123": {
  "status": "proved",
  "note": "The reducer of the example; its user interface is not modelled. C123_back_false, C123_over_moves_false, C123_different_false and C123_same_apple_false are the false parts."
 },
 "C124": {
  "status": "proved",
  "note": "The queue of the store is part of the model. C124_edits_lost_false and C124_old_file_false are the false parts."
 },
 "C125": {
  "status": "proved",
  "note": "Of floats only what Floats.ok says is assumed; whether the ball meets the paddle is any function. The score is unbounded."
 },
 "C126": {
  "status": "proved",
  "note": "Exceptions of the user's own types are not modelled. C126_enum_false, C126_xform_false, C126_goto_false and C126_count_false are the false parts."
 },
 "C127": {
  "status": "proved",
  "note": "Exact numbers instead of float: rounding is not modelled. C127_point_false, C127_small_false and C127_tick_false are the false parts."
 },
 "C128": {
  "status": "proved",
  "note": "The code is that of the documentation, with its misprints (names of parameters) put right. C128_effects_false is the false part."
 },
 "C129": {
  "status": "proved",
  "note": "Watchers do not throw here (for that see C81), and the code of the effects dispatches and returns, as in the documentation. C129_undefined_false is the false part."
 },
 "C130": {
  "status": "proved",
  "note": "Indices are unbounded integers: counting down from the least int, which overflows, is left out."
 },
 "C33": {
  "status": "proved",
  "note": "C33_bind_opt_comp_false is the false part: without the law that setting what is shown changes nothing, the two compositions differ."
 },
 "C131": {
  "status": "proved",
  "note": "The statements about the first line of the documented session and about models without == are refuted, with the rest proved. int is of 32 bits; inputs that overflow the counter are left out."
 },
 "C132": {
  "status": "proved",
  "note": "That items stay with what they have shown, and that what was written can be read, are refuted; the rest is proved. The conversion of texts to and from QString is left out, and files are what was read from them."
 },
 "C133": {
  "status": "proved",
  "note": "That actions are evaluated in the order of dispatch, and that they are evaluated without a frame, are refuted; the rest is proved. User code that runs nested event loops of Qt, and dispatches by other threads to stores with futures, are left out."
 },
 "C134": {
  "status": "proved",
  "note": "That all actions are evaluated, and that all evaluated ones are shown, are refuted; the rest is proved. Stores with futures are left out; so is the version for Emscripten, which uses timeouts instead."
 },
 "C135": {
  "status": "proved",
  "note": "That a click acts on what is shown is refuted for clicks while other actions wait; the rest is proved. The window itself, and when it makes new items, is not modelled."
 },
 "C136": {
  "status": "proved",
  "note": "Two clicks in one frame and frames in browsers are refuted; the rest is proved. It is assumed that other threads do not pause or resume the loop. The windows of ImGui are not modelled."
 },
 "C137": {
  "status": "proved",
  "note": "Rooms that are not in the house are refuted; the rest is proved. The readers of a component are modelled by what they give for a house and by their notification upon change, as in C01, C07 and C10 for the nodes of readers. Components live as long as the store."
 },
 "C138": {
  "status": "proved",
  "note": "Calls of single watchers and the order of effects are refuted; the rest is proved. The watchers are attached to the store itself and stay; they do not throw. The reducer does not run the event loop."
 },
 "C139": {
  "status": "proved",
  "note": "Parts of characters, typing behind q, and the text on the screen are refuted; the rest is proved. Without debuggers. Boost.Asio and ncurses are modelled by what their documentation says: a wait for readiness is over for all that wait at once, and cancel leaves alone what is due already."
 },
 "C140": {
  "status": "proved",
  "note": "The last keys, a full queue and the going on of frames are refuted; the rest is proved. Without other threads, debuggers, pause and finish; SDL is modelled to put events into its queue only while it is asked for the next one."
 },
 "C141": {
  "status": "proved",
  "note": "Closing the dialog without accepting it, and ticks that wait, are refuted; the rest is proved. The timer may trigger at any moment while it runs; keys may come while the dialog is open."
 },
 "C142": {
  "status": "proved",
  "note": "Files of other programs and items without a text are refuted; the rest is proved. The text of a JSON document is not modelled, only its tree; that an object is no list is not modelled."
 },
 "C143": {
  "status": "proved",
  "note": "That widgets always show the model is refuted for values that the reducer refuses and for those that are taken back; the rest is proved."
 },
 "C144": {
  "status": "proved",
  "note": "That looking at the store, or watching it, is as good as an effect is refuted, and that no coin is lost; the rest is proved."
 },
 "C145": {
  "status": "proved",
  "note": "For indices the claim is refuted in general, with three witnesses, and proved for users who wait until what they have removed is gone; for identity values it is proved."
 },
 "C146": {
  "status": "proved",
  "note": "For members that are not listed the claim is refuted, with two witnesses; what is shown and told instead is proved exactly."
 }
}