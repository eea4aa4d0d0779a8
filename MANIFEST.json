{
 "claims": [
  {
   "property": "C01",
   "status": "proved",
   "theorems": [
    "Verif.Graph.C01_derived_reader",
    "Verif.Graph.C01_consistent"
   ],
   "note": ""
  },
  {
   "property": "C02",
   "status": "proved",
   "theorems": [
    "Verif.Graph.C02_invisible",
    "Verif.Graph.C02_sequence"
   ],
   "note": ""
  },
  {
   "property": "C03",
   "status": "proved",
   "theorems": [
    "Verif.Graph.C03_last_write"
   ],
   "note": ""
  },
  {
   "property": "C04",
   "status": "proved",
   "theorems": [
    "Verif.Graph.C04_automatic"
   ],
   "note": ""
  },
  {
   "property": "C05",
   "status": "proved",
   "theorems": [
    "Verif.Graph.C05_consistent_at_call"
   ],
   "note": ""
  },
  {
   "property": "C06",
   "status": "proved",
   "theorems": [
    "Verif.Graph.C06_call_value",
    "Verif.Graph.C06_one_event"
   ],
   "note": ""
  },
  {
   "property": "C07",
   "status": "proved",
   "theorems": [
    "Verif.Graph.C07_final_value",
    "Verif.Graph.C07_not_comparable_false"
   ],
   "note": "Proved for comparable value types on the path to the reader (the library's own has_changed test); C07_not_comparable_false shows the claim fails for types without operator==, and the English statement says so."
  },
  {
   "property": "C08",
   "status": "proved",
   "theorems": [
    "Verif.Graph.C08_silent",
    "Verif.Graph.C08_twice"
   ],
   "note": ""
  },
  {
   "property": "C09",
   "status": "proved",
   "theorems": [
    "Verif.Graph.C09_commit",
    "Verif.Graph.C09_set",
    "Verif.Graph.C09_merged_false"
   ],
   "note": "Proved as stated, for every graph and every stack from which the call is made; C09_merged_false is the witness for the exception in the statement."
  },
  {
   "property": "C10",
   "status": "proved",
   "theorems": [
    "Verif.Graph.C10_commit",
    "Verif.Graph.C10_set",
    "Verif.Graph.C10_diamond_false",
    "Verif.Graph.C10_restored_false"
   ],
   "note": "Proved as stated: the two counterexamples of the statement are C10_diamond_false and C10_restored_false; C10_commit and C10_set are the positive part, for any number of writes to transactional states before the commit (C10_commit) and for one write through any zoomed cursor of an automatic state (C10_set)."
  },
  {
   "property": "C11",
   "status": "proved",
   "theorems": [
    "Verif.Graph.C11_set",
    "Verif.Graph.C11_sequence",
    "Verif.Graph.C11_siblings",
    "Verif.Graph.C11_automatic",
    "Verif.Graph.C11_automatic_sequence",
    "Verif.Graph.C11_automatic_zoom"
   ],
   "note": ""
  },
  {
   "property": "C12",
   "status": "proved",
   "theorems": [
    "Verif.Graph.C12_state",
    "Verif.Graph.C12_automatic",
    "Verif.Graph.C12_zoomed_false"
   ],
   "note": "The English statement says for which cursors it holds: C12_zoomed_false is the counterexample for zoomed transactional cursors, C12_state and C12_automatic are the positive parts."
  },
  {
   "property": "C13",
   "status": "proved",
   "theorems": [
    "Verif.Graph.C13_merged",
    "Verif.Graph.C13_uncommitted_false"
   ],
   "note": "The English statement says when it holds: C13_uncommitted_false is the counterexample, C13_merged the positive part."
  },
  {
   "property": "C14",
   "status": "proved",
   "theorems": [
    "Verif.Graph.C14_commit",
    "Verif.Graph.C14_automatic"
   ],
   "note": ""
  },
  {
   "property": "C15",
   "status": "proved",
   "theorems": [
    "Verif.Graph.C15_constant"
   ],
   "note": ""
  },
  {
   "property": "C16",
   "status": "proved",
   "theorems": [
    "Verif.Graph.C16_sampled_by_commits"
   ],
   "note": ""
  },
  {
   "property": "C17",
   "status": "proved",
   "theorems": [
    "Verif.Graph.C17_across",
    "Verif.Graph.C17_nested_false",
    "Verif.Graph.C17_dead_silent",
    "Verif.Graph.C17_positions",
    "Verif.Graph.C17_no_overrun",
    "Verif.Graph.C17_forgotten",
    "Verif.Graph.C17_late_stays_false"
   ],
   "note": "Proved as stated. C17_late_stays_false is a witness for the limit in the statement: a reader destroyed after the loop has gone past it keeps its link until the next notification."
  },
  {
   "property": "C18",
   "status": "proved",
   "theorems": [
    "Verif.Watch.C18_gone",
    "Verif.Watch.C18_assign",
    "Verif.Watch.C18_fresh",
    "Verif.Watch.C18_again"
   ],
   "note": ""
  },
  {
   "property": "C19",
   "status": "proved",
   "theorems": [
    "Verif.Watch.C19_order",
    "Verif.Watch.C19_exact",
    "Verif.Watch.C19_value"
   ],
   "note": ""
  },
  {
   "property": "C20",
   "status": "proved",
   "theorems": [
    "Verif.Watch.C20_defined",
    "Verif.Watch.C20_attached_when_called",
    "Verif.Watch.C20_called",
    "Verif.Watch.C20_attach",
    "Verif.Watch.C20_visited_not_called",
    "Verif.Watch.C20_self_undefined",
    "Verif.Watch.C20_reassigned_ends"
   ],
   "note": ""
  },
  {
   "property": "C21",
   "status": "proved",
   "theorems": [
    "Verif.Watch.C21_bind",
    "Verif.Watch.C21_bind_watch",
    "Verif.Watch.C21_nudge",
    "Verif.Watch.C21_nudge_value"
   ],
   "note": ""
  },
  {
   "property": "C22",
   "status": "proved",
   "theorems": [
    "Verif.Graph.C22_enter",
    "Verif.Graph.C22_automatic",
    "Verif.Graph.C22_transactional",
    "Verif.Graph.C22_follows_commit",
    "Verif.Graph.C22_follows_set"
   ],
   "note": ""
  },
  {
   "property": "C23",
   "status": "proved",
   "theorems": [
    "Verif.Watch.C23_throws",
    "Verif.Watch.C23_empty",
    "Verif.Watch.C23_later",
    "Verif.Watch.C23_unchecked"
   ],
   "note": ""
  },
  {
   "property": "C24",
   "status": "proved",
   "theorems": [
    "Verif.Graph.C24_latest_output",
    "Verif.Graph.C24_inputs_grow",
    "Verif.Graph.C24_map",
    "Verif.Graph.C24_filter",
    "Verif.Graph.C24_fed_again_false"
   ],
   "note": "Proved as stated; C24_fed_again_false is the witness for the exception in the statement (writing through a cursor zoomed from the transformed one processes the present source value once more)."
  },
  {
   "property": "C25",
   "status": "proved",
   "theorems": [
    "Verif.Graph.C25_diamond_false",
    "Verif.Graph.C25_single_path"
   ],
   "note": "The English statement says FALSE: C25_diamond_false is the counterexample. C25_single_path shows that it holds without a diamond."
  },
  {
   "property": "C26",
   "status": "proved",
   "theorems": [
    "Verif.With.C26_shows",
    "Verif.With.C26_same_value",
    "Verif.With.C26_write",
    "Verif.With.C26_same_write",
    "Verif.With.C26_write_auto",
    "Verif.With.C26_fresh",
    "Verif.With.C26_latched",
    "Verif.With.C26_initial_false",
    "Verif.With.C26_update_false"
   ],
   "note": "The English statement names the two cases in which it is false: C26_initial_false and C26_update_false are the witnesses. C26_same_value and C26_latched cover reading, C26_same_write, C26_write and C26_write_auto writing. C26_write is for transactional sources, C26_write_auto for cursors zoomed from distinct automatic states."
  },
  {
   "property": "C27",
   "status": "proved",
   "theorems": [
    "Verif.With.C27_reads",
    "Verif.With.C27_writes",
    "Verif.With.C27_pending",
    "Verif.With.C27_round_trip",
    "Verif.With.C27_round_trip_auto"
   ],
   "note": ""
  },
  {
   "property": "C28",
   "status": "proved",
   "theorems": [
    "Verif.Lens.C28_over",
    "Verif.Lens.C28_comp",
    "Verif.Lens.C28_functor",
    "Verif.Lens.C28_category"
   ],
   "note": ""
  },
  {
   "property": "C29",
   "status": "proved",
   "theorems": [
    "Verif.Lens.C29_attr",
    "Verif.Lens.C29_attr_frame",
    "Verif.Lens.C29_element",
    "Verif.Lens.C29_unbox",
    "Verif.Lens.C29_ident",
    "Verif.Lens.C29_comp",
    "Verif.Lens.C29_zip",
    "Verif.Lens.C29_zip_pointwise"
   ],
   "note": ""
  },
  {
   "property": "C30",
   "status": "proved",
   "theorems": [
    "Verif.Lens.C30_at",
    "Verif.Lens.C30_at_seq",
    "Verif.Lens.C30_at_map",
    "Verif.Lens.C30_at_lawful",
    "Verif.Lens.C30_at_law_limits",
    "Verif.Lens.C30_at_insert_not_inert"
   ],
   "note": "Lens laws hold on in-range keys; C30_at_law_limits shows where put-get fails by design, C30_at_insert_not_inert shows insert-style containers."
  },
  {
   "property": "C31",
   "status": "proved",
   "theorems": [
    "Verif.Lens.C31_at_or",
    "Verif.Lens.C31_at_or_seq",
    "Verif.Lens.C31_at_or_lawful"
   ],
   "note": ""
  },
  {
   "property": "C32",
   "status": "proved",
   "theorems": [
    "Verif.Lens.C32_value_or"
   ],
   "note": ""
  },
  {
   "property": "C33",
   "status": "proved",
   "theorems": [
    "Verif.Lens.C33_bind_opt_comp",
    "Verif.Lens.C33_bind_opt_assoc",
    "Verif.Lens.C33_bind_force",
    "Verif.Lens.C33_bind_opt_comp_false",
    "Verif.Lens.C33_map_opt",
    "Verif.Lens.C33_bind_opt",
    "Verif.Lens.C33_map_opt_lawful",
    "Verif.Lens.C33_bind_opt_lawful",
    "Verif.Lens.C33_force_opt",
    "Verif.Lens.C33_map_opt_comp"
   ],
   "note": "C33_bind_opt_comp_false is the false part: without the law that setting what is shown changes nothing, the two compositions differ."
  },
  {
   "property": "C34",
   "status": "proved",
   "theorems": [
    "Verif.Lens.C34_alternative",
    "Verif.Lens.C34_alternative_lawful"
   ],
   "note": ""
  },
  {
   "property": "C35",
   "status": "proved",
   "theorems": [
    "Verif.LensMove.C35_alternative_false",
    "Verif.LensMove.C35_map_opt_false",
    "Verif.LensMove.C35_bind_opt_false",
    "Verif.LensMove.C35_zip_false",
    "Verif.LensMove.C35_value_write_false",
    "Verif.LensMove.C35_agrees",
    "Verif.LensMove.C35_covered",
    "Verif.LensMove.C35_map_opt_covered"
   ],
   "note": "The English statement says when it fails and when it holds: the witnesses are C35_alternative_false, C35_map_opt_false, C35_bind_opt_false, C35_zip_false and C35_value_write_false; C35_agrees is the positive part for every lens expression, and C35_covered and C35_map_opt_covered say which writes it covers."
  },
  {
   "property": "C36",
   "status": "proved",
   "theorems": [
    "Verif.Lens.C36_fan_view",
    "Verif.Lens.C36_fan_lawful",
    "Verif.Lens.C36_fan_first_wins",
    "Verif.Lens.C36_attr_independent"
   ],
   "note": ""
  },
  {
   "property": "C37",
   "status": "proved",
   "theorems": [
    "Verif.Lens.C37_erased",
    "Verif.Lens.C37_erased_comp"
   ],
   "note": ""
  },
  {
   "property": "C38",
   "status": "proved",
   "theorems": [
    "Verif.Loop.C38_manual_fifo",
    "Verif.Loop.C38_manual_complete"
   ],
   "note": ""
  },
  {
   "property": "C39",
   "status": "proved",
   "theorems": [
    "Verif.Loop.C39_manual_throw"
   ],
   "note": ""
  },
  {
   "property": "C40",
   "status": "proved",
   "theorems": [
    "Verif.Loop.C40_queue_fifo",
    "Verif.Loop.C40_queue_complete",
    "Verif.Loop.C40_queue_progress"
   ],
   "note": ""
  },
  {
   "property": "C41",
   "status": "proved",
   "theorems": [
    "Verif.Loop.C41_nested_false",
    "Verif.Loop.C41_nested_undefined",
    "Verif.Loop.C41_nested_always_throws"
   ],
   "note": "The claim as listed is that nested step is broken: lost task and undefined behaviour are proved on witnesses, and that the first nested step always throws is proved for all histories."
  },
  {
   "property": "C42",
   "status": "proved",
   "theorems": [
    "Verif.Loop.C42_safe_exactly_once",
    "Verif.Loop.C42_safe_order",
    "Verif.Loop.C42_safe_complete"
   ],
   "note": ""
  },
  {
   "property": "C43",
   "status": "proved",
   "theorems": [
    "Verif.Loop.C43_safe_throw",
    "Verif.Loop.C43_safe_resume"
   ],
   "note": ""
  },
  {
   "property": "C44",
   "status": "proved",
   "theorems": [
    "Verif.Future.C44_once",
    "Verif.Future.C44_then",
    "Verif.Future.C44_posted",
    "Verif.Future.C44_runs",
    "Verif.Future.C44_empty"
   ],
   "note": ""
  },
  {
   "property": "C45",
   "status": "proved",
   "theorems": [
    "Verif.Future.C45_order",
    "Verif.Future.C45_result",
    "Verif.Future.C45_completes"
   ],
   "note": ""
  },
  {
   "property": "C46",
   "status": "proved",
   "theorems": [
    "Verif.Future.C46_completes",
    "Verif.Future.C46_both",
    "Verif.Future.C46_empty"
   ],
   "note": ""
  },
  {
   "property": "C47",
   "status": "proved",
   "theorems": [
    "Verif.Future.C47_invalid",
    "Verif.Future.C47_twice",
    "Verif.Future.C47_copies"
   ],
   "note": ""
  },
  {
   "property": "C48",
   "status": "proved",
   "theorems": [
    "Verif.Store.C48_fold",
    "Verif.Store.C48_order"
   ],
   "note": ""
  },
  {
   "property": "C49",
   "status": "proved",
   "theorems": [
    "Verif.Store.C49_visible",
    "Verif.Store.C49_once"
   ],
   "note": ""
  },
  {
   "property": "C50",
   "status": "proved",
   "theorems": [
    "Verif.Store.C50_genuine",
    "Verif.Store.C50_fold",
    "Verif.Store.C50_last"
   ],
   "note": ""
  },
  {
   "property": "C51",
   "status": "proved",
   "theorems": [
    "Verif.Store.C51_only_commit",
    "Verif.Store.C51_commit",
    "Verif.Store.C51_effects"
   ],
   "note": ""
  },
  {
   "property": "C52",
   "status": "proved",
   "theorems": [
    "Verif.Store.C52_returns",
    "Verif.Store.C52_after",
    "Verif.Store.C52_once",
    "Verif.Store.C52_stays",
    "Verif.Store.C52_completes"
   ],
   "note": ""
  },
  {
   "property": "C53",
   "status": "proved",
   "theorems": [
    "Verif.Store.C53_order",
    "Verif.Store.C53_waits",
    "Verif.Store.C53_all",
    "Verif.Store.C53_future",
    "Verif.Store.C53_effect",
    "Verif.Store.C53_assoc",
    "Verif.Store.C53_noop",
    "Verif.Store.C53_null"
   ],
   "note": "C53_null is the false part for null effects."
  },
  {
   "property": "C54",
   "status": "proved",
   "theorems": [
    "Verif.Store.C54_false",
    "Verif.Store.C54_same",
    "Verif.Store.C54_null"
   ],
   "note": "The recognition is false (C54_false); that running a noop effect is observably equal to skipping it is C54_same; C54_null says what becomes of null effects."
  },
  {
   "property": "C55",
   "status": "proved",
   "theorems": [
    "Verif.Store.C55_thunk",
    "Verif.Store.C55_model",
    "Verif.Store.C55_shown",
    "Verif.Store.C55_commit",
    "Verif.Store.C55_actions",
    "Verif.Store.C55_actions_plain",
    "Verif.Store.C55_transparent"
   ],
   "note": "Contexts are not values in the store model: a thunk's code may do whatever user code may do (dispatch, futures). For reducers without effects on transactional stores the equality is that of models (C55_commit, C55_shown), the future being fulfilled one task later."
  },
  {
   "property": "C56",
   "status": "proved",
   "theorems": [
    "Verif.Context.C56_convert",
    "Verif.Context.C56_converter",
    "Verif.Context.C56_compiles",
    "Verif.Context.C56_chain",
    "Verif.Context.C56_compose"
   ],
   "note": ""
  },
  {
   "property": "C57",
   "status": "proved",
   "theorems": [
    "Verif.Context.C57_covers",
    "Verif.Context.C57_added",
    "Verif.Context.C57_minimal_false",
    "Verif.Context.C57_compatible"
   ],
   "note": "The English statement says that minimality is false: C57_minimal_false is the witness; the other parts are C57_covers, C57_added and C57_compatible."
  },
  {
   "property": "C58",
   "status": "proved",
   "theorems": [
    "Verif.Deps.C58_with",
    "Verif.Deps.C58_key",
    "Verif.Deps.C58_get",
    "Verif.Deps.C58_lazy",
    "Verif.Deps.C58_convert",
    "Verif.Deps.C58_required",
    "Verif.Deps.C58_compiles",
    "Verif.Deps.C58_absent",
    "Verif.Deps.C58_silent",
    "Verif.Deps.C58_chain"
   ],
   "note": ""
  },
  {
   "property": "C59",
   "status": "proved",
   "theorems": [
    "Verif.Deps.C59_get",
    "Verif.Deps.C59_keys",
    "Verif.Deps.C59_absent_false"
   ],
   "note": "The English statement includes the limit: C59_absent_false is its witness."
  },
  {
   "property": "C60",
   "status": "proved",
   "theorems": [
    "Verif.Debugger.C60_transparent"
   ],
   "note": ""
  },
  {
   "property": "C61",
   "status": "proved",
   "theorems": [
    "Verif.Debugger.C61_cursor_valid"
   ],
   "note": ""
  },
  {
   "property": "C62",
   "status": "proved",
   "theorems": [
    "Verif.Debugger.C62_genuine",
    "Verif.Debugger.C62_nav"
   ],
   "note": ""
  },
  {
   "property": "C63",
   "status": "proved",
   "theorems": [
    "Verif.Debugger.C63_undo_redo",
    "Verif.Debugger.C63_redo_undo",
    "Verif.Debugger.C63_ends",
    "Verif.Debugger.C63_undo_n",
    "Verif.Debugger.C63_goto"
   ],
   "note": ""
  },
  {
   "property": "C64",
   "status": "proved",
   "theorems": [
    "Verif.Debugger.C64_act_in_past"
   ],
   "note": ""
  },
  {
   "property": "C65",
   "status": "proved",
   "theorems": [
    "Verif.Debugger.C65_paused_inert",
    "Verif.Debugger.C65_resume"
   ],
   "note": ""
  },
  {
   "property": "C66",
   "status": "proved",
   "theorems": [
    "Verif.Tree.C66_keeps_past"
   ],
   "note": ""
  },
  {
   "property": "C67",
   "status": "proved",
   "theorems": [
    "Verif.Tree.C67_false",
    "Verif.Tree.C67_shows_result",
    "Verif.Tree.C67_old_branch",
    "Verif.Tree.C67_recorded"
   ],
   "note": "The English statement says when it fails: C67_false is a witness, C67_old_branch says what is shown in every such case, C67_shows_result is the positive part."
  },
  {
   "property": "C68",
   "status": "proved",
   "theorems": [
    "Verif.Tree.C68_undo",
    "Verif.Tree.C68_genuine",
    "Verif.Tree.C68_goto",
    "Verif.Tree.C68_redo"
   ],
   "note": ""
  },
  {
   "property": "C69",
   "status": "proved",
   "theorems": [
    "Verif.Extra.C69_round_trip",
    "Verif.Extra.C69_name",
    "Verif.Extra.C69_name_back",
    "Verif.Extra.C69_unknown",
    "Verif.Extra.C69_saved"
   ],
   "note": ""
  },
  {
   "property": "C70",
   "status": "proved",
   "theorems": [
    "Verif.Extra.C70_eq",
    "Verif.Extra.C70_hash",
    "Verif.Extra.C70_hash_last",
    "Verif.Extra.C70_equivalence"
   ],
   "note": ""
  },
  {
   "property": "C71",
   "status": "proved",
   "theorems": [
    "Verif.Extra.C71_loads",
    "Verif.Extra.C71_json",
    "Verif.Extra.C71_fresh",
    "Verif.Extra.C71_sequence_target",
    "Verif.Extra.C71_sequence_false",
    "Verif.Extra.C71_box_target",
    "Verif.Extra.C71_variant_target",
    "Verif.Extra.C71_map_target",
    "Verif.Extra.C71_id_map_target",
    "Verif.Extra.C71_set_target",
    "Verif.Extra.C71_map_false",
    "Verif.Extra.C71_id_false",
    "Verif.Extra.C71_duplicates",
    "Verif.Extra.C71_throws_keeps"
   ],
   "note": "The English statement says it is false for non-empty targets: C71_sequence_false, C71_map_false and C71_id_false are the witnesses; C71_loads and C71_fresh are the positive part, for every nesting of the serialised types."
  },
  {
   "property": "C72",
   "status": "proved",
   "theorems": [
    "Verif.Http.C72_first",
    "Verif.Http.C72_none",
    "Verif.Http.C72_other_false",
    "Verif.Http.C72_session",
    "Verif.Http.C72_one_at_a_time"
   ],
   "note": "The English statement says it is false for exceptions not derived from std::exception: C72_other_false is the witness."
  },
  {
   "property": "C73",
   "status": "proved",
   "theorems": [
    "Verif.Loop.C73_sdl_fifo",
    "Verif.Loop.C73_sdl_paused_quiet",
    "Verif.Loop.C73_sdl_paused_runs",
    "Verif.Loop.C73_sdl_simple_paused_false",
    "Verif.Loop.C73_sdl_finish_false",
    "Verif.Loop.C73_sdl_finish",
    "Verif.Loop.C73_sdl_simple_finish"
   ],
   "note": "The English statement says where it fails: C73_sdl_finish_false and C73_sdl_simple_paused_false are the witnesses, the other theorems the positive part."
  },
  {
   "property": "C74",
   "status": "proved",
   "theorems": [
    "Verif.Tree.C74_tree_resume",
    "Verif.Tree.C74_tree_paused_inert",
    "Verif.Tree.C74_tree_nothing_pending"
   ],
   "note": ""
  },
  {
   "property": "C75",
   "status": "proved",
   "theorems": [
    "Verif.Loop.C75_adopt_reorders"
   ],
   "note": "The claim as listed is false; the witness schedule is proved."
  },
  {
   "property": "C76",
   "status": "proved",
   "theorems": [
    "Verif.Extra.C76_members",
    "Verif.Extra.C76_order",
    "Verif.Extra.C76_derived",
    "Verif.Extra.C76_missing",
    "Verif.Extra.C76_required"
   ],
   "note": ""
  },
  {
   "property": "C77",
   "status": "proved",
   "theorems": [
    "Verif.Http.C77_overview",
    "Verif.Http.C77_step",
    "Verif.Http.C77_goto",
    "Verif.Http.C77_command",
    "Verif.Http.C77_others",
    "Verif.Http.C77_snapshot",
    "Verif.Http.C77_initial_false",
    "Verif.Http.C77_initial",
    "Verif.Http.C77_file"
   ],
   "note": "The English statement says it is false before the first change: C77_initial_false is the witness. The JSON text of the bodies is not modelled."
  },
  {
   "property": "C78",
   "status": "proved",
   "theorems": [
    "Verif.Http.C78_inside",
    "Verif.Http.C78_false"
   ],
   "note": "The English statement says it is false in general: C78_false is the witness, C78_inside the part that holds."
  },
  {
   "property": "C79",
   "status": "proved",
   "theorems": [
    "Verif.Extra.Camel.C79_alnum",
    "Verif.Extra.Camel.C79_letters",
    "Verif.Extra.Camel.C79_case",
    "Verif.Extra.Camel.C79_digits",
    "Verif.Extra.Camel.C79_distinct_false"
   ],
   "note": "Proved as stated; C79_distinct_false has the witnesses for the part that the statement says is false."
  },
  {
   "property": "C80",
   "status": "proved",
   "theorems": [
    "Verif.Graph.C80_throw",
    "Verif.Graph.C80_can_throw",
    "Verif.Graph.C80_consistent",
    "Verif.Graph.C80_call_value",
    "Verif.Graph.C80_rest",
    "Verif.Graph.C80_setter",
    "Verif.Graph.C80_recovers",
    "Verif.Graph.C80_next_set",
    "Verif.Graph.C80_missed_false",
    "Verif.Graph.C80_atomic_false"
   ],
   "note": "Proved as stated; C80_missed_false and C80_atomic_false are the witnesses for the parts that the statement says are false."
  },
  {
   "property": "C81",
   "status": "proved",
   "theorems": [
    "Verif.Store.C81_model",
    "Verif.Store.C81_threw",
    "Verif.Store.C81_reducer",
    "Verif.Store.C81_watcher",
    "Verif.Store.C81_others"
   ],
   "note": ""
  },
  {
   "property": "C82",
   "status": "proved",
   "theorems": [
    "Verif.Loop.C82_qml_fifo",
    "Verif.Loop.C82_qml_complete"
   ],
   "note": ""
  },
  {
   "property": "C83",
   "status": "proved",
   "theorems": [
    "Verif.Loop.C83_qml_tick",
    "Verif.Loop.C83_qml_frame",
    "Verif.Loop.C83_qml_post",
    "Verif.Loop.C83_qml_chain",
    "Verif.Loop.C83_qml_timer_stays",
    "Verif.Loop.C83_qml_unseen",
    "Verif.Loop.C83_qml_throttle"
   ],
   "note": "The English statement says where it fails: C83_qml_unseen proves that nothing runs before the first frame; the other theorems are the positive part."
  },
  {
   "property": "C84",
   "status": "proved",
   "theorems": [
    "Verif.Loop.C84_qml_nested_false",
    "Verif.Loop.C84_qml_nested_throws"
   ],
   "note": "The claim as listed is false: C84_qml_nested_false is the witness, C84_qml_nested_throws says what happens in every history up to the first nested step."
  },
  {
   "property": "C85",
   "status": "proved",
   "theorems": [
    "Verif.Graph.C85_left",
    "Verif.Graph.C85_unrelated",
    "Verif.Graph.C85_commit_unrelated",
    "Verif.Graph.C85_kept",
    "Verif.Graph.C85_nothing_written",
    "Verif.Graph.C85_next_set",
    "Verif.Graph.C85_next_commit",
    "Verif.Graph.C85_done",
    "Verif.Graph.C85_never",
    "Verif.Graph.C85_stale_false",
    "Verif.Graph.C85_mixed_false"
   ],
   "note": "Proved as stated; C85_stale_false and C85_mixed_false are the witnesses for the part that the statement says is false. Readers with unpublished changes (Tidy) are excluded from the statement that readers become or stay right."
  },
  {
   "property": "C86",
   "status": "proved",
   "theorems": [
    "Verif.LensMove.C86_nullopt_false",
    "Verif.LensMove.C86_value_false",
    "Verif.LensMove.C86_lvalue",
    "Verif.LensMove.C86_covered",
    "Verif.LensMove.C86_members",
    "Verif.LensMove.C86_unbox",
    "Verif.LensMove.C86_at_member",
    "Verif.LensMove.C86_erased",
    "Verif.LensMove.C86_view"
   ],
   "note": "The English statement says when it fails and when it holds: C86_nullopt_false and C86_value_false are the witnesses, C86_lvalue with C86_covered and C86_at_member the positive part. getset is modelled for getters that take a constant reference."
  },
  {
   "property": "C87",
   "status": "proved",
   "theorems": [
    "Verif.Future.C87_no_assert",
    "Verif.Future.C87_promise_once",
    "Verif.Future.C87_inside_false",
    "Verif.Future.C87_queued_outside",
    "Verif.Future.C87_copies_false",
    "Verif.Future.C87_queued_no_deadlock",
    "Verif.Future.C87_no_deadlock",
    "Verif.Future.C87_refines",
    "Verif.Future.C87_once",
    "Verif.Future.C87_order",
    "Verif.Future.C87_completes",
    "Verif.Future.C87_then",
    "Verif.Future.C87_also",
    "Verif.Future.C87_not_nested",
    "Verif.Future.C87_progress",
    "Verif.Future.C87_drained",
    "Verif.Future.C87_all_run",
    "Verif.Future.C87_unlocked"
   ],
   "note": "The English statement says what fails and what holds: C87_inside_false and C87_copies_false are the witnesses, the other theorems the positive part. Programs that use a promise object inside of its own call, or after an exception has left it, end in the outcome 'misuse', about which only C87_unlocked and C87_no_deadlock speak."
  },
  {
   "property": "C88",
   "status": "proved",
   "theorems": [
    "Verif.Graph.C88_model",
    "Verif.Graph.C88_readers",
    "Verif.Graph.C88_genuine",
    "Verif.Graph.C88_watched",
    "Verif.Graph.C88_mixed_false",
    "Verif.Graph.C88_early_false"
   ],
   "note": "C88_mixed_false and C88_early_false are the witnesses for what the statement says is false; the other theorems prove the positive part. The store is a node that evaluates actions at arbitrary moments and publishes at arbitrary moments; which moments these are for a given event loop is the subject of C48 to C51."
  },
  {
   "property": "C89",
   "status": "proved",
   "theorems": [
    "Verif.Graph.C89_record",
    "Verif.Graph.C89_paths",
    "Verif.Graph.C89_paths_set",
    "Verif.Graph.C89_once",
    "Verif.Graph.C89_once_set",
    "Verif.Graph.C89_needed",
    "Verif.Graph.C89_published",
    "Verif.Graph.C89_exponential_false"
   ],
   "note": "C89_exponential_false is the witness for what the statement says is false, for every k; the other theorems prove the positive part. Writes through zoomed cursors also compute values on the way up (refresh); these are not counted."
  },
  {
   "property": "C90",
   "status": "proved",
   "theorems": [
    "Verif.Life.C90_alive",
    "Verif.Life.C90_all_freed",
    "Verif.Life.C90_once",
    "Verif.Life.C90_no_dangling",
    "Verif.Life.C90_valid",
    "Verif.Life.C90_kills"
   ],
   "note": ""
  },
  {
   "property": "C91",
   "status": "proved",
   "theorems": [
    "Verif.Life.C91_exact",
    "Verif.Life.C91_safe",
    "Verif.Life.C91_pending_false",
    "Verif.Life.C91_context_false",
    "Verif.Life.C91_inside_false",
    "Verif.Life.C91_reader"
   ],
   "note": "C91_pending_false, C91_context_false and C91_inside_false are the witnesses for what the statement says is false; C91_exact, C91_safe and C91_reader prove the positive part."
  },
  {
   "property": "C92",
   "status": "proved",
   "theorems": [
    "Verif.Store.C92_transparent",
    "Verif.Store.C92_model",
    "Verif.Store.C92_watched",
    "Verif.Store.C92_commit",
    "Verif.Store.C92_future_false"
   ],
   "note": "C92_future_false is the witness for what the statement says is false; the other theorems prove the positive part."
  },
  {
   "property": "C93",
   "status": "proved",
   "theorems": [
    "Verif.Store.C93_evaluated",
    "Verif.Store.C93_model",
    "Verif.Store.C93_step",
    "Verif.Store.C93_resume",
    "Verif.Store.C93_throws",
    "Verif.Store.C93_stuck",
    "Verif.Store.C93_early_false",
    "Verif.Store.C93_lost_false"
   ],
   "note": "C93_early_false and C93_lost_false are the witnesses for what the statement says is false; C93_model, C93_resume and C93_stuck prove the positive part. C93_model is for reducers that do not throw, as the model of the debugger in C61 to C65."
  },
  {
   "property": "C94",
   "status": "proved",
   "theorems": [
    "Verif.Store.C94_serial",
    "Verif.Store.C94_fold",
    "Verif.Store.C94_order",
    "Verif.Store.C94_shown",
    "Verif.Store.C94_effect",
    "Verif.Store.C94_covers",
    "Verif.Store.C94_untouched",
    "Verif.Store.C94_no_race",
    "Verif.Store.C94_pool_false",
    "Verif.Store.C94_get_false"
   ],
   "note": "C94_pool_false and C94_get_false are the witnesses for what the statement says is false; the other theorems prove the positive part. A closure that a promise has posted is one step, and the queue of the event loop and the promises are taken to be thread safe."
  },
  {
   "property": "C95",
   "status": "proved",
   "theorems": [
    "Verif.Store.C95_wraps",
    "Verif.Store.C95_leaves",
    "Verif.Store.C95_reducer",
    "Verif.Store.C95_tags",
    "Verif.Store.C95_automatic_false",
    "Verif.Store.C95_deps",
    "Verif.Store.C95_inits",
    "Verif.Store.C95_transparent",
    "Verif.Store.C95_compiles",
    "Verif.Store.C95_paused_false"
   ],
   "note": "C95_paused_false and C95_automatic_false are the witnesses for what the statement says is false; the other theorems prove the positive part."
  },
  {
   "property": "C96",
   "status": "proved",
   "theorems": [
    "Verif.Store.C96_evaluated",
    "Verif.Store.C96_transparent",
    "Verif.Store.C96_model",
    "Verif.Store.C96_watched",
    "Verif.Store.C96_run",
    "Verif.Store.C96_keeps",
    "Verif.Store.C96_resume",
    "Verif.Store.C96_resumed",
    "Verif.Store.C96_redo",
    "Verif.Store.C96_step",
    "Verif.Store.C96_throws",
    "Verif.Store.C96_branch_false"
   ],
   "note": "C96_branch_false is the witness for what the statement says is false; the other theorems prove the positive part."
  },
  {
   "property": "C97",
   "status": "proved",
   "theorems": [
    "Verif.Tree.C97_positions",
    "Verif.Tree.C97_shape",
    "Verif.Tree.C97_count",
    "Verif.Tree.C97_grows",
    "Verif.Tree.C97_navigation"
   ],
   "note": ""
  },
  {
   "property": "C98",
   "status": "proved",
   "theorems": [
    "Verif.Store.C98_alone",
    "Verif.Store.C98_order",
    "Verif.Store.C98_fold",
    "Verif.Store.C98_embeds",
    "Verif.Store.C98_waits",
    "Verif.Store.C98_live",
    "Verif.Store.C98_circular"
   ],
   "note": ""
  },
  {
   "property": "C99",
   "status": "proved",
   "theorems": [
    "Verif.Smart.C99_place",
    "Verif.Smart.C99_unique",
    "Verif.Smart.C99_reaches",
    "Verif.Smart.C99_others",
    "Verif.Smart.C99_written",
    "Verif.Smart.C99_null",
    "Verif.Smart.C99_null_false",
    "Verif.Smart.C99_clear_false",
    "Verif.Smart.C99_or_default",
    "Verif.Smart.C99_lifted"
   ],
   "note": "C99_null_false and C99_clear_false are the false part of the statement; everything else is proved, with the exact effect of writing nullopt in C99_null."
  },
  {
   "property": "C100",
   "status": "proved",
   "theorems": [
    "Verif.Graph.C100_assertion",
    "Verif.Graph.C100_sources",
    "Verif.Graph.C100_merge_false"
   ],
   "note": "C100_merge_false is the witness of the false part; C100_assertion says exactly when the assertion fails."
  },
  {
   "property": "C101",
   "status": "proved",
   "theorems": [
    "Verif.Future.C101_debug",
    "Verif.Future.C101_race_free",
    "Verif.Future.C101_debug_false",
    "Verif.Future.C101_linear",
    "Verif.Future.C101_once",
    "Verif.Future.C101_progress",
    "Verif.Future.C101_returns"
   ],
   "note": "C101_debug_false is the witness of the false part; C101_debug says that no other data races exist."
  },
  {
   "property": "C102",
   "status": "proved",
   "theorems": [
    "Verif.Loop.Safe.C102_race_free",
    "Verif.Loop.Safe.C102_atomic",
    "Verif.Loop.Safe.C102_no_adopt",
    "Verif.Loop.Safe.C102_adopt_false",
    "Verif.Loop.Safe.C102_adopt_local_false",
    "Verif.Loop.Safe.C102_calls",
    "Verif.Loop.Safe.C102_progress",
    "Verif.Loop.Safe.C102_returns"
   ],
   "note": "C102_adopt_false and C102_adopt_local_false are the witnesses of the false part."
  },
  {
   "property": "C103",
   "status": "proved",
   "theorems": [
    "Verif.Graph.C103_left",
    "Verif.Graph.C103_unrelated",
    "Verif.Graph.C103_kept",
    "Verif.Graph.C103_set_shows",
    "Verif.Graph.C103_next_set",
    "Verif.Graph.C103_commit_shows",
    "Verif.Graph.C103_next_commit",
    "Verif.Graph.C103_stale_false"
   ],
   "note": "C103_stale_false is the witness of the false part. C85_left, C85_unrelated, C85_nothing_written hold for all causes of exceptions."
  },
  {
   "property": "C104",
   "status": "proved",
   "theorems": [
    "Verif.Http.C104_store",
    "Verif.Http.C104_request",
    "Verif.Http.C104_commands",
    "Verif.Http.C104_answers",
    "Verif.Http.C104_final",
    "Verif.Http.C104_missed_false"
   ],
   "note": "C104_missed_false is the witness of the false part. That assigning and loading immer::atom is atomic is assumed."
  },
  {
   "property": "C105",
   "status": "proved",
   "theorems": [
    "Verif.Effect.C105_runs",
    "Verif.Effect.C105_order",
    "Verif.Effect.C105_dispatch",
    "Verif.Effect.C105_required",
    "Verif.Effect.C105_optional",
    "Verif.Effect.C105_sequence",
    "Verif.Effect.C105_optional_false",
    "Verif.Effect.C105_sequence_false"
   ],
   "note": "C105_optional_false and C105_sequence_false are the witnesses of the false parts. Lazy references may have been called already (C58)."
  },
  {
   "property": "C106",
   "status": "proved",
   "theorems": [
    "Verif.Graph.C106_follows",
    "Verif.Graph.C106_unset",
    "Verif.Graph.C106_transactional",
    "Verif.Graph.C106_store",
    "Verif.Graph.C106_rejected_false",
    "Verif.Graph.C106_update_false",
    "Verif.Graph.C106_again_false"
   ],
   "note": "C106_rejected_false, C106_update_false and C106_again_false are the witnesses of the false parts."
  },
  {
   "property": "C107",
   "status": "proved",
   "theorems": [
    "Verif.Graph.C107_returns",
    "Verif.Graph.C107_goes_on",
    "Verif.Graph.C107_plain",
    "Verif.Graph.C107_attach_false"
   ],
   "note": "C107_attach_false is the witness of the false part. C107_returns and C107_goes_on together say that calls return."
  },
  {
   "property": "C108",
   "status": "proved",
   "theorems": [
    "Verif.Graph.C108_returns",
    "Verif.Graph.C108_unique",
    "Verif.Graph.C108_settled",
    "Verif.Graph.C108_validated",
    "Verif.Graph.C108_endless_false",
    "Verif.Graph.C108_not_comparable_false"
   ],
   "note": "C108_endless_false and C108_not_comparable_false prove the false parts false for all graphs."
  },
  {
   "property": "C109",
   "status": "proved",
   "theorems": [
    "Verif.Graph.C109_hidden",
    "Verif.Graph.C109_later",
    "Verif.Graph.C109_before_false"
   ],
   "note": "C109_before_false is the witness of the false part."
  },
  {
   "property": "C110",
   "status": "proved",
   "theorems": [
    "Verif.Graph.C110_record",
    "Verif.Graph.C110_paths",
    "Verif.Graph.C110_zooms",
    "Verif.Graph.C110_exponential_false"
   ],
   "note": "C110_exponential_false is the witness of the false part, for every k."
  },
  {
   "property": "C111",
   "status": "proved",
   "theorems": [
    "Verif.Store.C111_bound",
    "Verif.Store.C111_tasks",
    "Verif.Store.C111_counts",
    "Verif.Store.C111_forever_false"
   ],
   "note": "C111_forever_false has the two witnesses of the false part."
  },
  {
   "property": "C112",
   "status": "proved",
   "theorems": [
    "Verif.Store.C112_fold",
    "Verif.Store.C112_others",
    "Verif.Store.C112_alone",
    "Verif.Store.C112_order",
    "Verif.Store.C112_step",
    "Verif.Store.C112_order_false",
    "Verif.Store.C112_starved_false"
   ],
   "note": "C112_order_false and C112_starved_false are the witnesses of the false parts. Other threads dispatch to stores without futures only; adopt() and nested step() are excluded (C75, C42)."
  },
  {
   "property": "C113",
   "status": "proved",
   "theorems": [
    "Verif.Store.C113_sync",
    "Verif.Store.C113_outside",
    "Verif.Store.C113_nested",
    "Verif.Store.C113_throw",
    "Verif.Store.C113_exception",
    "Verif.Store.C113_goes_on",
    "Verif.Store.C113_throw_false"
   ],
   "note": "C113_throw_false is the witness of the false part. For futures on the manual loop see C87."
  },
  {
   "property": "C114",
   "status": "proved",
   "theorems": [
    "Verif.Watch.C114_once",
    "Verif.Watch.C114_first",
    "Verif.Watch.C114_none",
    "Verif.Watch.C114_next",
    "Verif.Watch.C114_attach",
    "Verif.Watch.C114_bind",
    "Verif.Watch.C114_detach",
    "Verif.Watch.C114_assign",
    "Verif.Watch.C114_others",
    "Verif.Watch.C114_graph",
    "Verif.Watch.C114_at_most_once",
    "Verif.Watch.C114_reader_at_most_once",
    "Verif.Watch.C114_twice_false"
   ],
   "note": "C114_graph connects this with the one list of callbacks in the model of the graph (C01 and others)."
  },
  {
   "property": "C115",
   "status": "proved",
   "theorems": [
    "Verif.Watch.C115_construct",
    "Verif.Watch.C115_access",
    "Verif.Watch.C115_emits",
    "Verif.Watch.C115_value",
    "Verif.Watch.C115_assign",
    "Verif.Watch.C115_assign_false",
    "Verif.Watch.C115_moved_false"
   ],
   "note": "An exception is a reader that was moved out of the property: its signal is still emitted while READ throws (C115_moved_false). What Qt does with signals is not modelled."
  },
  {
   "property": "C116",
   "status": "proved",
   "theorems": [
    "Verif.Asio.C116_return",
    "Verif.Asio.C116_order",
    "Verif.Asio.C116_serial",
    "Verif.Asio.C116_thread",
    "Verif.Asio.C116_async_once",
    "Verif.Asio.C116_bounded",
    "Verif.Asio.C116_goes_on",
    "Verif.Asio.C116_finish",
    "Verif.Asio.C116_stopped_false"
   ],
   "note": "What is assumed of Boost.Asio is listed in Loop/Asio.lean. C116_stopped_false: work can be lost after finish()."
  },
  {
   "property": "C117",
   "status": "proved",
   "theorems": [
    "Verif.Loop.Fps.C117_delta",
    "Verif.Loop.Fps.C117_sum",
    "Verif.Loop.Fps.C117_rate",
    "Verif.Loop.Fps.C117_delay",
    "Verif.Loop.Fps.C117_steady",
    "Verif.Loop.Fps.C117_emscripten",
    "Verif.Loop.Fps.C117_emscripten_false"
   ],
   "note": "Exact numbers instead of float, and no wrap-around of the clock. C117_emscripten_false: with Emscripten, frames that are any time apart get 0."
  },
  {
   "property": "C118",
   "status": "proved",
   "theorems": [
    "Verif.QtPool.C118_destroyed",
    "Verif.QtPool.C118_blocks",
    "Verif.QtPool.C118_main",
    "Verif.QtPool.C118_tasks",
    "Verif.QtPool.C118_pool",
    "Verif.QtPool.C118_goes_on",
    "Verif.QtPool.C118_bounded",
    "Verif.QtPool.C118_deadlock_false",
    "Verif.QtPool.C118_pending_false"
   ],
   "note": "What is assumed of Qt is listed in Loop/QtPool.lean. C118_deadlock_false and C118_pending_false are the false parts."
  },
  {
   "property": "C119",
   "status": "proved",
   "theorems": [
    "Verif.Debugger.C119_genuine",
    "Verif.Debugger.C119_undo",
    "Verif.Debugger.C119_plain",
    "Verif.Debugger.C119_one",
    "Verif.Debugger.C119_outer",
    "Verif.Debugger.C119_loop_false"
   ],
   "note": "Reducers without exceptions; C119_loop_false is the false part."
  },
  {
   "property": "C120",
   "status": "proved",
   "theorems": [
    "Verif.Store.C120_alone",
    "Verif.Store.C120_order",
    "Verif.Store.C120_fifo",
    "Verif.Store.C120_fold",
    "Verif.Store.C120_async",
    "Verif.Store.C120_no_race",
    "Verif.Store.C120_cause",
    "Verif.Store.C120_outside",
    "Verif.Store.C120_get_false"
   ],
   "note": "For stores on one loop see C98. A future of another store is a future of user code. C120_get_false is the false part."
  },
  {
   "property": "C121",
   "status": "proved",
   "theorems": [
    "Verif.Match.C121_calls",
    "Verif.Match.C121_order",
    "Verif.Match.C121_exact",
    "Verif.Match.C121_auto",
    "Verif.Match.C121_exhaustive",
    "Verif.Match.C121_valueless",
    "Verif.Match.C121_converted_false",
    "Verif.Match.C121_copies"
   ],
   "note": "Overload resolution of C++ is part of the model; parameters differ by type only. C121_converted_false is the false part."
  },
  {
   "property": "C122",
   "status": "proved",
   "theorems": [
    "Verif.Http.C122_answers",
    "Verif.Http.C122_isolated",
    "Verif.Http.C122_accepts",
    "Verif.Http.C122_accept_error_false",
    "Verif.Http.C122_over",
    "Verif.Http.C122_stop",
    "Verif.Http.C122_keeps",
    "Verif.Http.C122_debugger",
    "Verif.Http.C122_type",
    "Verif.Http.C122_no_type"
   ],
   "note": "Asio and Beast are events: an operation ends, with or without an error. C122_accept_error_false is the false part."
  },
  {
   "property": "C123",
   "status": "proved",
   "theorems": [
    "Verif.Snake.C123_snake",
    "Verif.Snake.C123_apple",
    "Verif.Snake.C123_tick",
    "Verif.Snake.C123_turn",
    "Verif.Snake.C123_back_false",
    "Verif.Snake.C123_over",
    "Verif.Snake.C123_reset",
    "Verif.Snake.C123_over_moves_false",
    "Verif.Snake.C123_different",
    "Verif.Snake.C123_different_false",
    "Verif.Snake.C123_same_apple_false"
   ],
   "note": "The reducer of the example; its user interface is not modelled. C123_back_false, C123_over_moves_false, C123_different_false and C123_same_apple_false are the false parts."
  },
  {
   "property": "C124",
   "status": "proved",
   "theorems": [
    "Verif.Todo.C124_add",
    "Verif.Todo.C124_toggle",
    "Verif.Todo.C124_remove",
    "Verif.Todo.C124_missing",
    "Verif.Todo.C124_texts",
    "Verif.Todo.C124_save",
    "Verif.Todo.C124_load",
    "Verif.Todo.C124_load_error",
    "Verif.Todo.C124_save_error",
    "Verif.Todo.C124_edits_lost_false",
    "Verif.Todo.C124_old_file_false"
   ],
   "note": "The queue of the store is part of the model. C124_edits_lost_false and C124_old_file_false are the false parts."
  },
  {
   "property": "C125",
   "status": "proved",
   "theorems": [
    "Verif.Pong.C125_paddle",
    "Verif.Pong.C125_animations",
    "Verif.Pong.C125_score",
    "Verif.Pong.C125_up",
    "Verif.Counter.C125_counter"
   ],
   "note": "Of floats only what Floats.ok says is assumed; whether the ball meets the paddle is any function. The score is unbounded."
  },
  {
   "property": "C126",
   "status": "proved",
   "theorems": [
    "Verif.Config.C126_at",
    "Verif.Config.C126_at_or",
    "Verif.Config.C126_insert",
    "Verif.Config.C126_vector",
    "Verif.Config.C126_map",
    "Verif.Config.C126_count_false",
    "Verif.Config.C126_enum",
    "Verif.Config.C126_enum_false",
    "Verif.Config.C126_xform",
    "Verif.Config.C126_xform_none",
    "Verif.Config.C126_xform_false",
    "Verif.Config.C126_goto",
    "Verif.Config.C126_goto_missing",
    "Verif.Config.C126_goto_false",
    "Verif.Config.C126_configure"
   ],
   "note": "Exceptions of the user's own types are not modelled. C126_enum_false, C126_xform_false, C126_goto_false and C126_count_false are the false parts."
  },
  {
   "property": "C127",
   "status": "proved",
   "theorems": [
    "Verif.Pong.C127_attained",
    "Verif.Pong.C127_exact",
    "Verif.Pong.C127_point_false",
    "Verif.Pong.C127_small_false",
    "Verif.Pong.C127_floats",
    "Verif.Pong.C127_walls",
    "Verif.Pong.C127_hit",
    "Verif.Pong.C127_passes",
    "Verif.Pong.C127_tick_false"
   ],
   "note": "Exact numbers instead of float: rounding is not modelled. C127_point_false, C127_small_false and C127_tick_false are the false parts."
  },
  {
   "property": "C128",
   "status": "proved",
   "theorems": [
    "Verif.Doc.C128_parts",
    "Verif.Doc.C128_effects",
    "Verif.Doc.C128_undo",
    "Verif.Doc.C128_back",
    "Verif.Doc.C128_effects_false",
    "Verif.Doc.C128_effects_run"
   ],
   "note": "The code is that of the documentation, with its misprints (names of parameters) put right. C128_effects_false is the false part."
  },
  {
   "property": "C129",
   "status": "proved",
   "theorems": [
    "Verif.Doc.C129_order",
    "Verif.Doc.C129_direct",
    "Verif.Doc.C129_todos",
    "Verif.Doc.C129_command",
    "Verif.Doc.C129_undefined_false",
    "Verif.Doc.C129_update",
    "Verif.Doc.C129_number",
    "Verif.Doc.C129_index"
   ],
   "note": "Watchers do not throw here (for that see C81), and the code of the effects dispatches and returns, as in the documentation. C129_undefined_false is the false part."
  },
  {
   "property": "C130",
   "status": "proved",
   "theorems": [
    "Verif.Doc.C130_positions",
    "Verif.Doc.C130_default",
    "Verif.Doc.C130_optional",
    "Verif.Doc.C130_negative",
    "Verif.Doc.C130_laws",
    "Verif.Doc.C130_frame",
    "Verif.Doc.C130_moves"
   ],
   "note": "Indices are unbounded integers: counting down from the least int, which overflows, is left out."
  },
  {
   "property": "C131",
   "status": "proved",
   "theorems": [
    "Verif.Doc.C131_session",
    "Verif.Doc.C131_previous",
    "Verif.Doc.C131_returns",
    "Verif.Doc.C131_reads",
    "Verif.Doc.C131_counter",
    "Verif.Doc.C131_first_line_false",
    "Verif.Doc.C131_unchanged_false"
   ],
   "note": "The statements about the first line of the documented session and about models without == are refuted, with the rest proved. int is of 32 bits; inputs that overflow the counter are left out."
  },
  {
   "property": "C132",
   "status": "proved",
   "theorems": [
    "Verif.TodoQml.C132_history",
    "Verif.TodoQml.C132_todo",
    "Verif.TodoQml.C132_add",
    "Verif.TodoQml.C132_remove",
    "Verif.TodoQml.C132_write",
    "Verif.TodoQml.C132_follows_false",
    "Verif.TodoQml.C132_put_false"
   ],
   "note": "That items stay with what they have shown, and that what was written can be read, are refuted; the rest is proved. The conversion of texts to and from QString is left out, and files are what was read from them."
  },
  {
   "property": "C133",
   "status": "proved",
   "theorems": [
    "Verif.Store.C133_fold",
    "Verif.Store.C133_order",
    "Verif.Store.C133_round",
    "Verif.Store.C133_wakes",
    "Verif.Store.C133_timer",
    "Verif.Store.C133_unseen",
    "Verif.Store.C133_order_false"
   ],
   "note": "That actions are evaluated in the order of dispatch, and that they are evaluated without a frame, are refuted; the rest is proved. User code that runs nested event loops of Qt, and dispatches by other threads to stores with futures, are left out."
  },
  {
   "property": "C134",
   "status": "proved",
   "theorems": [
    "Verif.Store.C134_fold",
    "Verif.Store.C134_room",
    "Verif.Store.C134_genuine",
    "Verif.Store.C134_catches_up",
    "Verif.Store.C134_full_false",
    "Verif.Store.C134_shown_false"
   ],
   "note": "That all actions are evaluated, and that all evaluated ones are shown, are refuted; the rest is proved. Stores with futures are left out; so is the version for Emscripten, which uses timeouts instead."
  },
  {
   "property": "C135",
   "status": "proved",
   "theorems": [
    "Verif.Todo.C135_target",
    "Verif.Todo.C135_shown",
    "Verif.Todo.C135_idle",
    "Verif.Todo.C135_still",
    "Verif.Todo.C135_outside",
    "Verif.Todo.C135_double_false",
    "Verif.Todo.C135_add_false"
   ],
   "note": "That a click acts on what is shown is refuted for clicks while other actions wait; the rest is proved. The window itself, and when it makes new items, is not modelled."
  },
  {
   "property": "C136",
   "status": "proved",
   "theorems": [
    "Verif.Store.C136_frame",
    "Verif.Store.C136_next",
    "Verif.Store.C136_steady",
    "Verif.Store.C136_browser",
    "Verif.Store.C136_click",
    "Verif.Store.C136_browser_false",
    "Verif.Store.C136_two_false"
   ],
   "note": "Two clicks in one frame and frames in browsers are refuted; the rest is proved. It is assumed that other threads do not pause or resume the loop. The windows of ImGui are not modelled."
  },
  {
   "property": "C137",
   "status": "proved",
   "theorems": [
    "Verif.House.C137_label",
    "Verif.House.C137_click",
    "Verif.House.C137_room",
    "Verif.House.C137_others",
    "Verif.House.C137_missing_false"
   ],
   "note": "Rooms that are not in the house are refuted; the rest is proved. The readers of a component are modelled by what they give for a house and by their notification upon change, as in C01, C07 and C10 for the nodes of readers. Components live as long as the store."
  },
  {
   "property": "C138",
   "status": "proved",
   "theorems": [
    "Verif.Store.C138_order",
    "Verif.Store.C138_fold",
    "Verif.Store.C138_calls",
    "Verif.Store.C138_last",
    "Verif.Store.C138_effects",
    "Verif.Store.C138_twice_false",
    "Verif.Store.C138_effects_false"
   ],
   "note": "Calls of single watchers and the order of effects are refuted; the rest is proved. The watchers are attached to the store itself and stay; they do not throw. The reducer does not run the event loop."
  },
  {
   "property": "C139",
   "status": "proved",
   "theorems": [
    "Verif.Terminal.C139_keys",
    "Verif.Terminal.C139_value",
    "Verif.Terminal.C139_screen",
    "Verif.Terminal.C139_all",
    "Verif.Terminal.C139_soon",
    "Verif.Terminal.C139_stop",
    "Verif.Terminal.C139_quit",
    "Verif.Terminal.C139_stuck_false",
    "Verif.Terminal.C139_quit_false",
    "Verif.Terminal.C139_help_false"
   ],
   "note": "Parts of characters, typing behind q, and the text on the screen are refuted; the rest is proved. Without debuggers. Boost.Asio and ncurses are modelled by what their documentation says: a wait for readiness is over for all that wait at once, and cancel leaves alone what is due already."
  },
  {
   "property": "C140",
   "status": "proved",
   "theorems": [
    "Verif.Pong.C140_paddle",
    "Verif.Window.C140_counter",
    "Verif.Window.C140_quit_false",
    "Verif.Window.C140_full_false",
    "Verif.Store.C140_room",
    "Verif.Store.C140_order",
    "Verif.Store.C140_drawn",
    "Verif.Store.C140_tick",
    "Verif.Store.C140_soon",
    "Verif.Store.C140_burst",
    "Verif.Store.C140_stop",
    "Verif.Store.C140_frames_false"
   ],
   "note": "The last keys, a full queue and the going on of frames are refuted; the rest is proved. Without other threads, debuggers, pause and finish; SDL is modelled to put events into its queue only while it is asked for the next one."
  },
  {
   "property": "C141",
   "status": "proved",
   "theorems": [
    "Verif.Snake.C141_safe",
    "Verif.Snake.C141_shown",
    "Verif.Snake.C141_all",
    "Verif.Snake.C141_reset",
    "Verif.Snake.C141_open",
    "Verif.Snake.C141_dialog",
    "Verif.Snake.C141_still",
    "Verif.Snake.C141_interval",
    "Verif.Snake.C141_dismiss_false",
    "Verif.Snake.C141_late_false"
   ],
   "note": "Closing the dialog without accepting it, and ticks that wait, are refuted; the rest is proved. The timer may trigger at any moment while it runs; keys may come while the dialog is open."
  },
  {
   "property": "C142",
   "status": "proved",
   "theorems": [
    "Verif.Todo.C142_load",
    "Verif.Todo.C142_saved",
    "Verif.Todo.C142_content",
    "Verif.Todo.C142_other_false",
    "Verif.Todo.C142_other",
    "Verif.Todo.C142_text_false"
   ],
   "note": "Files of other programs and items without a text are refuted; the rest is proved. The text of a JSON document is not modelled, only its tree; that an object is no list is not modelled."
  },
  {
   "property": "C143",
   "status": "proved",
   "theorems": [
    "Verif.Widgets.C143_shown",
    "Verif.Widgets.C143_untouched",
    "Verif.Widgets.C143_quiet",
    "Verif.Widgets.C143_assign",
    "Verif.Widgets.C143_readers",
    "Verif.Widgets.C143_refused_false",
    "Verif.Widgets.C143_taken_back_false"
   ],
   "note": "That widgets always show the model is refuted for values that the reducer refuses and for those that are taken back; the rest is proved."
  },
  {
   "property": "C144",
   "status": "proved",
   "theorems": [
    "Verif.Turnstile.C144_through",
    "Verif.Turnstile.C144_coins",
    "Verif.Turnstile.C144_shown",
    "Verif.Turnstile.C144_waved",
    "Verif.Turnstile.C144_waved_false",
    "Verif.Turnstile.C144_told_false",
    "Verif.Turnstile.C144_lost_false"
   ],
   "note": "That looking at the store, or watching it, is as good as an effect is refuted, and that no coin is lost; the rest is proved."
  },
  {
   "property": "C145",
   "status": "proved",
   "theorems": [
    "Verif.Identity.C145_key",
    "Verif.Identity.C145_index",
    "Verif.Identity.C145_twice_false",
    "Verif.Identity.C145_other_false",
    "Verif.Identity.C145_undefined_false"
   ],
   "note": "For indices the claim is refuted in general, with three witnesses, and proved for users who wait until what they have removed is gone; for identity values it is proved."
  },
  {
   "property": "C146",
   "status": "proved",
   "theorems": [
    "Verif.Listed.C146_listed",
    "Verif.Listed.C146_checked",
    "Verif.Listed.C146_shown",
    "Verif.Listed.C146_told",
    "Verif.Listed.C146_written",
    "Verif.Listed.C146_until",
    "Verif.Listed.C146_commit",
    "Verif.Listed.C146_stuck",
    "Verif.Listed.C146_lost_false",
    "Verif.Listed.C146_twice_false"
   ],
   "note": "For members that are not listed the claim is refuted, with two witnesses; what is shown and told instead is proved exactly."
  }
 ]
}