{
 "claims": [
  {
   "property": "C01",
   "status": "proved",
   "theorems": [
    "Candy.C01_construct",
    "Candy.C01_range",
    "Candy.C01_negation",
    "Candy.C01_xor",
    "Candy.C01_negate_construct",
    "Candy.C01_order",
    "Candy.C01_adjacent",
    "Candy.C01_undef",
    "Candy.C01_roundtrip"
   ],
   "note": "32-bit encoding modelled with BitVec 32; signed overflow is a distinct outcome."
  },
  {
   "property": "C02",
   "status": "proved",
   "theorems": [
    "Candy.C02_equality",
    "Candy.C02_tables",
    "Candy.C02_xor",
    "Candy.C02_constants",
    "Candy.C02_literal_value"
   ],
   "note": "All four bit patterns the operators can produce."
  },
  {
   "property": "C03",
   "status": "proved",
   "theorems": [
    "Candy.C03_meaning",
    "Candy.C03_normal",
    "Candy.C03_clauses",
    "Candy.C03_nVars",
    "Candy.C03_empty",
    "Candy.C03_append"
   ],
   "note": ""
  },
  {
   "property": "C04",
   "status": "partial",
   "theorems": [
    "Candy.C04_roundtrip",
    "Candy.C04_roundtrip_read",
    "Candy.C04_layout_partial",
    "Candy.C04_layout_small_partial",
    "Candy.C04_layout_plain"
   ],
   "note": "Round trip of printed problems is proved for every buffer that holds the lines. For arbitrary layouts, clauses broken into several lines are only read correctly when the file is smaller than the buffer; otherwise the claim is false (C06_full_statement_fails)."
  },
  {
   "property": "C05",
   "status": "partial",
   "theorems": [
    "Candy.C05_integer_partial",
    "Candy.C05_literal_partial",
    "Candy.C05_full_statement_fails",
    "Candy.C05_no_number"
   ],
   "note": "The code violates the full claim: numbers between 2^62 and 2^63 overflow in the range check, integers above 2^30 are accepted but no literal can represent them, and a token that is no number makes control reach the end of a non-void function."
  },
  {
   "property": "C06",
   "status": "partial",
   "theorems": [
    "Candy.C06_chunks_partial",
    "Candy.C06_small_partial",
    "Candy.C06_full_statement_fails",
    "Candy.C06_long_line",
    "Candy.C06_last_token"
   ],
   "note": "The code violates the full claim (zero read twice at a refill boundary, lines longer than the buffer, last token without newline); the theorems give the exact conditions under which it holds."
  },
  {
   "property": "C07",
   "status": "partial",
   "theorems": [
    "Candy.C07_accepts",
    "Candy.C07_rejects_partial",
    "Candy.C07_full_statement_fails",
    "Candy.C07_proper"
   ],
   "note": "Acceptance is exact for all partial models. Rejection reads out of bounds when a violated clause mentions a variable beyond the model vector."
  },
  {
   "property": "C08",
   "status": "partial",
   "theorems": [
    "Candy.C08_satisfies",
    "Candy.C08_value_partial",
    "Candy.C08_full_statement_fails",
    "Candy.C08_literals",
    "Candy.C08_clear"
   ],
   "note": "value() of a variable above the largest one set is an out-of-bounds access."
  },
  {
   "property": "C09",
   "status": "proved",
   "theorems": [
    "Candy.C09_renaming",
    "Candy.C09_satisfiable",
    "Candy.C09_shape"
   ],
   "note": ""
  },
  {
   "property": "C10",
   "status": "proved",
   "theorems": [
    "Candy.C10_stack",
    "Candy.C10_backtrack_restores"
   ],
   "note": ""
  },
  {
   "property": "C11",
   "status": "proved",
   "theorems": [
    "Candy.C11_propagation_sound"
   ],
   "note": ""
  },
  {
   "property": "C12",
   "status": "partial",
   "theorems": [
    "Candy.C12_propagation_complete_partial",
    "Candy.C12_inprocessing_fails"
   ],
   "note": "proved for every run without inprocessing (the default); with inprocessing the claim is false: a reachable search state is exhibited in which propagation ends without conflict although a clause is falsified"
  },
  {
   "property": "C13",
   "status": "proved",
   "theorems": [
    "Candy.C13_learnt_implied"
   ],
   "note": ""
  },
  {
   "property": "C14",
   "status": "proved",
   "theorems": [
    "Candy.C14_asserting"
   ],
   "note": ""
  },
  {
   "property": "C15",
   "status": "proved",
   "theorems": [
    "Candy.C15_minimisation"
   ],
   "note": ""
  },
  {
   "property": "C16",
   "status": "proved",
   "theorems": [
    "Candy.C16_core_correct",
    "Candy.C16_failing_assumption"
   ],
   "note": "all histories and configurations"
  },
  {
   "property": "C17",
   "status": "partial",
   "theorems": [
    "Candy.C17_lbd_counts_levels",
    "Candy.C17_stamp_array",
    "Candy.C17_learnt_weight",
    "Candy.C17_learnt_in_bounds_partial",
    "Candy.C17_bounds_fail",
    "Candy.C49_inprocessing_fails"
   ],
   "note": "The stored weight is exactly the number of levels. The access bound of the stamp array fails with repeated assumptions (C17_bounds_fail, finding); and with assumptions after inprocessing (C49_inprocessing_fails); it holds for assumptions of different variables without inprocessing, and without assumptions with inprocessing (C17_learnt_in_bounds_partial)."
  },
  {
   "property": "C18",
   "status": "proved",
   "theorems": [
    "Candy.C18_reduction"
   ],
   "note": ""
  },
  {
   "property": "C19",
   "status": "proved",
   "theorems": [
    "Candy.C19_unsat_sound"
   ],
   "note": "all histories, all configurations (pre-/inprocessing, reduction, restarts, branching)"
  },
  {
   "property": "C20",
   "status": "partial",
   "theorems": [
    "Candy.C20_sat_model_partial",
    "Candy.C20_first_solve_partial",
    "Candy.C20_first_solve_rounds_partial",
    "Candy.C20_full_statement_fails",
    "Candy.C20_inprocessing_fails",
    "Candy.C20_incremental_fails",
    "Candy.C20_stale_fails",
    "Candy.C20_stale_model_fails",
    "Candy.C20_simplifying_partial"
   ],
   "note": "proved for every history without pre-/inprocessing, for every history with preprocessing in any call (subsumption, asymmetric reduction; no elimination, no inprocessing) as long as each such call collects the clauses it removed, and for the first call with preprocessing (subsumption, asymmetric reduction, variable elimination) as long as no eliminated variable gets assigned, in particular one preprocessing round or elimination off; the unrestricted claim is refuted by a concrete run of the model with default options (wrong model), one with a second call after elimination and one with inprocessing (SAT for an unsatisfiable formula)"
  },
  {
   "property": "C21",
   "status": "proved",
   "theorems": [
    "Candy.C21_unsat_under_assumptions",
    "Candy.C21_permanent_only_if_unsat",
    "Candy.C21_no_poisoning",
    "Candy.C21_empty_conflict"
   ],
   "note": ""
  },
  {
   "property": "C22",
   "status": "proved",
   "theorems": [
    "Candy.C22_unknown_is_empty",
    "Candy.C22_immediate_stop",
    "Candy.C22_sound_after_interruption"
   ],
   "note": ""
  },
  {
   "property": "C23",
   "status": "partial",
   "theorems": [
    "Candy.C23_answers_agree_partial",
    "Candy.C23_first_answer_partial",
    "Candy.C23_simplifying_partial",
    "Candy.C23_refutation_is_final",
    "Candy.C23_unsat_sets_final",
    "Candy.C23_inprocessing_fails"
   ],
   "note": "UNSAT side for all configurations; with inprocessing two calls on the same state can give contradictory answers; agreement of answers without pre-/inprocessing, for first calls with preprocessing and for histories of calls with preprocessing but no elimination that collect removed clauses"
  },
  {
   "property": "C24",
   "status": "proved",
   "theorems": [
    "Candy.C24_test_exact",
    "Candy.C24_subsumption_equivalent",
    "Candy.C24_preprocessing_equivalent"
   ],
   "note": ""
  },
  {
   "property": "C25",
   "status": "proved",
   "theorems": [
    "Candy.C25_elimination",
    "Candy.C25_restore",
    "Candy.C20_first_solve_rounds_partial"
   ],
   "note": ""
  },
  {
   "property": "C26",
   "status": "proved",
   "theorems": [
    "Candy.C26_merge_exact"
   ],
   "note": ""
  },
  {
   "property": "C27",
   "status": "proved",
   "theorems": [
    "Candy.C27_reduction_equivalent",
    "Candy.C24_preprocessing_equivalent"
   ],
   "note": ""
  },
  {
   "property": "C28",
   "status": "partial",
   "theorems": [
    "Candy.C28_sound_partial",
    "Candy.C28_defined",
    "Candy.C28_certificate_lines",
    "Candy.C28_full_statement_fails",
    "Candy.C28_new_variable",
    "Candy.C28_contradictory_units_rejected"
   ],
   "note": "Soundness is proved for every problem and every proof file whose clauses have fewer than 65536 literals, through the file reader. Without this bound the claim is false (16-bit clause length): C28_full_statement_fails gives a file verified for a satisfiable problem."
  },
  {
   "property": "C29",
   "status": "proved",
   "theorems": [
    "Candy.C29_certificate",
    "Candy.C29_unsat_ends_with_empty"
   ],
   "note": ""
  },
  {
   "property": "C30",
   "status": "partial",
   "theorems": [
    "Candy.C30_solve_code",
    "Candy.C30_failed",
    "Candy.C30_val_invalidated",
    "Candy.C30_model_partial",
    "Candy.C30_first_model_partial",
    "Candy.C30_tidy_model_partial",
    "Candy.C30_unknown_assumption_undefined",
    "Candy.C30_new_variable_undefined",
    "Candy.C30_unknown_value_inconsistent",
    "Candy.C30_failed_unknown_undefined",
    "Candy.C30_incremental_fails"
   ],
   "note": "Return codes, failed() and the life time of answers are proved for every history of calls. Model values: without simplification, for first calls with it (see C20), and for every history of calls that preprocess without elimination. The last five theorems are findings: unknown variables in assume(), val() and failed(), and new variables after an elimination, and 10 for an unsatisfiable second query after an elimination."
  },
  {
   "property": "C31",
   "status": "proved",
   "theorems": [
    "Candy.C31_set_semantics",
    "Candy.C31_set_semantics_sized",
    "Candy.C31_defined",
    "Candy.C31_bool"
   ],
   "note": "Including wrap-around of the stamp counter."
  },
  {
   "property": "C32",
   "status": "partial",
   "theorems": [
    "Candy.C32_window_partial",
    "Candy.C32_average_partial",
    "Candy.C32_average_overflow",
    "Candy.C32_capacity_zero",
    "Candy.C32_pop_fails"
   ],
   "note": "Window and average for every history of pushes and clears. The claim fails with pop (C32_pop_fails) and the average fails above 2^32. Findings: the 32-bit sum wraps, capacity 0 is an access out of bounds, pop breaks the window."
  },
  {
   "property": "C33",
   "status": "proved",
   "theorems": [
    "Candy.C33_contents",
    "Candy.C33_index",
    "Candy.C33_min",
    "Candy.C33_defined",
    "Candy.C33_drain_sorted"
   ],
   "note": ""
  },
  {
   "property": "C34",
   "status": "proved",
   "theorems": [
    "Candy.C34_contents",
    "Candy.C34_reorganize",
    "Candy.C34_fresh",
    "Candy.C34_database",
    "Candy.C34_remove_binary"
   ],
   "note": ""
  },
  {
   "property": "C35",
   "status": "proved",
   "theorems": [
    "Candy.C35_pick",
    "Candy.C35_iteration_defined",
    "Candy.C35_extra_bump_fails",
    "Candy.C35_refines",
    "Candy.C35_solve_refines",
    "Candy.C35_answers",
    "Candy.C35_reset_defined"
   ],
   "note": "For VSIDS, VSIDSC, LRB and implicit learning, and every order induced by the scores. For bumping with centralities see C60. With opt_vsids_extra_bump every conflict reads out of bounds (finding)."
  },
  {
   "property": "C36",
   "status": "proved",
   "theorems": [
    "Candy.C36_and",
    "Candy.C36_or",
    "Candy.C36_xor",
    "Candy.C36_half"
   ],
   "note": ""
  },
  {
   "property": "C37",
   "status": "partial",
   "theorems": [
    "Candy.C37_isBlockedSet_partial",
    "Candy.C37_removal",
    "Candy.C37_minimal_partial",
    "Candy.C37_strip",
    "Candy.C37_wraps"
   ],
   "note": "After every sequence of queries, removals and strippings. A yes is always right; a no is right for literals with fewer than 65536 occurrences (16-bit counter, C37_wraps)."
  },
  {
   "property": "C38",
   "status": "partial",
   "theorems": [
    "Candy.C38_leftTotal",
    "Candy.C38_full_partial",
    "Candy.C38_fails"
   ],
   "note": "For the whole analysis, every combination of methods, with a solver that is right when it answers UNSAT. Missing: the pattern of 2^n clauses when these are not all of full length and different; for it the property is false (C38_fails). Holistic checks define the output among models of the problem."
  },
  {
   "property": "C39",
   "status": "proved",
   "theorems": [
    "Candy.C39_visits",
    "Candy.C39_order",
    "Candy.C39_terminates",
    "Candy.C39_recognised"
   ],
   "note": ""
  },
  {
   "property": "C40",
   "status": "partial",
   "theorems": [
    "Candy.C40_consistent_partial",
    "Candy.C40_lanes",
    "Candy.C40_gates",
    "Candy.C40_filter_fails",
    "Candy.C40_outside_fails",
    "Candy.C40_fails",
    "Candy.C40_recursive_gates",
    "Candy.C40_recursive_partial",
    "Candy.C40_recursive_once_fails"
   ],
   "note": "For the gates of every problem and every lane. Missing: gates evaluated by backward clauses that mention variables which are not among the inputs of the gate; for them the property is false (C40_fails, C40_outside_fails). C40_recursive_* are about the recursive clause order, for every gate filter."
  },
  {
   "property": "C41",
   "status": "proved",
   "theorems": [
    "Candy.Partition.C41_backbones",
    "Candy.Partition.C41_equivalences",
    "Candy.Partition.C41_complete",
    "Candy.Partition.C41_disjoint",
    "Candy.Partition.C41_defined"
   ],
   "note": "Variables below 2^28 (the width of the field holding them). Equivalences hold up to collisions of the 64-bit hash, as the property says."
  },
  {
   "property": "C42",
   "status": "proved",
   "theorems": [
    "Candy.EquivImpls.C42_cycle",
    "Candy.EquivImpls.C42_commit_defined",
    "Candy.EquivImpls.C42_delta",
    "Candy.EquivImpls.C42_meaning",
    "Candy.Backbones.C42_backbones"
   ],
   "note": "For conjectures in which no variable occurs twice (C41_disjoint); otherwise see C42_finding_variable_twice, C42_finding_both_signs."
  },
  {
   "property": "C43",
   "status": "partial",
   "theorems": [
    "Candy.C43_encoding",
    "Candy.C43_approximation",
    "Candy.C43_deactivated",
    "Candy.C43_none_enabled",
    "Candy.C43_refine_defined",
    "Candy.C43_unsat_sound",
    "Candy.C43_sat_model_partial",
    "Candy.C43_tidy_model_partial",
    "Candy.C43_first_model_partial",
    "Candy.C43_returns",
    "Candy.C43_no_steps",
    "Candy.C43_finding_is_plain_solve",
    "Candy.C43_finding_loop_runs_once",
    "Candy.C43_finding_approximation_unsat"
   ],
   "note": "UNSAT answers and the encoding in full. SAT answers: without preprocessing, after any history of calls that preprocess without elimination, and for a new solver with at most one round of preprocessing or no elimination (C20 is false in general)."
  },
  {
   "property": "C44",
   "status": "proved",
   "theorems": [
    "Candy.C44_satisfies",
    "Candy.C44_minimal",
    "Candy.C44_terminates",
    "Candy.C44_purify_defined",
    "Candy.C44_sorted",
    "Candy.C44_projection",
    "Candy.C44_finding_minimum_no_effect",
    "Candy.C44_finding_not_minimum"
   ],
   "note": "Without pruning and projection; projection removes exactly the gate outputs (C44_projection). Findings: the search for a minimum has no effect."
  },
  {
   "property": "C45",
   "status": "partial",
   "theorems": [
    "Candy.C45_md5",
    "Candy.C45_gbd",
    "Candy.C45_gbd_injective",
    "Candy.C45_degree",
    "Candy.C45_degree_occurrences",
    "Candy.C45_degree_invariant_partial",
    "Candy.C45_finding_empty_piece",
    "Candy.C45_finding_gbd_empty_clause",
    "Candy.C45_finding_gbd_not_dimacs",
    "Candy.C45_finding_degree_order",
    "Candy.C45_finding_degree_underflow"
   ],
   "note": "MD5 and gbd hash in full (injectivity without empty clauses). The degree hash is invariant when no clause contains a literal given as a unit clause and the negation of one; otherwise it is not (findings)."
  },
  {
   "property": "C46",
   "status": "proved",
   "theorems": [
    "Candy.C46_defined",
    "Candy.C46_fires_on_full_window",
    "Candy.C46_quiet",
    "Candy.C46_needs_positive_window"
   ],
   "note": ""
  },
  {
   "property": "C47",
   "status": "proved",
   "theorems": [
    "Candy.C47_search_ends",
    "Candy.C47_no_infinite_search",
    "Candy.C47_solve_ends",
    "Candy.C72_solve_ends",
    "Candy.C47_static_search_ends",
    "Candy.C47_static_no_infinite_search",
    "Candy.C47_static_solve_ends"
   ],
   "note": "Search ends within n(n+1)^(n+1)+1 iterations from every reachable state; also every call of solve as a whole, with preprocessing and inprocessing (C72: with the number of rounds the code makes). Both for either propagator."
  },
  {
   "property": "C48",
   "status": "partial",
   "theorems": [
    "Candy.C48_storage_partial",
    "Candy.C48_full_statement_fails"
   ],
   "note": "the full statement is false of the code: the length field has 16 bits and the weight 65535 means deleted; proved for clauses below both limits"
  },
  {
   "property": "C49",
   "status": "partial",
   "theorems": [
    "Candy.C49_round_in_bounds_partial",
    "Candy.C49_search_in_bounds_partial",
    "Candy.C49_extension_in_bounds_partial",
    "Candy.C49_entry_in_bounds",
    "Candy.C49_inprocessing_in_bounds",
    "Candy.C49_inprocessing_round_in_bounds_partial",
    "Candy.C49_rounds_in_bounds",
    "Candy.C49_sys_representable",
    "Candy.C49_inprocessing_fails",
    "Candy.C49_representable",
    "Candy.C49_growth",
    "Candy.C49_repeated_assumptions_fail",
    "Candy.C49_trail_overflow",
    "Candy.C30_unknown_assumption_undefined",
    "Candy.C30_new_variable_undefined",
    "Candy.C30_failed_unknown_undefined"
   ],
   "note": "Vectors of the code as lists of fixed length, every access checked. In bounds: every iteration of the main loop and all of search, for every history without inprocessing and with assumptions of different variables, and with inprocessing for calls without assumptions; the values of eliminated variables at the end of a first call. Findings: repeated assumptions, default preprocessing with a variable assigned after its elimination. All of preprocessing at the start of a call and of inprocessing (subsumption, asymmetric variable reduction, variable elimination, occurrence lists, rebuilds) in bounds for every history. Finding: after inprocessing and with assumptions a conflict may happen at a level equal to the number of variables, and computeLBD overruns its stamps."
  },
  {
   "property": "C50",
   "status": "partial",
   "theorems": [
    "Candy.C50_unsat",
    "Candy.C50_sat_partial",
    "Candy.C50_model_partial",
    "Candy.C50_exit_status_partial",
    "Candy.C50_exit_status_tests",
    "Candy.C50_model_check_partial",
    "Candy.C50_exit_status_fails"
   ],
   "note": "From the characters of the input file to the characters of the output, for one thread. UNSATISFIABLE is proved without restriction, SATISFIABLE and the v line within the restrictions of C20. The exit status is 10/20/0 unless test_model or test_proof is set; then it is 0 or 1 (C50_exit_status_fails, finding)."
  },
  {
   "property": "C51",
   "status": "partial",
   "theorems": [
    "Candy.C51_terminates",
    "Candy.C51_partition_partial",
    "Candy.C51_meaning_partial",
    "Candy.C51_fails"
   ],
   "note": "Proved for the non-empty clauses; an empty clause is lost (C51_fails)."
  },
  {
   "property": "C52",
   "status": "proved",
   "theorems": [
    "Candy.C52_acyclic",
    "Candy.C52_extension",
    "Candy.C52_unique"
   ],
   "note": ""
  },
  {
   "property": "C53",
   "status": "partial",
   "theorems": [
    "Candy.C53_completable_partial",
    "Candy.C53_terminates",
    "Candy.C53_holistic_fails"
   ],
   "note": "Completion of the minimised model, for all flags of mimimizeModel and all runs of its solver. Missing: holistic recognition, where it is wrong (C53_holistic_fails). The number of rounds and the time limit of the analysis are arbitrary."
  },
  {
   "property": "C54",
   "status": "partial",
   "theorems": [
    "Candy.C54_clear_partial",
    "Candy.C54_plain_keeps",
    "Candy.C54_noElimination_keeps",
    "Candy.C54_reused_answers",
    "Candy.C54_clear_fails"
   ],
   "note": "proved whenever no variable was eliminated (elimination off, or no pre- and inprocessing, as in the gate analysis); with elimination the claim is false (witness with default options)"
  },
  {
   "property": "C55",
   "status": "partial",
   "theorems": [
    "Candy.C55_simplifying_sound",
    "Candy.C55_simplifying_keeps_order",
    "Candy.C55_preprocessing_complete_partial",
    "Candy.C55_inprocessing_fails",
    "Candy.C55_static_sound_partial",
    "Candy.C55_static_complete_partial",
    "Candy.C55_static_keeps_order_partial"
   ],
   "note": "Soundness, defined behaviour and order of literals: every state of every search after any history with any pre- and inprocessing. Completeness: every state of every history with any preprocessing; with inprocessing (off by default) it is false (finding)."
  },
  {
   "property": "C56",
   "status": "partial",
   "theorems": [
    "Candy.C56_simplifying_unsat",
    "Candy.C56_simplifying_unknown",
    "Candy.C56_simplifying_certificate",
    "Candy.C56_simplifying_certificate_complete",
    "Candy.C56_simplifying_sat_partial",
    "Candy.C56_first_solve_partial",
    "Candy.C56_first_answer_partial",
    "Candy.C56_propagators_agree_partial",
    "Candy.C56_inprocessing_fails",
    "Candy.C56_inprocessing_loop_fails",
    "Candy.C56_static_unsat_partial",
    "Candy.C56_static_sat_partial",
    "Candy.C56_static_unknown_partial",
    "Candy.C56_static_certificate_partial",
    "Candy.C56_same_answer_partial"
   ],
   "note": "UNSAT answers, cores and certificates: every history of calls with any pre- and inprocessing. SAT answers: histories of calls without elimination and inprocessing that collect removed clauses, and the first call with a round of preprocessing with elimination. The full claim about SAT answers is false, as for the other propagator (findings)."
  },
  {
   "property": "C57",
   "status": "partial",
   "theorems": [
    "Candy.C57_in_memory_partial",
    "Candy.C57_file_partial",
    "Candy.C57_terminates",
    "Candy.C57_fails_constant",
    "Candy.C57_fails_negate",
    "Candy.C57_fails_negate_all",
    "Candy.C57_fails_strip"
   ],
   "note": "Circuit in memory equivalent for every formula and every recognition, whenever the run has no undefined behaviour; the file is in the format, functional and equivalent if no clause mentions the first variable. The full claim is false (three findings)."
  },
  {
   "property": "C58",
   "status": "partial",
   "theorems": [
    "Candy.C58_unsat",
    "Candy.C58_sat_partial",
    "Candy.C58_verdict_partial",
    "Candy.C58_model_partial",
    "Candy.C58_progress",
    "Candy.C58_no_model_fails",
    "Candy.C58_exit_fails",
    "Candy.C58_crash_fails",
    "Candy.C58_lost_fails",
    "Candy.C58_inprocessing_fails"
   ],
   "note": "UNSATISFIABLE answers are correct for all threads, options, schedules and interruptions. SATISFIABLE, one status line, exit status and models: for threads without inprocessing, with one round of preprocessing or without elimination, and (except SATISFIABLE itself) without interruption; counterexamples for the rest"
  },
  {
   "property": "C59",
   "status": "partial",
   "theorems": [
    "Candy.C59_advice",
    "Candy.C59_no_conjectures",
    "Candy.C59_reachable",
    "Candy.C59_conjectures_disjoint",
    "Candy.C59_init_defined",
    "Candy.C59_overlap_overflows",
    "Candy.C59_calls",
    "Candy.C59_budget",
    "Candy.C59_half_life_partial",
    "Candy.C59_random",
    "Candy.C59_half_life_fails",
    "Candy.C59_clear_fails",
    "Candy.C35_pick",
    "Candy.C35_iteration_defined",
    "Candy.C35_answers"
   ],
   "note": "All but two parts: the half-life counts calls instead of decisions, and clear() keeps old advice (findings). Disjoint conjectures under the assumption that hashes do not collide."
  },
  {
   "property": "C60",
   "status": "partial",
   "theorems": [
    "Candy.C60_graph",
    "Candy.C60_lookup",
    "Candy.C60_reduce_defined",
    "Candy.C60_iteration_defined_partial",
    "Candy.C60_searching",
    "Candy.C60_empty_clause",
    "Candy.C60_new_variables_fail",
    "Candy.C60_clear_fails"
   ],
   "note": "Graph, termination and bounds are proved; bounds of the table for calls of solve that make the graph (the first call of a new solver always does). In later calls with new variables, and after clear(), the table is read out of bounds (findings)."
  },
  {
   "property": "C61",
   "status": "partial",
   "theorems": [
    "Candy.C61_checks_partial",
    "Candy.C61_unsat_checks_partial",
    "Candy.C61_checked_refutes",
    "Candy.C61_preprocessing_fails"
   ],
   "note": "Proved for all histories without simplification (learning, minimisation, restarts, reduction, several calls, new clauses). With preprocessing it is false (finding)."
  },
  {
   "property": "C62",
   "status": "partial",
   "theorems": [
    "Candy.Options.C62_parse_partial",
    "Candy.Options.C62_input_partial",
    "Candy.Options.C62_unknown_rejected",
    "Candy.Options.C62_range_ignored",
    "Candy.Options.C62_any_number",
    "Candy.Options.C62_string_fails",
    "Candy.Options.C62_argc_fails"
   ],
   "note": "Admissible arguments are proved to be parsed correctly provided the uninitialised variable holds argc by accident. Ranges are not enforced, long texts are not terminated, argc is indeterminate (findings)."
  },
  {
   "property": "C63",
   "status": "partial",
   "theorems": [
    "Candy.Builder.C63_selection_partial",
    "Candy.Builder.C63_unknown_mode_rejected",
    "Candy.Builder.C63_command_line_partial",
    "Candy.Builder.C63_portfolio_partial",
    "Candy.Builder.C63_rsar_partial",
    "Candy.Builder.C63_modes_fail",
    "Candy.Builder.C63_size_fails",
    "Candy.Builder.C63_thread_size_fails",
    "Candy.Builder.C63_rsar_fails"
   ],
   "note": "Proved for all options with advice size 2 or 3 and mode unrestricted, from the command line to the solver, and for all schedules of threads. The other modes, other sizes, the size in threads and unsuitable problems for abstraction refinement are wrong in the code (findings)."
  },
  {
   "property": "C64",
   "status": "partial",
   "theorems": [
    "Candy.Shared.C64_safe_partial",
    "Candy.Shared.C64_complete_partial",
    "Candy.Shared.C64_share_partial",
    "Candy.Shared.C64_own_partial",
    "Candy.Shared.C64_export_partial",
    "Candy.Shared.C64_sound",
    "Candy.Shared.C64_replace_race",
    "Candy.Shared.C64_flag_race",
    "Candy.Shared.C64_torn_race",
    "Candy.Shared.C64_join_drops_units"
   ],
   "note": "That nothing is invented holds for all schedules. Safety, completeness, passing on, export and keeping of own clauses are proved for all schedules that respect three rules which the locks do not enforce; without each of the rules there is a schedule that reads freed or unconstructed memory (findings). Unit clauses of a joining solver are dropped (finding)."
  },
  {
   "property": "C65",
   "status": "partial",
   "theorems": [
    "Candy.InputDeps.C65_counts",
    "Candy.InputDeps.C65_rounds",
    "Candy.InputDeps.C65_removal_partial",
    "Candy.InputDeps.C65_documented_partial",
    "Candy.InputDeps.C65_marked_partial",
    "Candy.InputDeps.C65_twice_fails",
    "Candy.InputDeps.C65_inputs_fail",
    "Candy.InputDeps.C65_probe_fails"
   ],
   "note": "Counts and rounds hold for every recognised circuit. Removal is proved for conjectures in which no variable occurs twice; without that it fails, and it fails for variables that are not outputs of gates."
  },
  {
   "property": "C66",
   "status": "partial",
   "theorems": [
    "Candy.C66_cyclic_partial",
    "Candy.C66_biased",
    "Candy.C66_simple",
    "Candy.C66_chance",
    "Candy.C66_values",
    "Candy.C66_nonzero",
    "Candy.C66_alternate_partial",
    "Candy.C66_polarity_fails",
    "Candy.C66_zero_fails",
    "Candy.C66_wrap_fails",
    "Candy.C66_max_fails",
    "Candy.C66_alternate_fails",
    "Candy.C66_alternate_witness",
    "Candy.C66_period_fails"
   ],
   "note": "For all histories every call is defined, changes only the given vectors and combines the right number of fresh random numbers, if the bias can be computed in 32 bits; with fair independent bits the chances follow by counting. Fails: true and false are exchanged, a bias of 0 acts like 1, the bias wraps around, the largest bias and a period of 0 divide by zero, and alternation never changes to the second strategy."
  },
  {
   "property": "C67",
   "status": "partial",
   "theorems": [
    "Candy.C67_conjectures_partial",
    "Candy.C67_backbones_found_partial",
    "Candy.C67_defined_partial",
    "Candy.C67_steps",
    "Candy.C67_default_ok",
    "Candy.C67_max_var",
    "Candy.C67_filters",
    "Candy.C67_count"
   ],
   "note": "For all sequences of runs, all strategies and all contents of memory. Missing: gates evaluated by backward clauses must mention only inputs (the finding of C40), and hashes of a variable and its negation must not collide (the finding of C41)."
  },
  {
   "property": "C68",
   "status": "proved",
   "theorems": [
    "Candy.C68_exact",
    "Candy.C68_xor",
    "Candy.C68_xor_fails"
   ],
   "note": "For every recognised circuit and every iteration order. The second test for exclusive ors never changes the answer. By itself that test accepts gates with four inputs, but the detector does not call it for them."
  },
  {
   "property": "C69",
   "status": "proved",
   "theorems": [
    "Candy.C69_filter",
    "Candy.C69_unmarked"
   ],
   "note": "For all advice and heuristics; the heuristics are arbitrary functions. The call of the filter is commented out in the pinned commit."
  },
  {
   "property": "C70",
   "status": "partial",
   "theorems": [
    "Candy.C70_variables_partial",
    "Candy.C70_nodes",
    "Candy.C70_range",
    "Candy.C70_sample",
    "Candy.C70_nan",
    "Candy.C70_nan_fails",
    "Candy.C70_sample_empty_fails",
    "Candy.C70_largest_fails"
   ],
   "note": "For all graphs and formulas, with rational numbers in place of doubles. Fails: all numbers are NaN if no variable lies between two others or if the sample is empty; with the scope LWCC the searches start at the wrong nodes."
  },
  {
   "property": "C71",
   "status": "proved",
   "theorems": [
    "Candy.C71_components",
    "Candy.C71_variables",
    "Candy.C71_isolated_fails"
   ],
   "note": "For all symmetric graphs without isolated nodes, which includes the graphs of all formulas. The number of edges of a component is not modelled."
  },
  {
   "property": "C72",
   "status": "proved",
   "theorems": [
    "Candy.C72_preprocessing_ends",
    "Candy.C72_inprocessing_ends",
    "Candy.C72_solve_ends",
    "Candy.C72_history",
    "Candy.C72_unsat_sound",
    "Candy.C72_static_preprocessing_ends",
    "Candy.C72_static_inprocessing_ends",
    "Candy.C72_static_solve_ends",
    "Candy.C72_static_history",
    "Candy.C72_static_unsat_sound",
    "Candy.C20_inprocessing_loop_fails"
   ],
   "note": "The loops of pre- and inprocessing with their counters and their condition end from every reachable state, with either propagator, and a call of solve with these loops is a call of the model solve with some lists of rounds. The last theorem repeats the finding of C20 with the real loop."
  },
  {
   "property": "C73",
   "status": "partial",
   "theorems": [
    "Candy.C73_visits_all",
    "Candy.C73_allocate",
    "Candy.C73_history",
    "Candy.C73_sort",
    "Candy.C73_subsume_sound",
    "Candy.C73_one_page",
    "Candy.C73_new_page_fails"
   ],
   "note": "Allocation, iteration and sorting hold for all page sizes, object sizes and growth policies. Subsumption over any number of pages is sound whenever it is defined, and equals the one-page model when everything fits on the first page. False in full: C73_new_page_fails, creating an object on a third page while the loop is on the first one leaves the iterator with a freed array of pages."
  },
  {
   "property": "C74",
   "status": "partial",
   "theorems": [
    "Candy.C74_diameter_partial",
    "Candy.C74_radius_partial",
    "Candy.C74_eccentricities_partial",
    "Candy.C74_periphery_partial",
    "Candy.C74_center_partial",
    "Candy.C74_eccentricities_all",
    "Candy.C74_brute_partial",
    "Candy.C74_star_fails",
    "Candy.C74_start_fails",
    "Candy.C74_brute_fails"
   ],
   "note": "All five measures are right and the computation ends, for components that are not stars (the radius: also for stars) if the first node is in the component. Missing because false: stars, first node in another component (undefined in every such case), plain computations with less than 100 nodes."
  },
  {
   "property": "C75",
   "status": "partial",
   "theorems": [
    "Candy.Scc.C75_components_partial",
    "Candy.Scc.C75_names_partial",
    "Candy.Scc.C75_build",
    "Candy.Scc.C75_components_larger",
    "Candy.Scc.C75_acyclic_fails"
   ],
   "note": "The components, their sizes and the largest one are right for every directed graph in which two different nodes are strongly connected. Every other directed graph makes the code access an element behind the end of a vector (C75_acyclic_fails); with vectors that have one more element the results are right for all graphs."
  },
  {
   "property": "C76",
   "status": "partial",
   "theorems": [
    "Candy.Dst.C76_distance",
    "Candy.Dst.C76_distance_unique",
    "Candy.Dst.C76_closenessSum",
    "Candy.Dst.C76_distances",
    "Candy.Dst.C76_distribution_partial",
    "Candy.Dst.C76_distribution_complete",
    "Candy.Dst.C76_average_partial",
    "Candy.Dst.C76_average_any",
    "Candy.Dst.C76_sample_fails",
    "Candy.Dst.C76_average_small_fails",
    "Candy.Dst.C76_average_scc_fails",
    "Candy.Dst.C76_average_full_fails"
   ],
   "note": "Distances are exact for every graph. The distribution is exact for a sample size of one, counting pairs the first node of which is in the scope; the average is the mean if from every node of the scope exactly its nodes can be reached. False in full: samples and small scopes access elements outside of vectors, and the average is wrong for strongly connected components and graphs that are not connected."
  },
  {
   "property": "C77",
   "status": "partial",
   "theorems": [
    "Candy.EdgeList.C77_history",
    "Candy.EdgeList.C77_undirected",
    "Candy.EdgeList.C77_variable_graph",
    "Candy.EdgeList.C77_reciprocity_partial",
    "Candy.EdgeList.C77_averageDegree",
    "Candy.EdgeList.C77_reciprocity_reads_behind",
    "Candy.EdgeList.C77_reciprocity_wrong",
    "Candy.EdgeList.C77_edge_sparse_fails"
   ],
   "note": "Queries, sorting and undirected graphs are exact for all graphs built from named edges and all sequences of calls. The reciprocity is exact if the lists were sorted before; false in full: otherwise it reads behind the end of lists or is wrong, and queries miss edges between numbers that were not given out in order."
  },
  {
   "property": "C78",
   "status": "partial",
   "theorems": [
    "Candy.Dst.C78_closeness_partial",
    "Candy.Dst.C78_connected",
    "Candy.Dst.C78_largest_fails",
    "Candy.Dst.C78_full_fails",
    "Candy.Dst.C78_not_computed_fails"
   ],
   "note": "Exact for every connected graph with computed components, and if the largest component has the first nodes. False in full: the loop visits the first indices instead of the nodes of the component, other components get the average distance, and without computed components results are negative."
  },
  {
   "property": "C79",
   "status": "partial",
   "theorems": [
    "Candy.Triangles.C79_around",
    "Candy.Triangles.C79_triangles_partial",
    "Candy.Triangles.C79_wedges",
    "Candy.Triangles.C79_clustering_partial",
    "Candy.Triangles.C79_component",
    "Candy.Triangles.C79_node_partial",
    "Candy.Triangles.C79_average_partial",
    "Candy.Triangles.C79_history",
    "Candy.Triangles.C79_node_directed_fails",
    "Candy.Triangles.C79_scope_fails",
    "Candy.Triangles.C79_no_wedges_fails"
   ],
   "note": "Exact after every sequence of calls for all nodes and for scopes that no edge leaves, for coefficients of nodes in undirected graphs. False in full: nodes of directed graphs with less than two outgoing edges get 0, triangles that are only in part in the scope are counted, and without wedges the result is not a number."
  },
  {
   "property": "C80",
   "status": "partial",
   "theorems": [
    "Candy.PageRank.C80_rounds",
    "Candy.PageRank.C80_sum_partial",
    "Candy.PageRank.C80_result_sum_partial",
    "Candy.PageRank.C80_least",
    "Candy.PageRank.C80_converges",
    "Candy.PageRank.C80_unique",
    "Candy.PageRank.C80_sum_fails"
   ],
   "note": "Rounds, lower bound and convergence to the unique solution for every graph, for rational numbers instead of floating point. The sum is one if every node has an outgoing edge, in particular for undirected graphs with an edge at every node; false otherwise."
  },
  {
   "property": "C81",
   "status": "partial",
   "theorems": [
    "Candy.C81_eccentricity_partial",
    "Candy.C81_not_computed_fails"
   ],
   "note": "Exact for both scopes if components were computed before, with the exceptions of C74 (stars, and a start outside of the largest component). False in full: without computed components an element of an empty vector is read."
  },
  {
   "property": "C82",
   "status": "partial",
   "theorems": [
    "Candy.EdgeList.C82_density_partial",
    "Candy.EdgeList.C82_density_le",
    "Candy.EdgeList.C82_degrees",
    "Candy.EdgeList.C82_parallel_fails",
    "Candy.EdgeList.C82_single_fails"
   ],
   "note": "for all nodes, sorted edges and two nodes at least; false for unsorted parallel edges and for a single node; largest components and in-degrees are not modelled"
  }
 ]
}