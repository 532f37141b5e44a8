{
 "claims": [
  {
   "property": "C01",
   "status": "proved",
   "theorems": [
    "Mutable.SB.C01_eq",
    "Mutable.SB.C01_all",
    "Mutable.SB.C01_singleton",
    "Mutable.SB.C01_assign",
    "Mutable.SB.C01_union",
    "Mutable.SB.C01_inter",
    "Mutable.SB.C01_diff",
    "Mutable.SB.C01_compl",
    "Mutable.SB.C01_subset",
    "Mutable.SB.C01_size",
    "Mutable.SB.C01_empty",
    "Mutable.SB.C01_isSingleton",
    "Mutable.SB.C01_hi",
    "Mutable.SB.C01_maskToLo",
    "Mutable.SB.C01_singletonToLoMask",
    "Mutable.SB.C01_succ",
    "Mutable.SB.C01_pred"
   ],
   "note": "all operations of SmallBitset as set operations over 0..63"
  },
  {
   "property": "C02",
   "status": "proved",
   "theorems": [
    "Mutable.SB.C02_forward",
    "Mutable.SB.C02_reverse",
    "Mutable.SB.C02_terminates"
   ],
   "note": ""
  },
  {
   "property": "C03",
   "status": "proved",
   "theorems": [
    "Mutable.SB.C03_subsets",
    "Mutable.SB.C03_nodup",
    "Mutable.SB.C03_subset_first",
    "Mutable.SB.C03_terminates",
    "Mutable.SB.C03_last"
   ],
   "note": ""
  },
  {
   "property": "C04",
   "status": "proved",
   "theorems": [
    "Mutable.SB.C04_gosper",
    "Mutable.SB.C04_gosper_from",
    "Mutable.SB.C04_terminates",
    "Mutable.SB.C04_subsetEnumerator",
    "Mutable.SB.C04_zero_diverges",
    "Mutable.SB.C04_portable_ok",
    "Mutable.SB.C04_portable_wrong"
   ],
   "note": "for k>=1 (k=0 diverges: C04_zero_diverges); non-BMI2 branch only below 32 bits (C04_portable_wrong is a found defect)"
  },
  {
   "property": "C05",
   "status": "proved",
   "theorems": [
    "Mutable.AdjMat.C05_reachable",
    "Mutable.AdjMat.C05_reachable_in",
    "Mutable.AdjMat.C05_terminates"
   ],
   "note": ""
  },
  {
   "property": "C06",
   "status": "proved",
   "theorems": [
    "Mutable.AdjMat.C06_is_connected",
    "Mutable.AdjMat.C06_is_connected2",
    "Mutable.AdjMat.C06_is_connected2_symm",
    "Mutable.AdjMat.C06_neighbors"
   ],
   "note": ""
  },
  {
   "property": "C07",
   "status": "proved",
   "theorems": [
    "Mutable.AdjMat.C07_directed",
    "Mutable.AdjMat.C07_undirected",
    "Mutable.AdjMat.C07_terminates"
   ],
   "note": ""
  },
  {
   "property": "C08",
   "status": "proved",
   "theorems": [
    "Mutable.AdjMat.C08_csg",
    "Mutable.AdjMat.C08_csg_all",
    "Mutable.AdjMat.C08_terminates"
   ],
   "note": ""
  },
  {
   "property": "C09",
   "status": "proved",
   "theorems": [
    "Mutable.AdjMat.C09_pairs"
   ],
   "note": ""
  },
  {
   "property": "C10",
   "status": "proved",
   "theorems": [
    "Mutable.AdjMat.C10_partition",
    "Mutable.AdjMat.C10_terminates"
   ],
   "note": ""
  },
  {
   "property": "C11",
   "status": "proved",
   "theorems": [
    "Mutable.AdjMat.C11_msf"
   ],
   "note": ""
  },
  {
   "property": "C12",
   "status": "proved",
   "theorems": [
    "Mutable.AdjMat.C12_tree"
   ],
   "note": ""
  },
  {
   "property": "C13",
   "status": "proved",
   "theorems": [
    "Mutable.PE.C13_DPsize",
    "Mutable.PE.C13_DPsizeOpt",
    "Mutable.PE.C13_DPsizeSub",
    "Mutable.PE.C13_DPsub",
    "Mutable.PE.C13_DPsubOpt",
    "Mutable.PE.C13_TDbasic",
    "Mutable.PE.C13_TDMinCutAGaT"
   ],
   "note": "bottom-up enumerators for < 64 relations and all graphs; top-down ones for connected graphs"
  },
  {
   "property": "C14",
   "status": "partial",
   "theorems": [
    "Mutable.PE.C14_valid_partial",
    "Mutable.PE.C14_optimal_partial",
    "Mutable.PE.C14_acyclic_partial",
    "Mutable.PE.C14_clique_partial",
    "Mutable.PE.C14_not_optimal"
   ],
   "note": "The property as stated is false: C14_not_optimal is a kernel-checked counterexample (6 relations, C_out; found defect: BFS order of for_each_CSG_undirected). Proved instead: valid plans always (C14_valid_partial), optimality on distance-hereditary graphs incl. acyclic graphs and cliques."
  },
  {
   "property": "C15",
   "status": "proved",
   "theorems": [
    "Mutable.PE.C15_PEall"
   ],
   "note": ""
  },
  {
   "property": "C16",
   "status": "proved",
   "theorems": [
    "Mutable.PE.C16_GOO",
    "Mutable.PE.C16_TDGOO",
    "Mutable.PE.C16_IKKBZ",
    "Mutable.PE.C16_LinearizedDP",
    "Mutable.PE.C16_LinearizedDP_le_IKKBZ",
    "Mutable.PE.C16_unconnected_fails",
    "Mutable.PE.C16_infinite_fails"
   ],
   "note": "GOO, TDGOO, IKKBZ, LinearizedDP; cardinality estimates and costs abstract (a linear order), priority queues as arbitrary choice functions; estimates assumed to depend only on the joined set, costs monotone; for IKKBZ/LinearizedDP costs below infinity. Defects proved: unconnected graphs and infinite costs fail assertions."
  },
  {
   "property": "C17",
   "status": "proved",
   "theorems": [
    "Mutable.CNF.C17_to_CNF_preserves_meaning",
    "Mutable.CNF.C17_literals_are_atoms",
    "Mutable.CNF.C17_clause_le_sound",
    "Mutable.CNF.C17_clause_eq_sound",
    "Mutable.CNF.C17_cnf_le_sound",
    "Mutable.CNF.C17_cnf_eq_sound",
    "Mutable.CNF.C17_connectives",
    "Mutable.CNF.C17_empty_is_not_TRUE"
   ],
   "note": "all well-typed Boolean expressions and all three-valued valuations"
  },
  {
   "property": "C18",
   "status": "proved",
   "theorems": [
    "Mutable.RW.C18_mutual_exclusion",
    "Mutable.RW.C18_counter_overflow"
   ],
   "note": "for fewer than 65536 threads (the counters are uint16_t); C18_counter_overflow shows exclusion fails with 65537 threads"
  },
  {
   "property": "C19",
   "status": "proved",
   "theorems": [
    "Mutable.RW.C19_upgrade_is_atomic",
    "Mutable.RW.C19_at_most_one_upgrade",
    "Mutable.RW.C19_upgrade_outcome"
   ],
   "note": ""
  },
  {
   "property": "C20",
   "status": "partial",
   "theorems": [
    "Mutable.RW.C20_no_lost_wakeup_partial",
    "Mutable.RW.C20_readers",
    "Mutable.RW.C20_deadlock_free_partial",
    "Mutable.RW.C20_lost_wakeup"
   ],
   "note": "The property as stated is false: C20_lost_wakeup is a kernel-checked reachable deadlock (found defect: upgrade() and lock_write() share a condition variable and notify_one). Proved for programs that do not mix upgrade() with blocking lock_write()."
  },
  {
   "property": "C21",
   "status": "proved",
   "theorems": [
    "Mutable.HM.C21_multimap",
    "Mutable.HM.C21_insert_results",
    "Mutable.HM.C21_total",
    "Mutable.HM.C21_begin_of_empty_map"
   ],
   "note": "load-factor arithmetic abstract for correctness, default 0.85f for totality; found defect: begin() on an empty slot 0 (C21_begin_of_empty_map)"
  },
  {
   "property": "C22",
   "status": "proved",
   "theorems": [
    "Mutable.HM.C22_probe_sequence_is_a_permutation",
    "Mutable.HM.C22_insertion_terminates",
    "Mutable.HM.C22_distance_32bit"
   ],
   "note": ""
  },
  {
   "property": "C23",
   "status": "proved",
   "theorems": [
    "Mutable.XorList.C23_history_is_sequence",
    "Mutable.XorList.C23_operations_succeed",
    "Mutable.XorList.C23_observation_is_unique",
    "Mutable.XorList.C23_no_leak",
    "Mutable.XorList.C23_returned_iterators",
    "Mutable.XorList.C23_pop_empty",
    "Mutable.XorList.C23_iterator_stable",
    "Mutable.XorList.C23_iterator_at_insertion_point_breaks"
   ],
   "note": ""
  },
  {
   "property": "C24",
   "status": "proved",
   "theorems": [
    "Mutable.ListAlloc.C24_live_allocations_disjoint",
    "Mutable.ListAlloc.C24_allocate",
    "Mutable.ListAlloc.C24_allocate_zero",
    "Mutable.ListAlloc.C24_deallocate",
    "Mutable.ListAlloc.C24_huge_request_wraps"
   ],
   "note": "Sizes up to 2^64-9; C24_huge_request_wraps shows that larger requests wrap around and are 'satisfied' by one page. The free list is a sequence by C23; its link words are left arbitrary."
  },
  {
   "property": "C25",
   "status": "proved",
   "theorems": [
    "Mutable.ListAlloc.C25_no_leak",
    "Mutable.ListAlloc.C25_only_own_memory",
    "Mutable.ListAlloc.C25_fully_coalesced"
   ],
   "note": "Memory mapped by others may change arbitrarily in between."
  },
  {
   "property": "C26",
   "status": "proved",
   "theorems": [
    "Mutable.LinAlloc.C26_live_memory_disjoint",
    "Mutable.LinAlloc.C26_allocate",
    "Mutable.LinAlloc.C26_deallocate",
    "Mutable.LinAlloc.C26_no_double_free"
   ],
   "note": ""
  },
  {
   "property": "C27",
   "status": "proved",
   "theorems": [
    "Mutable.Index.C27_entries",
    "Mutable.Index.C27_lower_bound",
    "Mutable.Index.C27_upper_bound",
    "Mutable.Index.C27_range",
    "Mutable.Index.C27_not_finalized"
   ],
   "note": "std::sort by contract (any sorted permutation), std::lower_bound/upper_bound as libstdc++'s binary search"
  },
  {
   "property": "C28",
   "status": "partial",
   "theorems": [
    "Mutable.Index.C28_rmi_equals_array_partial",
    "Mutable.Index.C28_end_prediction_partial",
    "Mutable.Index.C28_regression_least_squares",
    "Mutable.Index.C28_regression_exact",
    "Mutable.Index.C28_prediction_range",
    "Mutable.Index.C28_misses_existing_key"
   ],
   "note": "The property as stated is false: C28_misses_existing_key is a kernel-checked counterexample (found defect: predict() clamps to num_entries inclusive and reads past the end). Proved for every prediction that is the position of an entry, and for end predictions when the junk behind the array compares not less."
  },
  {
   "property": "C29",
   "status": "proved",
   "theorems": [
    "Mutable.Fn.C29_like",
    "Mutable.Fn.C29_deterministic"
   ],
   "note": "all strings, patterns, escape characters and contents of the uninitialised table"
  },
  {
   "property": "C30",
   "status": "proved",
   "theorems": [
    "Mutable.Fn.C30_unescape_escape",
    "Mutable.Fn.C30_interpret_quote_escape",
    "Mutable.Fn.C30_escape_injective",
    "Mutable.Fn.C30_self_delimiting",
    "Mutable.Fn.C30_no_newline",
    "Mutable.Fn.C30_letter_n_breaks",
    "Mutable.Fn.C30_trailing_escape"
   ],
   "note": "C30_letter_n_breaks, C30_trailing_escape document the limits"
  },
  {
   "property": "C31",
   "status": "proved",
   "theorems": [
    "Mutable.Fn.C31_is_pow_2",
    "Mutable.Fn.C31_ceil_to_pow_2",
    "Mutable.Fn.C31_ceil_to_pow_2_narrow",
    "Mutable.Fn.C31_ceil_to_multiple_of_pow_2",
    "Mutable.Fn.C31_round_up_to_multiple",
    "Mutable.Fn.C31_round_up_to_multiple_zero",
    "Mutable.Fn.C31_log2_floor",
    "Mutable.Fn.C31_log2_ceil",
    "Mutable.Fn.C31_log2_floor_narrow",
    "Mutable.Fn.C31_powi",
    "Mutable.Fn.C31_setbit",
    "Mutable.Fn.C31_sum_wo_overflow",
    "Mutable.Fn.C31_prod_wo_overflow",
    "Mutable.Fn.C31_ceil_to_next_page",
    "Mutable.Fn.C31_range_wide_enough_signed",
    "Mutable.Fn.C31_range_wide_enough_unsigned",
    "Mutable.Fn.C31_sequence_number",
    "Mutable.Fn.C31_range_wide_enough_float",
    "Mutable.Fn.C31_murmur3_injective"
   ],
   "note": "32- and 64-bit types; for 8/16-bit types ceil_to_pow_2 and log2_floor are wrong (C31_ceil_to_pow_2_narrow, C31_log2_floor_narrow: found defect)"
  },
  {
   "property": "C32",
   "status": "partial",
   "theorems": [
    "Mutable.Sched.C32_serial",
    "Mutable.Sched.C32_submission_order_partial",
    "Mutable.Sched.C32_order_depends_on_undefined_behaviour",
    "Mutable.Sched.C32_start_times",
    "Mutable.Sched.C32_deadlock",
    "Mutable.Sched.C32_autocommit_no_deadlock_partial",
    "Mutable.Sched.C32_autocommit_answered_partial",
    "Mutable.Sched.C32_every_command_accounted",
    "Mutable.Sched.C32_all_answered_after_close"
   ],
   "note": "Serial execution and start-time order proved for every history (whatever the undefined comparison in push() yields). Submission order only if that comparison (dereference of rend(), found defect) yields false. Liveness is false in general (C32_deadlock, found defect) and proved for autocommit clients."
  },
  {
   "property": "C33",
   "status": "partial",
   "theorems": [
    "Mutable.Layout.C33_row_separated",
    "Mutable.Layout.C33_pax_separated",
    "Mutable.Layout.C33_pax_tuples_fits",
    "Mutable.Layout.C33_pax_bytes_fits",
    "Mutable.Layout.C33_pax_bytes_fits_byte_sized",
    "Mutable.Layout.C33_pax_bytes_overlap",
    "Mutable.Layout.C33_row_aligned",
    "Mutable.Layout.C33_pax_tuples_aligned",
    "Mutable.Layout.C33_pax_bytes_aligned",
    "Mutable.Layout.C33_pax_columns_byte_aligned",
    "Mutable.Layout.C33_row_misaligned_without_reordering",
    "Mutable.Layout.C33_decimal_half_byte",
    "Mutable.Layout.C33_bounds",
    "Mutable.Layout.C33_read_write",
    "Mutable.Layout.C33_null_bits",
    "Mutable.Layout.C33_scan_row",
    "Mutable.Layout.C33_scan_pax",
    "Mutable.Layout.C33_scan_pax_nulls",
    "Mutable.Layout.C33_rowstore",
    "Mutable.Layout.C33_columnstore",
    "Mutable.Layout.C33_capacity_exceeds_layout"
   ],
   "note": "Separation, bounds, alignment, read/write, scan proved for row layout (all schemas), PAX (whenever the factory's own check passes; proved to pass for NTuples, and for NBytes when one padded row fits or all sizes are whole bytes), RowStore/ColumnStore. False in general: C33_pax_bytes_overlap, C33_row_misaligned_without_reordering, C33_decimal_half_byte, C33_capacity_exceeds_layout are proved counterexamples"
  },
  {
   "property": "C34",
   "status": "partial",
   "theorems": [
    "Mutable.SM.C34_expression_partial",
    "Mutable.SM.C34_logic_total",
    "Mutable.SM.C34_cnf_partial",
    "Mutable.SM.C34_stack_size",
    "Mutable.SM.C34_concat_null_counterexample",
    "Mutable.SM.C34_null_divisor_counterexample",
    "Mutable.SM.C34_mod_decimal_counterexample",
    "Mutable.SM.C34_factor_overflow_counterexample",
    "Mutable.SM.C34_context_index_counterexample"
   ],
   "note": "Proved for every expression of the integer/decimal/boolean/string/date fragment and every tuple: the compiled program pushes exactly the SQL value or stops at a 64-bit overflow / a zero or NULL divisor (C34_expression_partial), expressions without arithmetic never trap (C34_logic_total), CNF conditions compute the three-valued formula (C34_cnf_partial), the stack allocation suffices (C34_stack_size). Missing: floating point. Restrictions needed because of proved defects: NULL concatenation, NULL divisor, modulo of decimals, 64-bit scaling factors, 8-bit context indices."
  },
  {
   "property": "C35",
   "status": "partial",
   "theorems": [
    "Mutable.Interp.C35_plans_partial",
    "Mutable.Interp.C35_basic_plans",
    "Mutable.Interp.C35_hash_join",
    "Mutable.Interp.C35_nlj_loop",
    "Mutable.Interp.C35_nlj_combinations",
    "Mutable.Interp.C35_comparator",
    "Mutable.Interp.C35_hash_join_null_counterexample",
    "Mutable.Interp.C35_sort_null_counterexample",
    "Mutable.Interp.C35_join_null_counterexample",
    "Mutable.Interp.C35_hash_join_lost_rows_counterexample",
    "Mutable.Interp.C35_avg_null_counterexample",
    "Mutable.Interp.C35_sum_null_counterexample",
    "Mutable.Interp.C35_limit_zero_counterexample",
    "Mutable.Interp.C35_limit_added",
    "Mutable.Interp.C35_limit_overflow_counterexample",
    "Mutable.Interp.C35_limit",
    "Mutable.Interp.C35_string_groups_counterexample",
    "Mutable.Interp.C35_groups_without_strings_partial",
    "Mutable.Interp.C35_string_join_counterexample"
   ],
   "note": "Operator trees over abstract tuples with compiled expressions as functions; exact arithmetic. Proved for plans satisfying Ok; counterexamples for NULLs in copied tuples (Tuple::clone clears the NULL bit: sorts, buffered join inputs, build keys), string keys in grouping and hash joins (compared by address), rows lost below filters, AVG/SUM with NULLs, LIMIT 0, LIMIT+OFFSET overflow."
  },
  {
   "property": "C36",
   "status": "partial",
   "theorems": [
    "Mutable.Lex.C36_lossless",
    "Mutable.Lex.C36_sound_partial",
    "Mutable.Lex.C36_round_trip",
    "Mutable.Lex.C36_dates_unchecked",
    "Mutable.Lex.C36_hex_float_without_digits",
    "Mutable.Lex.C36_nul_truncates",
    "Mutable.Lex.C36_backslash_at_end"
   ],
   "note": "Lossless tiling with positions, termination, and round trip of every text composed of valid tokens are proved for all inputs without NUL that do not end in a backslash. The converse 'every non-error token is valid' holds except for dates (C36_dates_unchecked: invalid &= accept(..) forgets errors) and hex floats without digits (C36_hex_float_without_digits), both found defects."
  },
  {
   "property": "C37",
   "status": "partial",
   "theorems": [
    "Mutable.Parse.C37_expression",
    "Mutable.Parse.C37_statement",
    "Mutable.Parse.C37_unambiguous",
    "Mutable.Parse.C37_text",
    "Mutable.Parse.C37_print_expression_partial",
    "Mutable.Parse.C37_print_partial",
    "Mutable.Parse.C37_terminates",
    "Mutable.Parse.C37_sound_partial",
    "Mutable.Parse.C37_instruction",
    "Mutable.Parse.C37_nested_query_lost",
    "Mutable.Parse.C37_quote_lost",
    "Mutable.Parse.C37_null_lost",
    "Mutable.Parse.C37_decimal_rejected",
    "Mutable.Parse.C37_size_truncated",
    "Mutable.Parse.C37_error_token_accepted",
    "Mutable.Parse.C37_binary_not"
   ],
   "note": "Completeness, unambiguity, termination and progress are proved for all token sequences. Print/parse round trip is proved for the trees described in Parser/Printable.lean, soundness for the lax grammar; the excluded cases are real defects, proved as C37_nested_query_lost, C37_quote_lost, C37_null_lost, C37_decimal_rejected, C37_binary_not, C37_error_token_accepted, C37_size_truncated."
  },
  {
   "property": "C38",
   "status": "partial",
   "theorems": [
    "Mutable.DSV.C38_round_trip_partial",
    "Mutable.DSV.C38_header_partial",
    "Mutable.DSV.C38_placement",
    "Mutable.DSV.C38_skip_header_partial",
    "Mutable.DSV.C38_any_input",
    "Mutable.DSV.C38_short_rows_partial",
    "Mutable.DSV.C38_invalid_cell",
    "Mutable.DSV.C38_missing_newline",
    "Mutable.DSV.C38_unwritten_row",
    "Mutable.DSV.C38_stale_boolean",
    "Mutable.DSV.C38_ignored_column_with_quote",
    "Mutable.DSV.C38_skip_empty_header",
    "Mutable.DSV.C38_decimal_scale",
    "Mutable.DSV.C38_byte_255",
    "Mutable.DSV.C38_sign_only"
   ],
   "note": "Round trip proved for all tables, sensible dialects, header modes (C38_round_trip_partial, C38_header_partial, C38_placement, C38_skip_header_partial), for any input: C38_any_input. The full claim is false: eight defects are proved (missing final newline, unwritten rows, stale Booleans, ignored quoted columns, empty skipped header, decimals of scale >= 10, byte 255, sign without digits). Floats and dates are kept as text."
  },
  {
   "property": "C39",
   "status": "proved",
   "theorems": [
    "Mutable.Pool.C39_same_object",
    "Mutable.Pool.C39_handles_equal",
    "Mutable.Pool.C39_no_dangling",
    "Mutable.Pool.C39_result",
    "Mutable.Pool.C39_result_concurrent",
    "Mutable.Pool.C39_value_stable",
    "Mutable.Pool.C39_size",
    "Mutable.Pool.C39_count",
    "Mutable.Pool.C39_no_underflow",
    "Mutable.Pool.C39_copy",
    "Mutable.Pool.C39_move",
    "Mutable.Pool.C39_assign",
    "Mutable.Pool.C39_no_deadlock",
    "Mutable.Pool.C39_count_overflow"
   ],
   "note": "sequential and thread-safe pools over the model of reader_writer_mutex (fewer than 65536 threads); std::unordered_map and atomic counters are trusted; counters are 32 bits wide (C39_count_overflow)"
  },
  {
   "property": "C40",
   "status": "proved",
   "theorems": [
    "Mutable.HS.C40_astar_sound",
    "Mutable.HS.C40_astar_bound",
    "Mutable.HS.C40_astar_optimal",
    "Mutable.HS.C40_astar_complete",
    "Mutable.HS.C40_astar_terminates",
    "Mutable.HS.C40_no_budget",
    "Mutable.HS.C40_beam_sound",
    "Mutable.HS.C40_beam_terminates",
    "Mutable.HS.C40_beam_finds",
    "Mutable.HS.C40_good_optimal",
    "Mutable.HS.C40_bottom_up",
    "Mutable.HS.C40_bottom_up_inadmissible",
    "Mutable.HS.C40_top_down",
    "Mutable.HS.C40_bottom_up_beam",
    "Mutable.HS.C40_top_down_beam",
    "Mutable.HS.C40_mark_determined",
    "Mutable.HS.C40_zero_admissible",
    "Mutable.HS.C40_sum_admissible",
    "Mutable.HS.C40_beam_raises_cost"
   ],
   "note": "Costs in an ordered field (no rounding). Heap order of equally good states is arbitrary. Beam search: C40_beam_raises_cost proves that the missing braces at HeuristicSearch.hpp:364-366 let a state's cost grow. Other state representations (SubproblemTableBottomUp, EdgesBottomUp, EdgePtrBottomUp) and heuristics other than zero and sum are not modelled; for them the general theorems apply given their hypotheses."
  },
  {
   "property": "C41",
   "status": "proved",
   "theorems": [
    "Mutable.Schema.C41_find",
    "Mutable.Schema.C41_has",
    "Mutable.Schema.C41_at",
    "Mutable.Schema.C41_deduplicate",
    "Mutable.Schema.C41_drop_constants",
    "Mutable.Schema.C41_union",
    "Mutable.Schema.C41_union_ambiguous",
    "Mutable.Schema.C41_eq",
    "Mutable.Schema.C41_intersection",
    "Mutable.Schema.C41_identifier",
    "Mutable.Schema.C41_constraints",
    "Mutable.Schema.C41_concatenation"
   ],
   "note": "find/has/at, deduplicate, drop_constants, union, intersection, equality for all schemas; the ambiguity report is characterised exactly for find/has; union with duplicates on the left fails (C41_union_ambiguous)."
  },
  {
   "property": "C42",
   "status": "partial",
   "theorems": [
    "Mutable.MVCC.C42_filter_partial",
    "Mutable.MVCC.C42_snapshot_partial",
    "Mutable.MVCC.C42_serial_sees_all_writes_partial",
    "Mutable.MVCC.C42_nested_queries_are_not_filtered",
    "Mutable.MVCC.C42_aborted_rows_visible_and_nested_unfiltered",
    "Mutable.MVCC.C42_alias_not_found"
   ],
   "note": "Proved for base tables in the FROM clause of the query, for every history of the scheduler (C42_filter_partial, C42_snapshot_partial, C42_serial_sees_all_writes_partial). The full claim is false: nested queries are not filtered and rows of aborted transactions stay visible (C42_aborted_rows_visible_and_nested_unfiltered), and aliased tables make the filter's attribute unresolvable (C42_alias_not_found)."
  },
  {
   "property": "C43",
   "status": "partial",
   "theorems": [
    "Mutable.WSort.C43_ends_permutation",
    "Mutable.WSort.C43_order_by_partial",
    "Mutable.WSort.C43_order_by_predicated_partial",
    "Mutable.WSort.C43_compare_branching",
    "Mutable.WSort.C43_compare_agree",
    "Mutable.WSort.C43_null_string_misplaced",
    "Mutable.WSort.C43_predicated_overflow",
    "Mutable.WSort.C43_predicated_null_garbage"
   ],
   "note": "proved: the emitted sort always ends and permutes (any comparison); sorted for branching comparison without NULLs in nullable string columns; sorted for predicated comparison within 31 bits and with equal value parts of NULLs. The full claim is false of the code; the three restrictions are shown necessary by counterexample theorems."
  },
  {
   "property": "C44",
   "status": "partial",
   "theorems": [
    "Mutable.WStr.C44_compare_partial",
    "Mutable.WStr.C44_null",
    "Mutable.WStr.C44_order_bytes",
    "Mutable.WStr.C44_varchar_lengths",
    "Mutable.WStr.C44_varchar_literal",
    "Mutable.WStr.C44_nonascii",
    "Mutable.WStr.C44_cached_direction",
    "Mutable.WStr.C44_concat_partial",
    "Mutable.WStr.C44_concat_char"
   ],
   "note": "proved: comparison for all strings unless both are VARCHAR of different length (order operators for ASCII), exact result for VARCHARs of different length and for arbitrary bytes, NULL, concatenation with a VARCHAR on the right. The full claim is false of the code: counterexamples C44_varchar_literal, C44_nonascii, C44_cached_direction, C44_concat_char."
  },
  {
   "property": "C45",
   "status": "partial",
   "theorems": [
    "Mutable.WStr.C45_like_general_partial",
    "Mutable.WStr.C45_contains",
    "Mutable.WStr.C45_prefix_partial",
    "Mutable.WStr.C45_suffix_partial",
    "Mutable.WStr.C45_like_constant_partial",
    "Mutable.WStr.C45_empty_pattern",
    "Mutable.WStr.C45_prefix_127",
    "Mutable.WStr.C45_prefix_char",
    "Mutable.WStr.C45_suffix_127",
    "Mutable.WStr.C45_suffix_nonascii",
    "Mutable.WStr.C45_suffix_direction"
   ],
   "note": "proved: all four algorithms decide LIKE (general DP for every non-empty pattern; search for every text; prefix and suffix bounds and the dispatch for ASCII). The full claim is false of the code: C45_empty_pattern, C45_prefix_127, C45_prefix_char, C45_suffix_127, C45_suffix_nonascii, C45_suffix_direction."
  },
  {
   "property": "C46",
   "status": "partial",
   "theorems": [
    "Mutable.WasmHT.C46_multimap",
    "Mutable.WasmHT.C46_group",
    "Mutable.WasmHT.C46_join",
    "Mutable.WasmHT.C46_join_unique",
    "Mutable.WasmHT.C46_grouping",
    "Mutable.WasmHT.C46_probing",
    "Mutable.WasmHT.C46_chained_entries",
    "Mutable.WasmHT.C46_chained_multimap_partial",
    "Mutable.WasmHT.C46_chained_group_partial",
    "Mutable.WasmHT.C46_chained_growth"
   ],
   "note": "Proved without bound for the open-addressing tables (linear and quadratic probing), join and grouping, for every hash function compatible with key equality and up to 2^29 entries (32-bit memory). For the chained table only without growth: its rehash reads the key from the bucket array instead of the entry (WasmAlgo.cpp:1235), so after growing keys are lost (C46_chained_growth). Predication, allocation and byte layout not modelled here."
  },
  {
   "property": "C47",
   "status": "partial",
   "theorems": [
    "Mutable.WHash.C47_bit_mix",
    "Mutable.WHash.C47_integer_no_collision",
    "Mutable.WHash.C47_equal_key",
    "Mutable.WHash.C47_insert_key",
    "Mutable.WHash.C47_equal_hash_partial",
    "Mutable.WHash.C47_insert_hash_partial",
    "Mutable.WHash.C47_respects_partial",
    "Mutable.WHash.C47_group_partial",
    "Mutable.WHash.C47_negative_zero",
    "Mutable.WHash.C47_nan",
    "Mutable.WHash.C47_dirty_string",
    "Mutable.WHash.C47_nonascii_collide",
    "Mutable.WHash.C47_join_ignores_scale",
    "Mutable.WHash.C47_layout",
    "Mutable.WHash.C47_null_bits_partial",
    "Mutable.WHash.C47_null_bit_alias"
   ],
   "note": "Full claim is false of the code: 0.0 and -0.0, NaN, short strings in memory that is not zeroed, more than 256 columns, INT joined with DECIMAL (proved as counterexamples). Proved: comparison and storing of keys correct for all contents of memory; equal hash for canonical keys; grouping end to end with the hash function of the code; layout and NULL bits."
  },
  {
   "property": "C48",
   "status": "partial",
   "theorems": [
    "Mutable.WX.C48_expression_partial",
    "Mutable.WX.C48_not_null",
    "Mutable.WX.C48_supported",
    "Mutable.WX.C48_filter_partial",
    "Mutable.WX.C48_lazy_filter_partial",
    "Mutable.WX.C48_lazy_agrees_partial",
    "Mutable.WX.C48_pipeline_partial",
    "Mutable.WX.C48_predicated",
    "Mutable.WX.C48_null_divisor",
    "Mutable.WX.C48_predicated_trap",
    "Mutable.WX.C48_narrow_overflow",
    "Mutable.WX.C48_no_short_circuit",
    "Mutable.WX.C48_float_modulo"
   ],
   "note": "The claim as stated is false of the code. Proved: every typed, supported expression gets code of the right type that shows its SQL value, and traps only if it contains an integer division with a NULL operand (C48_expression_partial); can_be_null is sound; filters, lazy disjunctive filters, projections above them (branching and predicated). Defects proved: a / NULL traps; predicated filters evaluate projections of rows that do not qualify; INT(1)/INT(2) results not reduced; AND/OR evaluate both sides; float % accepted by Sema but no code. Not modelled: strings (C44/C45), DECIMAL, INT(x), SIMD lanes."
  },
  {
   "property": "C49",
   "status": "partial",
   "theorems": [
    "Mutable.Ins.C49_insert_partial",
    "Mutable.Ins.C49_rejected",
    "Mutable.Ins.C49_accepted_iff",
    "Mutable.Ins.C49_null_rejected",
    "Mutable.Ins.C49_preserves",
    "Mutable.Ins.C49_null_wrong_column",
    "Mutable.Ins.C49_null_keeps_previous",
    "Mutable.Ins.C49_default_keeps_previous",
    "Mutable.Ins.C49_not_null_garbage",
    "Mutable.Ins.C49_out_of_range",
    "Mutable.Ins.C49_not_atomic"
   ],
   "note": "Full statement is false of the code (counterexamples C49_null_wrong_column, C49_null_keeps_previous, C49_default_keeps_previous, C49_not_null_garbage, C49_out_of_range, C49_not_atomic). Proved for row and PAX layouts and all column types but floating point: accepted statements whose values fit, without NULL when there are hidden columns, with DEFAULT only after DEFAULT/NULL, NOT NULL columns given a value (C49_insert_partial); preservation of all previous rows and of the capacity for every statement (C49_preserves); rejected statements change nothing."
  },
  {
   "property": "C50",
   "status": "partial",
   "theorems": [
    "Mutable.IScan.C50_index_scan_partial",
    "Mutable.IScan.C50_indexes_current_partial",
    "Mutable.IScan.C50_invalidated",
    "Mutable.IScan.C50_other_tables",
    "Mutable.IScan.C50_condition_shape",
    "Mutable.IScan.C50_fallback",
    "Mutable.IScan.C50_import_stale",
    "Mutable.IScan.C50_failed_insert_stale",
    "Mutable.IScan.C50_second_attribute",
    "Mutable.IScan.C50_decimal_not_scaled",
    "Mutable.IScan.C50_constant_range",
    "Mutable.IScan.C50_constant_type",
    "Mutable.IScan.C50_crossing_range",
    "Mutable.IScan.C50_alias_aborts",
    "Mutable.IScan.C50_rmi_exposed"
   ],
   "note": "Proved for conditions on one attribute compared to constants of its type and range, after histories without IMPORT into an indexed table and without INSERTs that fail half-way, for satisfiable conditions (or release build without interpretation), RMI predictions inside the array and fewer than 2^32 rows; each excluded case is a proved counterexample (C50_import_stale, C50_failed_insert_stale, C50_second_attribute, C50_decimal_not_scaled, C50_constant_range, C50_constant_type, C50_crossing_range, C50_alias_aborts, C50_rmi_exposed)."
  },
  {
   "property": "C51",
   "status": "partial",
   "theorems": [
    "Mutable.QG.C51_from_where_partial",
    "Mutable.QG.C51_enumerators_partial",
    "Mutable.QG.C51_greedy_partial",
    "Mutable.QG.C51_PEall",
    "Mutable.QG.C51_adjacency",
    "Mutable.QG.C51_unconnected_fails",
    "Mutable.QG.C51_where_without_from_ignored",
    "Mutable.QG.C51_optimize_filter",
    "Mutable.QG.C51_having",
    "Mutable.QG.C51_ternary_clause_fails"
   ],
   "note": "False for statements without FROM, Cartesian products and clauses over three sources (proved); correlated nested queries not modelled."
  },
  {
   "property": "C52",
   "status": "partial",
   "theorems": [
    "Mutable.Deliver.C52_print_partial",
    "Mutable.Deliver.C52_callback_partial",
    "Mutable.Deliver.C52_windows",
    "Mutable.Deliver.C52_interpreter_print",
    "Mutable.Deliver.C52_interpreter_callback",
    "Mutable.Deliver.C52_backends_agree_partial",
    "Mutable.Deliver.C52_window_predication",
    "Mutable.Deliver.C52_callback_constant_first",
    "Mutable.Deliver.C52_callback_constant_cleared",
    "Mutable.Deliver.C52_alias_shadows",
    "Mutable.Deliver.C52_same_alias",
    "Mutable.Deliver.C52_full_print_false"
   ],
   "note": "Compiled back end: proved for SELECT lists whose names do not clash, without predication into finite windows and, for callbacks, without a single constant among other columns; false of the code otherwise (counterexamples proved). Interpreter: no condition on names."
  },
  {
   "property": "C53",
   "status": "partial",
   "theorems": [
    "Mutable.WasmAgg.C53_hash_grouping_partial",
    "Mutable.WasmAgg.C53_ordered_runs_partial",
    "Mutable.WasmAgg.C53_ordered_grouping_partial",
    "Mutable.WasmAgg.C53_aggregation_partial",
    "Mutable.WasmAgg.C53_groupings_agree_partial",
    "Mutable.WasmAgg.C53_lanes_agree_partial",
    "Mutable.WasmAgg.C53_no_qualifying_row",
    "Mutable.WasmAgg.C53_running_average_nan",
    "Mutable.WasmAgg.C53_decimal_average",
    "Mutable.WasmAgg.C53_ordered_average_nan",
    "Mutable.WasmAgg.C53_min_infinity",
    "Mutable.WasmAgg.C53_max_infinity",
    "Mutable.WasmAgg.C53_full_false"
   ],
   "note": "proved for finite arguments, sums that fit into 64 bits and AVG of numbers without scale; the full claim is false of the code: no qualifying row with predication, running averages after a rejected first row, infinities, DECIMAL averages"
  },
  {
   "property": "C54",
   "status": "partial",
   "theorems": [
    "Mutable.Tail.C54_compiled_partial",
    "Mutable.Tail.C54_interpreter_partial",
    "Mutable.Tail.C54_limit_partial",
    "Mutable.Tail.C54_resolve",
    "Mutable.Tail.C54_reject",
    "Mutable.Tail.Ex1.C54_limit_zero_defect",
    "Mutable.Tail.Ex1.C54_limit_overflow_defect",
    "Mutable.Tail.Ex1.C54_function_compiled_defect",
    "Mutable.Tail.Ex1.C54_function_interpreter_defect",
    "Mutable.Tail.Ex1.C54_function_alias_defect",
    "Mutable.Tail.Ex1.C54_twice_defect",
    "Mutable.Tail.Ex1.C54_select_twice_defect"
   ],
   "note": "Proved for ORDER BY without scalar functions, non-zero LIMIT with offset+limit < 2^64 and names that do not clash; the full claim is false of the code, counterexamples proved (C54_*_defect)."
  },
  {
   "property": "C55",
   "status": "partial",
   "theorems": [
    "Mutable.WasmJoin.C55_nested_loops",
    "Mutable.WasmJoin.C55_sort_merge_partial",
    "Mutable.WasmJoin.C55_sort_merge_single",
    "Mutable.WasmJoin.C55_sort_merge_sound",
    "Mutable.WasmJoin.C55_sort_merge_order",
    "Mutable.WasmJoin.C55_sort_merge_quicksort",
    "Mutable.WasmJoin.C55_hash_join_agrees",
    "Mutable.WasmJoin.C55_sort_merge_agrees",
    "Mutable.WasmJoin.C55_composite_keys_lose_pairs",
    "Mutable.WasmJoin.C55_duplicate_keys_lose_pairs",
    "Mutable.WasmJoin.C55_group_join_partial",
    "Mutable.WasmJoin.C55_group_join_swaps_keys",
    "Mutable.WasmJoin.C55_group_join_duplicate_keys",
    "Mutable.WasmJoin.C55_group_join_counts_rejected"
   ],
   "note": "proved: nested-loops join for all inputs; sort-merge join exact for one key column with unique left keys (also with C43's quicksort), sound and ordered for all inputs; agreement with the hash join of C46; group-join under the stated hypotheses. Not covered: composite keys of the sort-merge join and group-joins with reordered grouping keys or predicated probe rows, where the code is wrong (counterexamples proved)"
  },
  {
   "property": "C56",
   "status": "partial",
   "theorems": [
    "Mutable.Minimize.C56_no_exception",
    "Mutable.Minimize.C56_twice_partial",
    "Mutable.Minimize.C56_unminimized",
    "Mutable.Minimize.C56_interpreter_partial",
    "Mutable.Minimize.C56_interpreter_agrees_partial",
    "Mutable.Minimize.C56_compiled",
    "Mutable.Minimize.C56_scans",
    "Mutable.Minimize.C56_group_counterexample",
    "Mutable.Minimize.C56_join_counterexample",
    "Mutable.Minimize.C56_duplicate_counterexample",
    "Mutable.Minimize.C56_twice_counterexample"
   ],
   "note": "Proved for all plans without duplicate identifiers: minimization succeeds and keeps the result schema, compiled code returns the original result, scans read exactly the live attributes. The interpreter returns the original result if no filter or sort directly above a projection/grouping/aggregation feeds a grouping, aggregation or left join input (otherwise false: C56_group_counterexample, C56_join_counterexample). Running the pass twice changes nothing if every aggregation keeps an aggregate (otherwise an assertion fails: C56_twice_counterexample). Duplicate identifiers below ORDER BY: exception (C56_duplicate_counterexample)."
  },
  {
   "property": "C57",
   "status": "partial",
   "theorems": [
    "Mutable.Constraints.C57_constraints_partial",
    "Mutable.Constraints.C57_closed",
    "Mutable.Constraints.C57_minimize_result",
    "Mutable.Constraints.C57_execution_partial",
    "Mutable.Constraints.C57_rely",
    "Mutable.Constraints.C57_can_be_null_partial",
    "Mutable.Constraints.C57_group_resolves",
    "Mutable.Constraints.C57_agg_resolves",
    "Mutable.Constraints.C57_sum_counterexample",
    "Mutable.Constraints.C57_alias_counterexample",
    "Mutable.Constraints.C57_derived_counterexample",
    "Mutable.Constraints.C57_single_key"
   ],
   "note": "Proved for all plans whose expressions are resolved (an expression taken for never NULL refers to columns marked NOT NULL) and in which no item or key has the name of another input column: every schema entry's NOT NULL and UNIQUE is kept by the rows, for any number of minimizations; execution relying on them returns the rows of the plan. The general statement is false: C57_sum_counterexample (aggregates over empty input), C57_alias_counterexample, C57_derived_counterexample (names clash)."
  },
  {
   "property": "C58",
   "status": "proved",
   "theorems": [
    "Mutable.PhysOpt.C58_post_order_ids",
    "Mutable.PhysOpt.C58_entries_are_coverings",
    "Mutable.PhysOpt.C58_entries_are_optimal",
    "Mutable.PhysOpt.C58_has_plan_iff",
    "Mutable.PhysOpt.C58_extracted_plan_is_cheapest",
    "Mutable.PhysOpt.C58_plan_is_extracted",
    "Mutable.PhysOpt.C58_covers_exactly_once",
    "Mutable.PhysOpt.C58_extracted_plan_covers_exactly_once",
    "Mutable.PhysOpt.C58_interpreter_always_has_plan",
    "Mutable.PhysOpt.C58_hash_join_ordering_option_has_no_effect",
    "Mutable.PhysOpt.C58_nan_cost_hides_plans_counterexample",
    "Mutable.PhysOpt.C58_stale_nodes_counterexample"
   ],
   "note": "generic in physical operators, conditions and costs; hypotheses CostOK (no NaN, monotone +) and ReadsMatched (documented contract of pre_condition); both shown to be needed by counterexamples"
  },
  {
   "property": "C59",
   "status": "partial",
   "theorems": [
    "Mutable.SortCond.C59_claims_hold_partial",
    "Mutable.SortCond.C59_implied_by_sound_partial",
    "Mutable.SortCond.C59_noop_sorting_partial",
    "Mutable.SortCond.C59_ordered_grouping_partial",
    "Mutable.SortCond.C59_merge_join_inputs_sorted_partial",
    "Mutable.SortCond.C59_grouping_needs_a_prefix",
    "Mutable.SortCond.C59_simple_plans",
    "Mutable.SortCond.C59_bug_projection_drops_leading_key",
    "Mutable.SortCond.C59_bug_grouping_by_non_prefix",
    "Mutable.SortCond.C59_bug_grouping_reorders_keys",
    "Mutable.SortCond.C59_bug_implied_by_positions",
    "Mutable.SortCond.C59_full_property_false",
    "Mutable.SortCond.C59_merge_join_overly_strict"
   ],
   "note": "True for plans whose projections and ordered groupings keep a prefix of the sort order (Careful), and for all plans without projection, ordered grouping and aggregation (C59_simple_plans). The full property is false (C59_full_property_false): counterexamples are admitted plans that leave out a necessary sort or split groups."
  },
  {
   "property": "C60",
   "status": "partial",
   "theorems": [
    "Mutable.Sema.C60_unqualified_name",
    "Mutable.Sema.C60_qualified_name",
    "Mutable.Sema.C60_order_independent_partial",
    "Mutable.Sema.C60_statement_order_partial",
    "Mutable.Sema.C60_scope_extension",
    "Mutable.Sema.C60_columns_exist",
    "Mutable.Sema.C60_from_is_uncorrelated",
    "Mutable.Sema.C60_from_accepted",
    "Mutable.Sema.C60_accepted_types",
    "Mutable.Sema.C60_order_by_result",
    "Mutable.Sema.C60_no_crash_partial",
    "Mutable.Sema.C60_bug_star_order",
    "Mutable.Sema.C60_bug_call_crashes",
    "Mutable.Sema.C60_bug_null_column_crashes",
    "Mutable.Sema.C60_bug_order_by_null_crashes",
    "Mutable.Sema.C60_bug_call_in_insert_crashes"
   ],
   "note": "Names, scopes, FROM isolation, independence of enumeration and types of accepted statements proved for all statements; no crash only if just names are called and NULL is neither selected nor ordered by (bug theorems show the crashes); column order of SELECT * depends on the hash table."
  },
  {
   "property": "C61",
   "status": "partial",
   "theorems": [
    "Mutable.Sema.C61_where_is_row_local",
    "Mutable.Sema.C61_key_is_function_of_row",
    "Mutable.Sema.C61_grouped_statement_partial",
    "Mutable.Sema.C61_aggregate_statement_partial",
    "Mutable.Sema.C61_nested_value_partial",
    "Mutable.Sema.C61_bug_mixed_expression",
    "Mutable.Sema.C61_bug_order_by_column_of_aggregate",
    "Mutable.Sema.C61_bug_correlated_having",
    "Mutable.Sema.C61_qualified_key_rejected",
    "Mutable.Sema.C61_bug_nested_many_rows",
    "Mutable.Sema.C61_bug_nested_aggregate"
   ],
   "note": "WHERE/GROUP BY row-local and one value per group proved for all accepted statements whose nested queries do not depend on the row; the code accepts statements that violate the full property (bug theorems)."
  },
  {
   "property": "C62",
   "status": "partial",
   "theorems": [
    "Mutable.Sema.C62_category",
    "Mutable.Sema.C62_symmetric",
    "Mutable.Sema.C62_integer_join",
    "Mutable.Sema.C62_decimal_join_partial",
    "Mutable.Sema.C62_float_join",
    "Mutable.Sema.C62_bug_decimal_scale",
    "Mutable.Sema.C62_bug_integer_decimal"
   ],
   "note": "Symmetry, category, float precision, integer and equal-scale decimal joins proved; false for decimals of different scale and integer/decimal (bug theorems)."
  },
  {
   "property": "C63",
   "status": "proved",
   "theorems": [
    "Mutable.WLayout.C63_factory_store_load",
    "Mutable.WLayout.C63_factory_load",
    "Mutable.WLayout.C63_load",
    "Mutable.WLayout.C63_options_irrelevant",
    "Mutable.WLayout.C63_point",
    "Mutable.WLayout.C63_store",
    "Mutable.WLayout.C63_store_frame",
    "Mutable.WLayout.C63_store_load"
   ],
   "note": "Scalar code (one lane). Layouts of any depth without leaves directly below the root; C63_factory_* instantiates the theorems for the row and PAX layouts of all tables of storable types. Pointers and tuple IDs are unbounded numbers."
  },
  {
   "property": "C64",
   "status": "partial",
   "theorems": [
    "Mutable.WLayout.C64_scalar_scan",
    "Mutable.WLayout.C64_simd_scan_partial",
    "Mutable.WLayout.C64_simd_scan_single_partial",
    "Mutable.WLayout.C64_simd_eq_scalar_partial",
    "Mutable.WLayout.C64_pax_simd_scan_partial",
    "Mutable.WLayout.C64_bug_double_pumping_phantom_rows",
    "Mutable.WLayout.C64_bug_double_pumping_blocks",
    "Mutable.WLayout.C64_bug_packed_booleans",
    "Mutable.WLayout.C64_bug_null_mask",
    "Mutable.WLayout.C64_bug_number_stride"
   ],
   "note": "Scalar scans: proved for all layouts. SIMD: proved when L divides the number of rows and of tuples per block (what the planner checks suffices without double pumping), no packed booleans, numbers without gaps, NULL bits among the first 32; C64_bug_* show that each of these is needed. Phantom rows and wrong rows occur with default options."
  },
  {
   "property": "C65",
   "status": "partial",
   "theorems": [
    "Mutable.WLayout.C65_point_store",
    "Mutable.WLayout.C65_swap",
    "Mutable.WLayout.C65_swaps",
    "Mutable.WLayout.C65_swaps_permute",
    "Mutable.WLayout.C65_infinite",
    "Mutable.WLayout.C65_infinite_local",
    "Mutable.WLayout.C65_finite_partial",
    "Mutable.WLayout.C65_finite_unpredicated",
    "Mutable.WLayout.C65_finite_sessions_partial",
    "Mutable.WLayout.C65_factory",
    "Mutable.WLayout.C65_bug_finite_second_session",
    "Mutable.WLayout.C65_bug_finite_predicated"
   ],
   "note": "Infinite buffers (global over any number of executions, and local), point stores and swaps for every layout; finite buffers under the two conditions that the counterexample theorems show to be necessary (no rejected row at the last place; empty at re-entry)."
  },
  {
   "property": "C66",
   "status": "partial",
   "theorems": [
    "Mutable.PartialPlan.C66_enumerates_each_once",
    "Mutable.PartialPlan.C66_small_queries",
    "Mutable.PartialPlan.C66_prefix_notation",
    "Mutable.PartialPlan.C66_json_partial",
    "Mutable.PartialPlan.C66_bug_later_files"
   ],
   "note": "Enumeration, prefix notation and the first file proved in full for all plans; files of later queries in one process are not JSON (static variable), shown by C66_bug_later_files."
  },
  {
   "property": "C67",
   "status": "partial",
   "theorems": [
    "Mutable.NestedQ.C67_select_partial",
    "Mutable.NestedQ.C67_column_order_partial",
    "Mutable.NestedQ.C67_clauses",
    "Mutable.NestedQ.C67_accepted_select",
    "Mutable.NestedQ.C67_bug_where_never_works",
    "Mutable.NestedQ.C67_bug_having_never_works",
    "Mutable.NestedQ.C67_bug_inside_expression_never_works",
    "Mutable.NestedQ.C67_bug_correlation_forgotten",
    "Mutable.NestedQ.C67_bug_both_sides_free",
    "Mutable.NestedQ.C67_bug_column_order",
    "Mutable.NestedQ.C67_bug_correlated_select",
    "Mutable.NestedQ.C67_bug_several_rows"
   ],
   "note": "Proved for nested queries that are whole SELECT items without free variables (in any statement), up to the order of columns. For nested queries in WHERE, in HAVING, inside SELECT expressions or with free variables the code violates the claim: theorems C67_bug_*."
  },
  {
   "property": "C68",
   "status": "partial",
   "theorems": [
    "Mutable.DDL.C68_history_partial",
    "Mutable.DDL.C68_rejected_partial",
    "Mutable.DDL.C68_bug_drop_referenced",
    "Mutable.DDL.C68_bug_drop_twice",
    "Mutable.DDL.C68_bug_rmi",
    "Mutable.DDL.C68_bug_check",
    "Mutable.DDL.C68_bug_primary_key",
    "Mutable.DDL.C68_bug_self_reference"
   ],
   "note": "Proved for every history that drops no referenced table, no name twice in a statement and creates no rmi index on a type without one: no crash, replies and schemas as specified, rejected statements without effect. Outside of it the code dangles, crashes or has effects although it reports an error: see the C68_bug theorems."
  },
  {
   "property": "C69",
   "status": "partial",
   "theorems": [
    "Mutable.CardEst.C69_cartesian_upper_bound_partial",
    "Mutable.CardEst.C69_cartesian_plan_independent",
    "Mutable.CardEst.C69_sources",
    "Mutable.CardEst.C69_bug_overflow",
    "Mutable.CardEst.C69_bug_aggregate",
    "Mutable.CardEst.C69_bug_no_sources",
    "Mutable.CardEst.C69_injected_exact_partial",
    "Mutable.CardEst.C69_injected_join_all_partial",
    "Mutable.CardEst.C69_identifiers",
    "Mutable.CardEst.C69_injected_clamped",
    "Mutable.CardEst.C69_injected_grouping",
    "Mutable.CardEst.C69_bug_join_all_first_twice",
    "Mutable.CardEst.C69_bug_incomplete_file",
    "Mutable.CardEst.C69_bug_dollar",
    "Mutable.CardEst.C69_bug_hash",
    "Mutable.CardEst.C69_bug_duplicate_entry",
    "Mutable.CardEst.C69_spn_join_exact_partial",
    "Mutable.CardEst.C69_spn_join_all_exact_partial",
    "Mutable.CardEst.C69_spn_cross",
    "Mutable.CardEst.C69_spn_grouping_partial",
    "Mutable.CardEst.C69_spn_limit",
    "Mutable.CardEst.C69_spn_join_bounded",
    "Mutable.CardEst.C69_spn_join_symmetric",
    "Mutable.CardEst.C69_spn_filter_partial",
    "Mutable.CardEst.C69_bug_constant_left",
    "Mutable.CardEst.C69_bug_negation",
    "Mutable.CardEst.C69_bug_second_condition",
    "Mutable.CardEst.C69_bug_two_attributes",
    "Mutable.CardEst.C69_bug_unsupported",
    "Mutable.CardEst.C69_bug_division_by_zero",
    "Mutable.CardEst.C69_bug_int_product",
    "Mutable.CardEst.C69_bug_join_all_conditions",
    "Mutable.CardEst.C69_bug_grouping_exceeds"
   ],
   "note": "Upper bound: partial (products beyond 64 bits, aggregation of inputs estimated empty, and queries without sources excluded; C69_bug_overflow, C69_bug_aggregate, C69_bug_no_sources). Independence of the join order: full for Cartesian products; for injected cardinalities partial, for files that list every set of sources consistently, with names without $ (C69_bug_incomplete_file, C69_bug_dollar). SPN: partial, uniform columns and conjunctions of positive comparisons of different attributes with constants on the right; the remaining theorems are deviations."
  },
  {
   "property": "C70",
   "status": "partial",
   "theorems": [
    "Mutable.SumProd.C70_leaf_exact",
    "Mutable.SumProd.C70_condition_exact",
    "Mutable.SumProd.C70_conditions_bounded",
    "Mutable.SumProd.C70_independence",
    "Mutable.SumProd.C70_distinct_values",
    "Mutable.SumProd.C70_leaf_updates_partial",
    "Mutable.SumProd.C70_insertions_partial",
    "Mutable.SumProd.C70_continuous_partial",
    "Mutable.SumProd.C70_continuous_learned",
    "Mutable.SumProd.C70_bug_eval_type",
    "Mutable.SumProd.C70_bug_upper_bound",
    "Mutable.SumProd.C70_bug_delete_lower_bound",
    "Mutable.SumProd.C70_bug_continuous_null",
    "Mutable.SumProd.C70_bug_null_stale",
    "Mutable.SumProd.C70_bug_distinct_stale",
    "Mutable.SumProd.C70_bug_nested_sums",
    "Mutable.SumProd.C70_bug_delete_adds"
   ],
   "note": "Learned networks of discrete leaves: exact for one condition, bounded for several, distinct values bounded. Updates: leaves exact except IS NULL, networks without clusters exact for insertions; continuous leaves within one bin, except deletions of the lower bound. Missing: updates of networks with clusters, upper bounds, NULL after updates: the code violates them (bug theorems)."
  },
  {
   "property": "C71",
   "status": "partial",
   "theorems": [
    "Mutable.Grid.C71_linear_space_partial",
    "Mutable.Grid.C71_sequence_partial",
    "Mutable.Grid.C71_bug_sequence_diverges",
    "Mutable.Grid.C71_distinct_numbers_partial",
    "Mutable.Grid.C71_bug_wide_duplicates",
    "Mutable.Grid.C71_bug_wide_end",
    "Mutable.Grid.C71_bug_count_truncated",
    "Mutable.Grid.C71_bug_count_zero",
    "Mutable.Grid.C71_double_space",
    "Mutable.Grid.C71_bug_double_end",
    "Mutable.Grid.C71_bug_double_end_cost_model",
    "Mutable.Grid.C71_grid_search",
    "Mutable.Grid.C71_grid_args",
    "Mutable.Grid.C71_num_points_partial",
    "Mutable.Grid.C71_bug_num_points"
   ],
   "note": "Integral types of up to 32 bits (or bounds up to 2^49 in magnitude): full claim for at, sequence, distinct numbers. double: inside the bounds, in order, starts at a bound. Grid search: full. Missing: 64-bit bounds, 2^32 steps or counts, reaching the end with doubles, num_points beyond 32 bits - violated by the code (bug theorems)."
  },
  {
   "property": "C72",
   "status": "partial",
   "theorems": [
    "Mutable.StoreManip.C72_set_all_null_partial",
    "Mutable.StoreManip.C72_bug_set_all_null",
    "Mutable.StoreManip.C72_set_all_not_null_partial",
    "Mutable.StoreManip.C72_bug_set_all_not_null",
    "Mutable.StoreManip.C72_bug_same_byte",
    "Mutable.StoreManip.C72_primary_keys_partial",
    "Mutable.StoreManip.C72_bug_primary_key_types",
    "Mutable.StoreManip.C72_fill_uniform",
    "Mutable.StoreManip.C72_fill_balanced",
    "Mutable.StoreManip.C72_bug_fill_assertion",
    "Mutable.StoreManip.C72_bug_fill_nothing",
    "Mutable.StoreManip.C72_distinct_numbers_partial",
    "Mutable.StoreManip.C72_bug_distinct_assertion",
    "Mutable.StoreManip.C72_bug_distinct_too_strict",
    "Mutable.StoreManip.C72_correlated_partial"
   ],
   "note": "Filling, correlated columns (given one spare value in the type), distinct numbers: for all inputs; primary keys of 32/64 bits. NULL bits: for the alignments for which the code is right (all others: bug theorems). Missing: assertions in debug builds, 8/16-bit keys: violated by the code (bug theorems); floating-point columns not modelled."
  },
  {
   "property": "C73",
   "status": "proved",
   "theorems": [
    "Mutable.QSort.C73_partition",
    "Mutable.QSort.C73_verify_partition",
    "Mutable.QSort.C73_median",
    "Mutable.QSort.C73_qsort",
    "Mutable.QSort.C73_bug_nan_diverges",
    "Mutable.QSort.C73_bug_infinity"
   ],
   "note": "the laws of the comparisons (total, transitive, consistent) and the bounds by the limits of the type are hypotheses, shown for 32-bit integers; NaN and infinities break them (bug theorems)"
  },
  {
   "property": "C74",
   "status": "proved",
   "theorems": [
    "Mutable.Unshare.C74_lifetime",
    "Mutable.Unshare.C74_exclusive",
    "Mutable.Unshare.C74_use_count",
    "Mutable.Unshare.C74_effects",
    "Mutable.Unshare.C74_unshare",
    "Mutable.Unshare.C74_unshare_null",
    "Mutable.Unshare.C74_no_leak",
    "Mutable.Unshare.C74_bug_null"
   ],
   "note": "reference counting of std::shared_ptr modelled as implemented; conversions between base classes, weak pointers and threads not modelled; null pointers with a control block are a finding (C74_bug_null)"
  },
  {
   "property": "C75",
   "status": "partial",
   "theorems": [
    "Mutable.G2S.C75_text_partial",
    "Mutable.G2S.C75_condition",
    "Mutable.G2S.C75_filters",
    "Mutable.G2S.C75_column_name",
    "Mutable.G2S.C75_column_alias",
    "Mutable.G2S.C75_new_aliases",
    "Mutable.G2S.C75_alias_injective",
    "Mutable.G2S.C75_bug_no_alias",
    "Mutable.G2S.C75_bug_same_name",
    "Mutable.G2S.C75_bug_operator_name",
    "Mutable.G2S.C75_bug_nested_name",
    "Mutable.G2S.C75_bug_offset_without_limit",
    "Mutable.G2S.C75_bug_function_in_condition",
    "Mutable.G2S.C75_column_names"
   ],
   "note": "Graphs that can be written in SQL (Ok): expressions without nested queries, tables with an alias, names that are identifiers; the excluded cases are defects proved beside (C75_bug_*)."
  },
  {
   "property": "C76",
   "status": "partial",
   "theorems": [
    "Mutable.Args.C76_add",
    "Mutable.Args.C76_parse",
    "Mutable.Args.C76_failure",
    "Mutable.Args.C76_unambiguous",
    "Mutable.Args.C76_nothing_lost",
    "Mutable.Args.C76_list",
    "Mutable.Args.C76_list_round_trip",
    "Mutable.Args.C76_signed",
    "Mutable.Args.C76_unsigned_partial",
    "Mutable.Args.C76_not_a_number",
    "Mutable.Args.C76_number_round_trip",
    "Mutable.Args.C76_help",
    "Mutable.Args.C76_bug_trailing",
    "Mutable.Args.C76_bug_negative",
    "Mutable.Args.C76_bug_unknown_short",
    "Mutable.Args.C76_bug_unknown_argument"
   ],
   "note": "Unsigned options accept negative numbers (C76_bug_negative); everything else is proved in full for the modelled option types."
  },
  {
   "property": "C77",
   "status": "proved",
   "theorems": [
    "Mutable.Html.C77_replace_all",
    "Mutable.Html.C77_unique",
    "Mutable.Html.C77_char",
    "Mutable.Html.C77_html",
    "Mutable.Html.C77_no_tags",
    "Mutable.Html.C77_shown",
    "Mutable.Html.C77_injective",
    "Mutable.Html.C77_bug_empty"
   ],
   "note": "For every text that is not empty; the empty one does not terminate (C77_bug_empty)."
  },
  {
   "property": "C78",
   "status": "partial",
   "theorems": [
    "Mutable.Calendar.C78_date_fields",
    "Mutable.Calendar.C78_date_encoding",
    "Mutable.Calendar.C78_date_order",
    "Mutable.Calendar.C78_print_read_date",
    "Mutable.Calendar.C78_print_date_injective",
    "Mutable.Calendar.C78_date_constant",
    "Mutable.Calendar.C78_sema_date",
    "Mutable.Calendar.C78_accepted_date_constant",
    "Mutable.Calendar.C78_bug_leap_year",
    "Mutable.Calendar.C78_bug_month_overflow",
    "Mutable.Calendar.C78_print_date_token",
    "Mutable.Calendar.C78_bug_year_zero",
    "Mutable.Calendar.C78_print_read_datetime",
    "Mutable.Calendar.C78_print_datetime_token",
    "Mutable.Calendar.C78_datetime_constant",
    "Mutable.Calendar.C78_sema_datetime",
    "Mutable.Calendar.C78_print_decimal",
    "Mutable.Calendar.C78_bug_negative_decimal",
    "Mutable.Calendar.C78_bug_negative_decimal_texts"
   ],
   "note": "proved: encoding, order, constants accepted by the semantic analysis, printing and reading back dates and date times, lexer tokens, non-negative decimals. Negative decimals with a fraction are misprinted by the code (C78_bug_negative_decimal), 29 February and DSV files are not checked (bugs); timegm/gmtime_r are not modelled"
  }
 ]
}