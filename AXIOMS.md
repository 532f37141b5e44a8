# Axioms per theorem

Generated by `tools/axioms.py` with `#print axioms`. P = `propext`, C = `Classical.choice`, Q = `Quot.sound`; "-" means that the theorem depends on no axiom.

| theorem | axioms |
|---|---|
| `Mutable.SB.C01_eq` | C Q P |
| `Mutable.SB.C01_all` | C Q P |
| `Mutable.SB.C01_singleton` | C Q P |
| `Mutable.SB.C01_assign` | C Q P |
| `Mutable.SB.C01_union` | C Q P |
| `Mutable.SB.C01_inter` | C Q P |
| `Mutable.SB.C01_diff` | C Q P |
| `Mutable.SB.C01_compl` | C Q P |
| `Mutable.SB.C01_subset` | C Q P |
| `Mutable.SB.C01_size` | C Q P |
| `Mutable.SB.C01_empty` | C Q P |
| `Mutable.SB.C01_isSingleton` | C Q P |
| `Mutable.SB.C01_hi` | C Q P |
| `Mutable.SB.C01_maskToLo` | C Q P |
| `Mutable.SB.C01_singletonToLoMask` | C Q P |
| `Mutable.SB.C01_succ` | C Q P |
| `Mutable.SB.C01_pred` | C Q P |
| `Mutable.SB.C02_forward` | C Q P |
| `Mutable.SB.C02_reverse` | C Q P |
| `Mutable.SB.C02_terminates` | C Q P |
| `Mutable.SB.C03_subsets` | C Q P |
| `Mutable.SB.C03_nodup` | C Q P |
| `Mutable.SB.C03_subset_first` | C Q P |
| `Mutable.SB.C03_terminates` | C Q P |
| `Mutable.SB.C03_last` | C Q P |
| `Mutable.SB.C04_gosper` | C Q P |
| `Mutable.SB.C04_gosper_from` | C Q P |
| `Mutable.SB.C04_terminates` | C Q P |
| `Mutable.SB.C04_subsetEnumerator` | C Q P |
| `Mutable.SB.C04_zero_diverges` | C Q P |
| `Mutable.SB.C04_portable_ok` | C Q P |
| `Mutable.SB.C04_portable_wrong` | Q P |
| `Mutable.AdjMat.C05_reachable` | C Q P |
| `Mutable.AdjMat.C05_reachable_in` | C Q P |
| `Mutable.AdjMat.C05_terminates` | C Q P |
| `Mutable.AdjMat.C06_is_connected` | C Q P |
| `Mutable.AdjMat.C06_is_connected2` | C Q P |
| `Mutable.AdjMat.C06_is_connected2_symm` | C Q P |
| `Mutable.AdjMat.C06_neighbors` | C Q P |
| `Mutable.AdjMat.C07_directed` | C Q P |
| `Mutable.AdjMat.C07_undirected` | C Q P |
| `Mutable.AdjMat.C07_terminates` | C Q P |
| `Mutable.AdjMat.C08_csg` | C Q P |
| `Mutable.AdjMat.C08_csg_all` | C Q P |
| `Mutable.AdjMat.C08_terminates` | C Q P |
| `Mutable.AdjMat.C09_pairs` | C Q P |
| `Mutable.AdjMat.C10_partition` | C Q P |
| `Mutable.AdjMat.C10_terminates` | C Q P |
| `Mutable.AdjMat.C11_msf` | C Q P |
| `Mutable.AdjMat.C12_tree` | C Q P |
| `Mutable.PE.C13_DPsize` | C Q P |
| `Mutable.PE.C13_DPsizeOpt` | C Q P |
| `Mutable.PE.C13_DPsizeSub` | C Q P |
| `Mutable.PE.C13_DPsub` | C Q P |
| `Mutable.PE.C13_DPsubOpt` | C Q P |
| `Mutable.PE.C13_TDbasic` | C Q P |
| `Mutable.PE.C13_TDMinCutAGaT` | C Q P |
| `Mutable.PE.C14_valid_partial` | C Q P |
| `Mutable.PE.C14_optimal_partial` | C Q P |
| `Mutable.PE.C14_acyclic_partial` | C Q P |
| `Mutable.PE.C14_clique_partial` | C Q P |
| `Mutable.PE.C14_not_optimal` | C Q P |
| `Mutable.PE.C15_PEall` | C Q P |
| `Mutable.PE.C16_GOO` | C Q P |
| `Mutable.PE.C16_TDGOO` | C Q P |
| `Mutable.PE.C16_IKKBZ` | C Q P |
| `Mutable.PE.C16_LinearizedDP` | C Q P |
| `Mutable.PE.C16_LinearizedDP_le_IKKBZ` | C Q P |
| `Mutable.PE.C16_unconnected_fails` | Q P |
| `Mutable.PE.C16_infinite_fails` | Q P |
| `Mutable.CNF.C17_to_CNF_preserves_meaning` | C Q P |
| `Mutable.CNF.C17_literals_are_atoms` | Q P |
| `Mutable.CNF.C17_clause_le_sound` | Q P |
| `Mutable.CNF.C17_clause_eq_sound` | Q P |
| `Mutable.CNF.C17_cnf_le_sound` | Q P |
| `Mutable.CNF.C17_cnf_eq_sound` | Q P |
| `Mutable.CNF.C17_connectives` | P |
| `Mutable.CNF.C17_empty_is_not_TRUE` | P |
| `Mutable.RW.C18_mutual_exclusion` | C Q P |
| `Mutable.RW.C18_counter_overflow` | C Q P |
| `Mutable.RW.C19_upgrade_is_atomic` | C Q P |
| `Mutable.RW.C19_at_most_one_upgrade` | C Q P |
| `Mutable.RW.C19_upgrade_outcome` | C Q P |
| `Mutable.RW.C20_no_lost_wakeup_partial` | C Q P |
| `Mutable.RW.C20_readers` | C Q P |
| `Mutable.RW.C20_deadlock_free_partial` | C Q P |
| `Mutable.RW.C20_lost_wakeup` | C Q P |
| `Mutable.HM.C21_multimap` | C Q P |
| `Mutable.HM.C21_insert_results` | C Q P |
| `Mutable.HM.C21_total` | C Q P |
| `Mutable.HM.C21_begin_of_empty_map` | P |
| `Mutable.HM.C22_probe_sequence_is_a_permutation` | C Q P |
| `Mutable.HM.C22_insertion_terminates` | C Q P |
| `Mutable.HM.C22_distance_32bit` | C Q P |
| `Mutable.XorList.C23_history_is_sequence` | C Q P |
| `Mutable.XorList.C23_operations_succeed` | C Q P |
| `Mutable.XorList.C23_observation_is_unique` | P |
| `Mutable.XorList.C23_no_leak` | C Q P |
| `Mutable.XorList.C23_returned_iterators` | C Q P |
| `Mutable.XorList.C23_pop_empty` | C Q P |
| `Mutable.XorList.C23_iterator_stable` | C Q P |
| `Mutable.XorList.C23_iterator_at_insertion_point_breaks` | Q P |
| `Mutable.ListAlloc.C24_live_allocations_disjoint` | C Q P |
| `Mutable.ListAlloc.C24_allocate` | C Q P |
| `Mutable.ListAlloc.C24_allocate_zero` | - |
| `Mutable.ListAlloc.C24_deallocate` | C Q P |
| `Mutable.ListAlloc.C24_huge_request_wraps` | C Q P |
| `Mutable.ListAlloc.C25_no_leak` | C Q P |
| `Mutable.ListAlloc.C25_only_own_memory` | C Q P |
| `Mutable.ListAlloc.C25_fully_coalesced` | C Q P |
| `Mutable.LinAlloc.C26_live_memory_disjoint` | C Q P |
| `Mutable.LinAlloc.C26_allocate` | C Q P |
| `Mutable.LinAlloc.C26_deallocate` | C Q P |
| `Mutable.LinAlloc.C26_no_double_free` | C Q P |
| `Mutable.Index.C27_entries` | P |
| `Mutable.Index.C27_lower_bound` | C Q P |
| `Mutable.Index.C27_upper_bound` | C Q P |
| `Mutable.Index.C27_range` | C Q P |
| `Mutable.Index.C27_not_finalized` | Q P |
| `Mutable.Index.C28_rmi_equals_array_partial` | C Q P |
| `Mutable.Index.C28_end_prediction_partial` | C Q P |
| `Mutable.Index.C28_regression_least_squares` | C Q P |
| `Mutable.Index.C28_regression_exact` | C Q P |
| `Mutable.Index.C28_prediction_range` | C Q P |
| `Mutable.Index.C28_misses_existing_key` | C Q P |
| `Mutable.Fn.C29_like` | C Q P |
| `Mutable.Fn.C29_deterministic` | C Q P |
| `Mutable.Fn.C30_unescape_escape` | P |
| `Mutable.Fn.C30_interpret_quote_escape` | P |
| `Mutable.Fn.C30_escape_injective` | P |
| `Mutable.Fn.C30_self_delimiting` | P |
| `Mutable.Fn.C30_no_newline` | P |
| `Mutable.Fn.C30_letter_n_breaks` | - |
| `Mutable.Fn.C30_trailing_escape` | P |
| `Mutable.Fn.C31_is_pow_2` | C Q P |
| `Mutable.Fn.C31_ceil_to_pow_2` | C Q P |
| `Mutable.Fn.C31_ceil_to_pow_2_narrow` | Q P |
| `Mutable.Fn.C31_ceil_to_multiple_of_pow_2` | C Q P |
| `Mutable.Fn.C31_round_up_to_multiple` | Q P |
| `Mutable.Fn.C31_round_up_to_multiple_zero` | P |
| `Mutable.Fn.C31_log2_floor` | Q P |
| `Mutable.Fn.C31_log2_ceil` | Q P |
| `Mutable.Fn.C31_log2_floor_narrow` | - |
| `Mutable.Fn.C31_powi` | Q P |
| `Mutable.Fn.C31_setbit` | C Q P |
| `Mutable.Fn.C31_sum_wo_overflow` | Q P |
| `Mutable.Fn.C31_prod_wo_overflow` | Q P |
| `Mutable.Fn.C31_ceil_to_next_page` | C Q P |
| `Mutable.Fn.C31_range_wide_enough_signed` | C Q P |
| `Mutable.Fn.C31_range_wide_enough_unsigned` | C Q P |
| `Mutable.Fn.C31_sequence_number` | C Q P |
| `Mutable.Fn.C31_range_wide_enough_float` | C Q P |
| `Mutable.Fn.C31_murmur3_injective` | Q P |
| `Mutable.Sched.C32_serial` | P |
| `Mutable.Sched.C32_submission_order_partial` | P |
| `Mutable.Sched.C32_order_depends_on_undefined_behaviour` | - |
| `Mutable.Sched.C32_start_times` | Q P |
| `Mutable.Sched.C32_deadlock` | - |
| `Mutable.Sched.C32_autocommit_no_deadlock_partial` | Q P |
| `Mutable.Sched.C32_autocommit_answered_partial` | C Q P |
| `Mutable.Sched.C32_every_command_accounted` | Q P |
| `Mutable.Sched.C32_all_answered_after_close` | Q P |
| `Mutable.Layout.C33_row_separated` | C Q P |
| `Mutable.Layout.C33_pax_separated` | C Q P |
| `Mutable.Layout.C33_pax_tuples_fits` | Q P |
| `Mutable.Layout.C33_pax_bytes_fits` | C Q P |
| `Mutable.Layout.C33_pax_bytes_fits_byte_sized` | C Q P |
| `Mutable.Layout.C33_pax_bytes_overlap` | C Q P |
| `Mutable.Layout.C33_row_aligned` | C Q P |
| `Mutable.Layout.C33_pax_tuples_aligned` | C Q P |
| `Mutable.Layout.C33_pax_bytes_aligned` | C Q P |
| `Mutable.Layout.C33_pax_columns_byte_aligned` | C Q P |
| `Mutable.Layout.C33_row_misaligned_without_reordering` | Q P |
| `Mutable.Layout.C33_decimal_half_byte` | C Q P |
| `Mutable.Layout.C33_bounds` | C Q P |
| `Mutable.Layout.C33_read_write` | C Q P |
| `Mutable.Layout.C33_null_bits` | C Q P |
| `Mutable.Layout.C33_scan_row` | C Q P |
| `Mutable.Layout.C33_scan_pax` | C Q P |
| `Mutable.Layout.C33_scan_pax_nulls` | C Q P |
| `Mutable.Layout.C33_rowstore` | C Q P |
| `Mutable.Layout.C33_columnstore` | Q P |
| `Mutable.Layout.C33_capacity_exceeds_layout` | Q P |
| `Mutable.SM.C34_expression_partial` | C Q P |
| `Mutable.SM.C34_logic_total` | C Q P |
| `Mutable.SM.C34_cnf_partial` | C Q P |
| `Mutable.SM.C34_stack_size` | C Q P |
| `Mutable.SM.C34_concat_null_counterexample` | C Q P |
| `Mutable.SM.C34_null_divisor_counterexample` | C Q P |
| `Mutable.SM.C34_mod_decimal_counterexample` | C Q P |
| `Mutable.SM.C34_factor_overflow_counterexample` | C Q P |
| `Mutable.SM.C34_context_index_counterexample` | C Q P |
| `Mutable.Interp.C35_plans_partial` | C Q P |
| `Mutable.Interp.C35_basic_plans` | C Q P |
| `Mutable.Interp.C35_hash_join` | C Q P |
| `Mutable.Interp.C35_nlj_loop` | Q P |
| `Mutable.Interp.C35_nlj_combinations` | Q P |
| `Mutable.Interp.C35_comparator` | C Q P |
| `Mutable.Interp.C35_hash_join_null_counterexample` | C Q P |
| `Mutable.Interp.C35_sort_null_counterexample` | C Q P |
| `Mutable.Interp.C35_join_null_counterexample` | C Q P |
| `Mutable.Interp.C35_hash_join_lost_rows_counterexample` | C Q P |
| `Mutable.Interp.C35_avg_null_counterexample` | C Q P |
| `Mutable.Interp.C35_sum_null_counterexample` | C Q P |
| `Mutable.Interp.C35_limit_zero_counterexample` | C Q P |
| `Mutable.Interp.C35_limit_added` | C Q P |
| `Mutable.Interp.C35_limit_overflow_counterexample` | C Q P |
| `Mutable.Interp.C35_limit` | C Q P |
| `Mutable.Interp.C35_string_groups_counterexample` | C Q P |
| `Mutable.Interp.C35_groups_without_strings_partial` | C Q P |
| `Mutable.Interp.C35_string_join_counterexample` | C Q P |
| `Mutable.Lex.C36_lossless` | C Q P |
| `Mutable.Lex.C36_sound_partial` | C Q P |
| `Mutable.Lex.C36_round_trip` | C Q P |
| `Mutable.Lex.C36_dates_unchecked` | C Q P |
| `Mutable.Lex.C36_hex_float_without_digits` | C Q P |
| `Mutable.Lex.C36_nul_truncates` | C Q P |
| `Mutable.Lex.C36_backslash_at_end` | C Q P |
| `Mutable.Parse.C37_expression` | C Q P |
| `Mutable.Parse.C37_statement` | C Q P |
| `Mutable.Parse.C37_unambiguous` | C Q P |
| `Mutable.Parse.C37_text` | C Q P |
| `Mutable.Parse.C37_print_expression_partial` | C Q P |
| `Mutable.Parse.C37_print_partial` | C Q P |
| `Mutable.Parse.C37_terminates` | C Q P |
| `Mutable.Parse.C37_sound_partial` | C Q P |
| `Mutable.Parse.C37_instruction` | C Q P |
| `Mutable.Parse.C37_nested_query_lost` | C Q P |
| `Mutable.Parse.C37_quote_lost` | C Q P |
| `Mutable.Parse.C37_null_lost` | C Q P |
| `Mutable.Parse.C37_decimal_rejected` | C Q P |
| `Mutable.Parse.C37_size_truncated` | C Q P |
| `Mutable.Parse.C37_error_token_accepted` | C Q P |
| `Mutable.Parse.C37_binary_not` | C Q P |
| `Mutable.DSV.C38_round_trip_partial` | C Q P |
| `Mutable.DSV.C38_header_partial` | C Q P |
| `Mutable.DSV.C38_placement` | C Q P |
| `Mutable.DSV.C38_skip_header_partial` | C Q P |
| `Mutable.DSV.C38_any_input` | C Q P |
| `Mutable.DSV.C38_short_rows_partial` | C Q P |
| `Mutable.DSV.C38_invalid_cell` | C Q P |
| `Mutable.DSV.C38_missing_newline` | C Q P |
| `Mutable.DSV.C38_unwritten_row` | C Q P |
| `Mutable.DSV.C38_stale_boolean` | C Q P |
| `Mutable.DSV.C38_ignored_column_with_quote` | C Q P |
| `Mutable.DSV.C38_skip_empty_header` | C Q P |
| `Mutable.DSV.C38_decimal_scale` | C Q P |
| `Mutable.DSV.C38_byte_255` | C Q P |
| `Mutable.DSV.C38_sign_only` | C Q P |
| `Mutable.Pool.C39_same_object` | C Q P |
| `Mutable.Pool.C39_handles_equal` | C Q P |
| `Mutable.Pool.C39_no_dangling` | C Q P |
| `Mutable.Pool.C39_result` | C Q P |
| `Mutable.Pool.C39_result_concurrent` | C Q P |
| `Mutable.Pool.C39_value_stable` | C Q P |
| `Mutable.Pool.C39_size` | C Q P |
| `Mutable.Pool.C39_count` | C Q P |
| `Mutable.Pool.C39_no_underflow` | C Q P |
| `Mutable.Pool.C39_copy` | Q P |
| `Mutable.Pool.C39_move` | Q P |
| `Mutable.Pool.C39_assign` | Q P |
| `Mutable.Pool.C39_no_deadlock` | C Q P |
| `Mutable.Pool.C39_count_overflow` | C Q P |
| `Mutable.HS.C40_astar_sound` | C Q P |
| `Mutable.HS.C40_astar_bound` | C Q P |
| `Mutable.HS.C40_astar_optimal` | C Q P |
| `Mutable.HS.C40_astar_complete` | C Q P |
| `Mutable.HS.C40_astar_terminates` | C Q P |
| `Mutable.HS.C40_no_budget` | Q P |
| `Mutable.HS.C40_beam_sound` | C Q P |
| `Mutable.HS.C40_beam_terminates` | C Q P |
| `Mutable.HS.C40_beam_finds` | C Q P |
| `Mutable.HS.C40_good_optimal` | C Q P |
| `Mutable.HS.C40_bottom_up` | C Q P |
| `Mutable.HS.C40_bottom_up_inadmissible` | C Q P |
| `Mutable.HS.C40_top_down` | C Q P |
| `Mutable.HS.C40_bottom_up_beam` | C Q P |
| `Mutable.HS.C40_top_down_beam` | C Q P |
| `Mutable.HS.C40_mark_determined` | C Q P |
| `Mutable.HS.C40_zero_admissible` | C Q P |
| `Mutable.HS.C40_sum_admissible` | C Q P |
| `Mutable.HS.C40_beam_raises_cost` | C Q P |
| `Mutable.Schema.C41_find` | C Q P |
| `Mutable.Schema.C41_has` | C Q P |
| `Mutable.Schema.C41_at` | C Q P |
| `Mutable.Schema.C41_deduplicate` | C Q P |
| `Mutable.Schema.C41_drop_constants` | P |
| `Mutable.Schema.C41_union` | C Q P |
| `Mutable.Schema.C41_union_ambiguous` | C Q P |
| `Mutable.Schema.C41_eq` | C Q P |
| `Mutable.Schema.C41_intersection` | C Q P |
| `Mutable.Schema.C41_identifier` | Q P |
| `Mutable.Schema.C41_constraints` | Q P |
| `Mutable.Schema.C41_concatenation` | C Q P |
| `Mutable.MVCC.C42_filter_partial` | C Q P |
| `Mutable.MVCC.C42_snapshot_partial` | C Q P |
| `Mutable.MVCC.C42_serial_sees_all_writes_partial` | C Q P |
| `Mutable.MVCC.C42_nested_queries_are_not_filtered` | P |
| `Mutable.MVCC.C42_aborted_rows_visible_and_nested_unfiltered` | Q P |
| `Mutable.MVCC.C42_alias_not_found` | C Q P |
| `Mutable.WSort.C43_ends_permutation` | C Q P |
| `Mutable.WSort.C43_order_by_partial` | C Q P |
| `Mutable.WSort.C43_order_by_predicated_partial` | C Q P |
| `Mutable.WSort.C43_compare_branching` | C Q P |
| `Mutable.WSort.C43_compare_agree` | C Q P |
| `Mutable.WSort.C43_null_string_misplaced` | C Q P |
| `Mutable.WSort.C43_predicated_overflow` | Q P |
| `Mutable.WSort.C43_predicated_null_garbage` | P |
| `Mutable.WStr.C44_compare_partial` | C Q P |
| `Mutable.WStr.C44_null` | P |
| `Mutable.WStr.C44_order_bytes` | C Q P |
| `Mutable.WStr.C44_varchar_lengths` | C Q P |
| `Mutable.WStr.C44_varchar_literal` | C Q P |
| `Mutable.WStr.C44_nonascii` | P |
| `Mutable.WStr.C44_cached_direction` | P |
| `Mutable.WStr.C44_concat_partial` | C Q P |
| `Mutable.WStr.C44_concat_char` | C Q P |
| `Mutable.WStr.C45_like_general_partial` | C Q P |
| `Mutable.WStr.C45_contains` | C Q P |
| `Mutable.WStr.C45_prefix_partial` | C Q P |
| `Mutable.WStr.C45_suffix_partial` | C Q P |
| `Mutable.WStr.C45_like_constant_partial` | C Q P |
| `Mutable.WStr.C45_empty_pattern` | C Q P |
| `Mutable.WStr.C45_prefix_127` | Q P |
| `Mutable.WStr.C45_prefix_char` | Q P |
| `Mutable.WStr.C45_suffix_127` | Q P |
| `Mutable.WStr.C45_suffix_nonascii` | Q P |
| `Mutable.WStr.C45_suffix_direction` | Q P |
| `Mutable.WasmHT.C46_multimap` | C Q P |
| `Mutable.WasmHT.C46_group` | C Q P |
| `Mutable.WasmHT.C46_join` | C Q P |
| `Mutable.WasmHT.C46_join_unique` | C Q P |
| `Mutable.WasmHT.C46_grouping` | C Q P |
| `Mutable.WasmHT.C46_probing` | C Q P |
| `Mutable.WasmHT.C46_chained_entries` | C Q P |
| `Mutable.WasmHT.C46_chained_multimap_partial` | C Q P |
| `Mutable.WasmHT.C46_chained_group_partial` | C Q P |
| `Mutable.WasmHT.C46_chained_growth` | Q P |
| `Mutable.WHash.C47_bit_mix` | C Q P |
| `Mutable.WHash.C47_integer_no_collision` | C Q P |
| `Mutable.WHash.C47_equal_key` | C Q P |
| `Mutable.WHash.C47_insert_key` | C Q P |
| `Mutable.WHash.C47_equal_hash_partial` | C Q P |
| `Mutable.WHash.C47_insert_hash_partial` | C Q P |
| `Mutable.WHash.C47_respects_partial` | C Q P |
| `Mutable.WHash.C47_group_partial` | C Q P |
| `Mutable.WHash.C47_negative_zero` | C Q P |
| `Mutable.WHash.C47_nan` | C Q P |
| `Mutable.WHash.C47_dirty_string` | C Q P |
| `Mutable.WHash.C47_nonascii_collide` | Q P |
| `Mutable.WHash.C47_join_ignores_scale` | C Q P |
| `Mutable.WHash.C47_layout` | C Q P |
| `Mutable.WHash.C47_null_bits_partial` | C Q P |
| `Mutable.WHash.C47_null_bit_alias` | C Q P |
| `Mutable.WX.C48_expression_partial` | C Q P |
| `Mutable.WX.C48_not_null` | C Q P |
| `Mutable.WX.C48_supported` | C Q P |
| `Mutable.WX.C48_filter_partial` | C Q P |
| `Mutable.WX.C48_lazy_filter_partial` | C Q P |
| `Mutable.WX.C48_lazy_agrees_partial` | C Q P |
| `Mutable.WX.C48_pipeline_partial` | C Q P |
| `Mutable.WX.C48_predicated` | Q P |
| `Mutable.WX.C48_null_divisor` | C Q P |
| `Mutable.WX.C48_predicated_trap` | Q P |
| `Mutable.WX.C48_narrow_overflow` | Q P |
| `Mutable.WX.C48_no_short_circuit` | Q P |
| `Mutable.WX.C48_float_modulo` | P |
| `Mutable.Ins.C49_insert_partial` | C Q P |
| `Mutable.Ins.C49_rejected` | P |
| `Mutable.Ins.C49_accepted_iff` | C Q P |
| `Mutable.Ins.C49_null_rejected` | C Q P |
| `Mutable.Ins.C49_preserves` | C Q P |
| `Mutable.Ins.C49_null_wrong_column` | Q P |
| `Mutable.Ins.C49_null_keeps_previous` | Q P |
| `Mutable.Ins.C49_default_keeps_previous` | Q P |
| `Mutable.Ins.C49_not_null_garbage` | Q P |
| `Mutable.Ins.C49_out_of_range` | Q P |
| `Mutable.Ins.C49_not_atomic` | Q P |
| `Mutable.IScan.C50_index_scan_partial` | C Q P |
| `Mutable.IScan.C50_indexes_current_partial` | C Q P |
| `Mutable.IScan.C50_invalidated` | C Q P |
| `Mutable.IScan.C50_other_tables` | Q P |
| `Mutable.IScan.C50_condition_shape` | C Q P |
| `Mutable.IScan.C50_fallback` | C Q P |
| `Mutable.IScan.C50_import_stale` | C Q P |
| `Mutable.IScan.C50_failed_insert_stale` | C Q P |
| `Mutable.IScan.C50_second_attribute` | C Q P |
| `Mutable.IScan.C50_decimal_not_scaled` | C Q P |
| `Mutable.IScan.C50_constant_range` | C Q P |
| `Mutable.IScan.C50_constant_type` | C Q P |
| `Mutable.IScan.C50_crossing_range` | C Q P |
| `Mutable.IScan.C50_alias_aborts` | C Q P |
| `Mutable.IScan.C50_rmi_exposed` | C Q P |
| `Mutable.QG.C51_from_where_partial` | C Q P |
| `Mutable.QG.C51_enumerators_partial` | C Q P |
| `Mutable.QG.C51_greedy_partial` | C Q P |
| `Mutable.QG.C51_PEall` | C Q P |
| `Mutable.QG.C51_adjacency` | C Q P |
| `Mutable.QG.C51_unconnected_fails` | C Q P |
| `Mutable.QG.C51_where_without_from_ignored` | C Q P |
| `Mutable.QG.C51_optimize_filter` | C Q P |
| `Mutable.QG.C51_having` | C Q P |
| `Mutable.QG.C51_ternary_clause_fails` | Q P |
| `Mutable.Deliver.C52_print_partial` | C Q P |
| `Mutable.Deliver.C52_callback_partial` | C Q P |
| `Mutable.Deliver.C52_windows` | C Q P |
| `Mutable.Deliver.C52_interpreter_print` | C Q P |
| `Mutable.Deliver.C52_interpreter_callback` | C Q P |
| `Mutable.Deliver.C52_backends_agree_partial` | C Q P |
| `Mutable.Deliver.C52_window_predication` | P |
| `Mutable.Deliver.C52_callback_constant_first` | P |
| `Mutable.Deliver.C52_callback_constant_cleared` | P |
| `Mutable.Deliver.C52_alias_shadows` | P |
| `Mutable.Deliver.C52_same_alias` | P |
| `Mutable.Deliver.C52_full_print_false` | P |
| `Mutable.WasmAgg.C53_hash_grouping_partial` | C Q P |
| `Mutable.WasmAgg.C53_ordered_runs_partial` | C Q P |
| `Mutable.WasmAgg.C53_ordered_grouping_partial` | C Q P |
| `Mutable.WasmAgg.C53_aggregation_partial` | C Q P |
| `Mutable.WasmAgg.C53_groupings_agree_partial` | C Q P |
| `Mutable.WasmAgg.C53_lanes_agree_partial` | C Q P |
| `Mutable.WasmAgg.C53_no_qualifying_row` | C Q P |
| `Mutable.WasmAgg.C53_running_average_nan` | C Q P |
| `Mutable.WasmAgg.C53_decimal_average` | C Q P |
| `Mutable.WasmAgg.C53_ordered_average_nan` | C Q P |
| `Mutable.WasmAgg.C53_min_infinity` | C Q P |
| `Mutable.WasmAgg.C53_max_infinity` | C Q P |
| `Mutable.WasmAgg.C53_full_false` | C Q P |
| `Mutable.Tail.C54_compiled_partial` | C Q P |
| `Mutable.Tail.C54_interpreter_partial` | C Q P |
| `Mutable.Tail.C54_limit_partial` | C Q P |
| `Mutable.Tail.C54_resolve` | C Q P |
| `Mutable.Tail.C54_reject` | Q P |
| `Mutable.Tail.Ex1.C54_limit_zero_defect` | P |
| `Mutable.Tail.Ex1.C54_limit_overflow_defect` | P |
| `Mutable.Tail.Ex1.C54_function_compiled_defect` | Q P |
| `Mutable.Tail.Ex1.C54_function_interpreter_defect` | Q P |
| `Mutable.Tail.Ex1.C54_function_alias_defect` | Q P |
| `Mutable.Tail.Ex1.C54_twice_defect` | Q P |
| `Mutable.Tail.Ex1.C54_select_twice_defect` | Q P |
| `Mutable.WasmJoin.C55_nested_loops` | Q P |
| `Mutable.WasmJoin.C55_sort_merge_partial` | C Q P |
| `Mutable.WasmJoin.C55_sort_merge_single` | C Q P |
| `Mutable.WasmJoin.C55_sort_merge_sound` | C Q P |
| `Mutable.WasmJoin.C55_sort_merge_order` | Q P |
| `Mutable.WasmJoin.C55_sort_merge_quicksort` | C Q P |
| `Mutable.WasmJoin.C55_hash_join_agrees` | C Q P |
| `Mutable.WasmJoin.C55_sort_merge_agrees` | C Q P |
| `Mutable.WasmJoin.C55_composite_keys_lose_pairs` | C Q P |
| `Mutable.WasmJoin.C55_duplicate_keys_lose_pairs` | Q P |
| `Mutable.WasmJoin.C55_group_join_partial` | C Q P |
| `Mutable.WasmJoin.C55_group_join_swaps_keys` | C Q P |
| `Mutable.WasmJoin.C55_group_join_duplicate_keys` | C Q P |
| `Mutable.WasmJoin.C55_group_join_counts_rejected` | C Q P |
| `Mutable.Minimize.C56_no_exception` | C Q P |
| `Mutable.Minimize.C56_twice_partial` | C Q P |
| `Mutable.Minimize.C56_unminimized` | C Q P |
| `Mutable.Minimize.C56_interpreter_partial` | C Q P |
| `Mutable.Minimize.C56_interpreter_agrees_partial` | C Q P |
| `Mutable.Minimize.C56_compiled` | C Q P |
| `Mutable.Minimize.C56_scans` | C Q P |
| `Mutable.Minimize.C56_group_counterexample` | Q P |
| `Mutable.Minimize.C56_join_counterexample` | Q P |
| `Mutable.Minimize.C56_duplicate_counterexample` | P |
| `Mutable.Minimize.C56_twice_counterexample` | Q P |
| `Mutable.Constraints.C57_constraints_partial` | C Q P |
| `Mutable.Constraints.C57_closed` | C Q P |
| `Mutable.Constraints.C57_minimize_result` | C Q P |
| `Mutable.Constraints.C57_execution_partial` | C Q P |
| `Mutable.Constraints.C57_rely` | C Q P |
| `Mutable.Constraints.C57_can_be_null_partial` | Q P |
| `Mutable.Constraints.C57_group_resolves` | Q P |
| `Mutable.Constraints.C57_agg_resolves` | Q P |
| `Mutable.Constraints.C57_sum_counterexample` | P |
| `Mutable.Constraints.C57_alias_counterexample` | C Q P |
| `Mutable.Constraints.C57_derived_counterexample` | Q P |
| `Mutable.Constraints.C57_single_key` | Q P |
| `Mutable.PhysOpt.C58_post_order_ids` | C Q P |
| `Mutable.PhysOpt.C58_entries_are_coverings` | C Q P |
| `Mutable.PhysOpt.C58_entries_are_optimal` | C Q P |
| `Mutable.PhysOpt.C58_has_plan_iff` | C Q P |
| `Mutable.PhysOpt.C58_extracted_plan_is_cheapest` | C Q P |
| `Mutable.PhysOpt.C58_plan_is_extracted` | C Q P |
| `Mutable.PhysOpt.C58_covers_exactly_once` | C Q P |
| `Mutable.PhysOpt.C58_extracted_plan_covers_exactly_once` | C Q P |
| `Mutable.PhysOpt.C58_interpreter_always_has_plan` | C Q P |
| `Mutable.PhysOpt.C58_hash_join_ordering_option_has_no_effect` | C Q P |
| `Mutable.PhysOpt.C58_nan_cost_hides_plans_counterexample` | C Q P |
| `Mutable.PhysOpt.C58_stale_nodes_counterexample` | P |
| `Mutable.SortCond.C59_claims_hold_partial` | Q P |
| `Mutable.SortCond.C59_implied_by_sound_partial` | Q P |
| `Mutable.SortCond.C59_noop_sorting_partial` | Q P |
| `Mutable.SortCond.C59_ordered_grouping_partial` | C Q P |
| `Mutable.SortCond.C59_merge_join_inputs_sorted_partial` | Q P |
| `Mutable.SortCond.C59_grouping_needs_a_prefix` | C Q P |
| `Mutable.SortCond.C59_simple_plans` | Q P |
| `Mutable.SortCond.C59_bug_projection_drops_leading_key` | Q P |
| `Mutable.SortCond.C59_bug_grouping_by_non_prefix` | Q P |
| `Mutable.SortCond.C59_bug_grouping_reorders_keys` | Q P |
| `Mutable.SortCond.C59_bug_implied_by_positions` | P |
| `Mutable.SortCond.C59_full_property_false` | Q P |
| `Mutable.SortCond.C59_merge_join_overly_strict` | P |
| `Mutable.Sema.C60_unqualified_name` | C Q P |
| `Mutable.Sema.C60_qualified_name` | C Q P |
| `Mutable.Sema.C60_order_independent_partial` | C Q P |
| `Mutable.Sema.C60_statement_order_partial` | C Q P |
| `Mutable.Sema.C60_scope_extension` | Q P |
| `Mutable.Sema.C60_columns_exist` | Q P |
| `Mutable.Sema.C60_from_is_uncorrelated` | Q P |
| `Mutable.Sema.C60_from_accepted` | Q P |
| `Mutable.Sema.C60_accepted_types` | Q P |
| `Mutable.Sema.C60_order_by_result` | P |
| `Mutable.Sema.C60_no_crash_partial` | Q P |
| `Mutable.Sema.C60_bug_star_order` | P |
| `Mutable.Sema.C60_bug_call_crashes` | P |
| `Mutable.Sema.C60_bug_null_column_crashes` | P |
| `Mutable.Sema.C60_bug_order_by_null_crashes` | P |
| `Mutable.Sema.C60_bug_call_in_insert_crashes` | P |
| `Mutable.Sema.C61_where_is_row_local` | Q P |
| `Mutable.Sema.C61_key_is_function_of_row` | Q P |
| `Mutable.Sema.C61_grouped_statement_partial` | Q P |
| `Mutable.Sema.C61_aggregate_statement_partial` | Q P |
| `Mutable.Sema.C61_nested_value_partial` | Q P |
| `Mutable.Sema.C61_bug_mixed_expression` | P |
| `Mutable.Sema.C61_bug_order_by_column_of_aggregate` | P |
| `Mutable.Sema.C61_bug_correlated_having` | P |
| `Mutable.Sema.C61_qualified_key_rejected` | P |
| `Mutable.Sema.C61_bug_nested_many_rows` | P |
| `Mutable.Sema.C61_bug_nested_aggregate` | P |
| `Mutable.Sema.C62_category` | P |
| `Mutable.Sema.C62_symmetric` | P |
| `Mutable.Sema.C62_integer_join` | C Q P |
| `Mutable.Sema.C62_decimal_join_partial` | Q P |
| `Mutable.Sema.C62_float_join` | Q P |
| `Mutable.Sema.C62_bug_decimal_scale` | P |
| `Mutable.Sema.C62_bug_integer_decimal` | P |
| `Mutable.WLayout.C63_factory_store_load` | C Q P |
| `Mutable.WLayout.C63_factory_load` | C Q P |
| `Mutable.WLayout.C63_load` | C Q P |
| `Mutable.WLayout.C63_options_irrelevant` | C Q P |
| `Mutable.WLayout.C63_point` | C Q P |
| `Mutable.WLayout.C63_store` | C Q P |
| `Mutable.WLayout.C63_store_frame` | C Q P |
| `Mutable.WLayout.C63_store_load` | C Q P |
| `Mutable.WLayout.C64_scalar_scan` | C Q P |
| `Mutable.WLayout.C64_simd_scan_partial` | C Q P |
| `Mutable.WLayout.C64_simd_scan_single_partial` | C Q P |
| `Mutable.WLayout.C64_simd_eq_scalar_partial` | C Q P |
| `Mutable.WLayout.C64_pax_simd_scan_partial` | C Q P |
| `Mutable.WLayout.C64_bug_double_pumping_phantom_rows` | Q P |
| `Mutable.WLayout.C64_bug_double_pumping_blocks` | Q P |
| `Mutable.WLayout.C64_bug_packed_booleans` | Q P |
| `Mutable.WLayout.C64_bug_null_mask` | Q P |
| `Mutable.WLayout.C64_bug_number_stride` | Q P |
| `Mutable.WLayout.C65_point_store` | C Q P |
| `Mutable.WLayout.C65_swap` | C Q P |
| `Mutable.WLayout.C65_swaps` | C Q P |
| `Mutable.WLayout.C65_swaps_permute` | C Q P |
| `Mutable.WLayout.C65_infinite` | C Q P |
| `Mutable.WLayout.C65_infinite_local` | C Q P |
| `Mutable.WLayout.C65_finite_partial` | C Q P |
| `Mutable.WLayout.C65_finite_unpredicated` | C Q P |
| `Mutable.WLayout.C65_finite_sessions_partial` | C Q P |
| `Mutable.WLayout.C65_factory` | C Q P |
| `Mutable.WLayout.C65_bug_finite_second_session` | C Q P |
| `Mutable.WLayout.C65_bug_finite_predicated` | C Q P |
| `Mutable.PartialPlan.C66_enumerates_each_once` | C Q P |
| `Mutable.PartialPlan.C66_small_queries` | P |
| `Mutable.PartialPlan.C66_prefix_notation` | C Q P |
| `Mutable.PartialPlan.C66_json_partial` | C Q P |
| `Mutable.PartialPlan.C66_bug_later_files` | C Q P |
| `Mutable.NestedQ.C67_select_partial` | Q P |
| `Mutable.NestedQ.C67_column_order_partial` | C Q P |
| `Mutable.NestedQ.C67_clauses` | Q P |
| `Mutable.NestedQ.C67_accepted_select` | Q P |
| `Mutable.NestedQ.C67_bug_where_never_works` | Q P |
| `Mutable.NestedQ.C67_bug_having_never_works` | Q P |
| `Mutable.NestedQ.C67_bug_inside_expression_never_works` | Q P |
| `Mutable.NestedQ.C67_bug_correlation_forgotten` | C Q P |
| `Mutable.NestedQ.C67_bug_both_sides_free` | Q P |
| `Mutable.NestedQ.C67_bug_column_order` | P |
| `Mutable.NestedQ.C67_bug_correlated_select` | P |
| `Mutable.NestedQ.C67_bug_several_rows` | P |
| `Mutable.DDL.C68_history_partial` | C Q P |
| `Mutable.DDL.C68_rejected_partial` | C Q P |
| `Mutable.DDL.C68_bug_drop_referenced` | P |
| `Mutable.DDL.C68_bug_drop_twice` | P |
| `Mutable.DDL.C68_bug_rmi` | Q P |
| `Mutable.DDL.C68_bug_check` | Q P |
| `Mutable.DDL.C68_bug_primary_key` | P |
| `Mutable.DDL.C68_bug_self_reference` | C Q P |
| `Mutable.CardEst.C69_cartesian_upper_bound_partial` | Q P |
| `Mutable.CardEst.C69_cartesian_plan_independent` | C Q P |
| `Mutable.CardEst.C69_sources` | Q P |
| `Mutable.CardEst.C69_bug_overflow` | P |
| `Mutable.CardEst.C69_bug_aggregate` | P |
| `Mutable.CardEst.C69_bug_no_sources` | P |
| `Mutable.CardEst.C69_injected_exact_partial` | C Q P |
| `Mutable.CardEst.C69_injected_join_all_partial` | C Q P |
| `Mutable.CardEst.C69_identifiers` | Q P |
| `Mutable.CardEst.C69_injected_clamped` | P |
| `Mutable.CardEst.C69_injected_grouping` | P |
| `Mutable.CardEst.C69_bug_join_all_first_twice` | P |
| `Mutable.CardEst.C69_bug_incomplete_file` | Q P |
| `Mutable.CardEst.C69_bug_dollar` | P |
| `Mutable.CardEst.C69_bug_hash` | - |
| `Mutable.CardEst.C69_bug_duplicate_entry` | Q P |
| `Mutable.CardEst.C69_spn_join_exact_partial` | C Q P |
| `Mutable.CardEst.C69_spn_join_all_exact_partial` | C Q P |
| `Mutable.CardEst.C69_spn_cross` | Q P |
| `Mutable.CardEst.C69_spn_grouping_partial` | C Q P |
| `Mutable.CardEst.C69_spn_limit` | C Q P |
| `Mutable.CardEst.C69_spn_join_bounded` | Q P |
| `Mutable.CardEst.C69_spn_join_symmetric` | Q P |
| `Mutable.CardEst.C69_spn_filter_partial` | Q P |
| `Mutable.CardEst.C69_bug_constant_left` | Q P |
| `Mutable.CardEst.C69_bug_negation` | Q P |
| `Mutable.CardEst.C69_bug_second_condition` | Q P |
| `Mutable.CardEst.C69_bug_two_attributes` | Q P |
| `Mutable.CardEst.C69_bug_unsupported` | Q P |
| `Mutable.CardEst.C69_bug_division_by_zero` | Q P |
| `Mutable.CardEst.C69_bug_int_product` | Q P |
| `Mutable.CardEst.C69_bug_join_all_conditions` | C Q P |
| `Mutable.CardEst.C69_bug_grouping_exceeds` | - |
| `Mutable.SumProd.C70_leaf_exact` | C Q P |
| `Mutable.SumProd.C70_condition_exact` | C Q P |
| `Mutable.SumProd.C70_conditions_bounded` | C Q P |
| `Mutable.SumProd.C70_independence` | C Q P |
| `Mutable.SumProd.C70_distinct_values` | C Q P |
| `Mutable.SumProd.C70_leaf_updates_partial` | C Q P |
| `Mutable.SumProd.C70_insertions_partial` | C Q P |
| `Mutable.SumProd.C70_continuous_partial` | C Q P |
| `Mutable.SumProd.C70_continuous_learned` | C Q P |
| `Mutable.SumProd.C70_bug_eval_type` | C Q P |
| `Mutable.SumProd.C70_bug_upper_bound` | C Q P |
| `Mutable.SumProd.C70_bug_delete_lower_bound` | C Q P |
| `Mutable.SumProd.C70_bug_continuous_null` | C Q P |
| `Mutable.SumProd.C70_bug_null_stale` | C Q P |
| `Mutable.SumProd.C70_bug_distinct_stale` | C Q P |
| `Mutable.SumProd.C70_bug_nested_sums` | C Q P |
| `Mutable.SumProd.C70_bug_delete_adds` | C Q P |
| `Mutable.Grid.C71_linear_space_partial` | C Q P |
| `Mutable.Grid.C71_sequence_partial` | C Q P |
| `Mutable.Grid.C71_bug_sequence_diverges` | C Q P |
| `Mutable.Grid.C71_distinct_numbers_partial` | C Q P |
| `Mutable.Grid.C71_bug_wide_duplicates` | C Q P |
| `Mutable.Grid.C71_bug_wide_end` | C Q P |
| `Mutable.Grid.C71_bug_count_truncated` | C Q P |
| `Mutable.Grid.C71_bug_count_zero` | C Q P |
| `Mutable.Grid.C71_double_space` | C Q P |
| `Mutable.Grid.C71_bug_double_end` | C Q P |
| `Mutable.Grid.C71_bug_double_end_cost_model` | C Q P |
| `Mutable.Grid.C71_grid_search` | C Q P |
| `Mutable.Grid.C71_grid_args` | C Q P |
| `Mutable.Grid.C71_num_points_partial` | C Q P |
| `Mutable.Grid.C71_bug_num_points` | P |
| `Mutable.StoreManip.C72_set_all_null_partial` | C Q P |
| `Mutable.StoreManip.C72_bug_set_all_null` | C Q P |
| `Mutable.StoreManip.C72_set_all_not_null_partial` | C Q P |
| `Mutable.StoreManip.C72_bug_set_all_not_null` | C Q P |
| `Mutable.StoreManip.C72_bug_same_byte` | Q P |
| `Mutable.StoreManip.C72_primary_keys_partial` | C Q P |
| `Mutable.StoreManip.C72_bug_primary_key_types` | P |
| `Mutable.StoreManip.C72_fill_uniform` | C Q P |
| `Mutable.StoreManip.C72_fill_balanced` | C Q P |
| `Mutable.StoreManip.C72_bug_fill_assertion` | C Q P |
| `Mutable.StoreManip.C72_bug_fill_nothing` | Q P |
| `Mutable.StoreManip.C72_distinct_numbers_partial` | C Q P |
| `Mutable.StoreManip.C72_bug_distinct_assertion` | C Q P |
| `Mutable.StoreManip.C72_bug_distinct_too_strict` | Q P |
| `Mutable.StoreManip.C72_correlated_partial` | C Q P |
| `Mutable.QSort.C73_partition` | C Q P |
| `Mutable.QSort.C73_verify_partition` | Q P |
| `Mutable.QSort.C73_median` | Q P |
| `Mutable.QSort.C73_qsort` | C Q P |
| `Mutable.QSort.C73_bug_nan_diverges` | C Q P |
| `Mutable.QSort.C73_bug_infinity` | - |
| `Mutable.Unshare.C74_lifetime` | C Q P |
| `Mutable.Unshare.C74_exclusive` | C Q P |
| `Mutable.Unshare.C74_use_count` | C Q P |
| `Mutable.Unshare.C74_effects` | C Q P |
| `Mutable.Unshare.C74_unshare` | C Q P |
| `Mutable.Unshare.C74_unshare_null` | C Q P |
| `Mutable.Unshare.C74_no_leak` | C Q P |
| `Mutable.Unshare.C74_bug_null` | P |
| `Mutable.G2S.C75_text_partial` | C Q P |
| `Mutable.G2S.C75_condition` | C Q P |
| `Mutable.G2S.C75_filters` | C Q P |
| `Mutable.G2S.C75_column_name` | C Q P |
| `Mutable.G2S.C75_column_alias` | C Q P |
| `Mutable.G2S.C75_new_aliases` | C Q P |
| `Mutable.G2S.C75_alias_injective` | C Q P |
| `Mutable.G2S.C75_bug_no_alias` | C Q P |
| `Mutable.G2S.C75_bug_same_name` | C Q P |
| `Mutable.G2S.C75_bug_operator_name` | C Q P |
| `Mutable.G2S.C75_bug_nested_name` | C Q P |
| `Mutable.G2S.C75_bug_offset_without_limit` | C Q P |
| `Mutable.G2S.C75_bug_function_in_condition` | C Q P |
| `Mutable.G2S.C75_column_names` | Q P |
| `Mutable.Args.C76_add` | Q P |
| `Mutable.Args.C76_parse` | C Q P |
| `Mutable.Args.C76_failure` | C Q P |
| `Mutable.Args.C76_unambiguous` | C Q P |
| `Mutable.Args.C76_nothing_lost` | C Q P |
| `Mutable.Args.C76_list` | Q P |
| `Mutable.Args.C76_list_round_trip` | P |
| `Mutable.Args.C76_signed` | C Q P |
| `Mutable.Args.C76_unsigned_partial` | C Q P |
| `Mutable.Args.C76_not_a_number` | Q P |
| `Mutable.Args.C76_number_round_trip` | C Q P |
| `Mutable.Args.C76_help` | C Q P |
| `Mutable.Args.C76_bug_trailing` | C Q P |
| `Mutable.Args.C76_bug_negative` | C Q P |
| `Mutable.Args.C76_bug_unknown_short` | C Q P |
| `Mutable.Args.C76_bug_unknown_argument` | C Q P |
| `Mutable.Html.C77_replace_all` | C Q P |
| `Mutable.Html.C77_unique` | P |
| `Mutable.Html.C77_char` | C Q P |
| `Mutable.Html.C77_html` | C Q P |
| `Mutable.Html.C77_no_tags` | C Q P |
| `Mutable.Html.C77_shown` | C Q P |
| `Mutable.Html.C77_injective` | C Q P |
| `Mutable.Html.C77_bug_empty` | Q P |
| `Mutable.Calendar.C78_date_fields` | C Q P |
| `Mutable.Calendar.C78_date_encoding` | C Q P |
| `Mutable.Calendar.C78_date_order` | C Q P |
| `Mutable.Calendar.C78_print_read_date` | C Q P |
| `Mutable.Calendar.C78_print_date_injective` | C Q P |
| `Mutable.Calendar.C78_date_constant` | C Q P |
| `Mutable.Calendar.C78_sema_date` | C Q P |
| `Mutable.Calendar.C78_accepted_date_constant` | C Q P |
| `Mutable.Calendar.C78_bug_leap_year` | C Q P |
| `Mutable.Calendar.C78_bug_month_overflow` | C Q P |
| `Mutable.Calendar.C78_print_date_token` | C Q P |
| `Mutable.Calendar.C78_bug_year_zero` | C Q P |
| `Mutable.Calendar.C78_print_read_datetime` | C Q P |
| `Mutable.Calendar.C78_print_datetime_token` | C Q P |
| `Mutable.Calendar.C78_datetime_constant` | C Q P |
| `Mutable.Calendar.C78_sema_datetime` | C Q P |
| `Mutable.Calendar.C78_print_decimal` | C Q P |
| `Mutable.Calendar.C78_bug_negative_decimal` | Q P |
| `Mutable.Calendar.C78_bug_negative_decimal_texts` | C Q P |
