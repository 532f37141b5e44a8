{
 "C01": {
  "note": "all operations of SmallBitset as set operations over 0..63"
 },
 "C02": {
  "note": ""
 },
 "C03": {
  "note": ""
 },
 "C04": {
  "note": "for k>=1 (k=0 diverges: C04_zero_diverges); non-BMI2 branch only below 32 bits (C04_portable_wrong is a found defect)"
 },
 "C13": {
  "note": "bottom-up enumerators for < 64 relations and all graphs; top-down ones for connected graphs"
 },
 "C14": {
  "note": "The property as stated is false: C14_not_optimal is a kernel-checked counterexample (6 relations, C_out; found defect: BFS order of for_each_CSG_undirected). Proved instead: valid plans always (C14_valid_partial), optimality on distance-hereditary graphs incl. acyclic graphs and cliques.",
  "status": "partial"
 },
 "C16": {
  "note": "GOO, TDGOO, IKKBZ, LinearizedDP; cardinality estimates and costs abstract (a linear order), priority queues as arbitrary choice functions; estimates assumed to depend only on the joined set, costs monotone; for IKKBZ/LinearizedDP costs below infinity. Defects proved: unconnected graphs and infinite costs fail assertions.",
  "status": "proved"
 },
 "C17": {
  "note": "all well-typed Boolean expressions and all three-valued valuations"
 },
 "C18": {
  "note": "for fewer than 65536 threads (the counters are uint16_t); C18_counter_overflow shows exclusion fails with 65537 threads"
 },
 "C20": {
  "note": "The property as stated is false: C20_lost_wakeup is a kernel-checked reachable deadlock (found defect: upgrade() and lock_write() share a condition variable and notify_one). Proved for programs that do not mix upgrade() with blocking lock_write().",
  "status": "partial"
 },
 "C21": {
  "note": "load-factor arithmetic abstract for correctness, default 0.85f for totality; found defect: begin() on an empty slot 0 (C21_begin_of_empty_map)"
 },
 "C22": {
  "note": ""
 },
 "C24": {
  "note": "Sizes up to 2^64-9; C24_huge_request_wraps shows that larger requests wrap around and are 'satisfied' by one page. The free list is a sequence by C23; its link words are left arbitrary."
 },
 "C25": {
  "note": "Memory mapped by others may change arbitrarily in between."
 },
 "C26": {
  "note": ""
 },
 "C27": {
  "note": "std::sort by contract (any sorted permutation), std::lower_bound/upper_bound as libstdc++'s binary search"
 },
 "C28": {
  "note": "The property as stated is false: C28_misses_existing_key is a kernel-checked counterexample (found defect: predict() clamps to num_entries inclusive and reads past the end). Proved for every prediction that is the position of an entry, and for end predictions when the junk behind the array compares not less.",
  "status": "partial"
 },
 "C29": {
  "note": "all strings, patterns, escape characters and contents of the uninitialised table"
 },
 "C30": {
  "note": "C30_letter_n_breaks, C30_trailing_escape document the limits"
 },
 "C31": {
  "note": "32- and 64-bit types; for 8/16-bit types ceil_to_pow_2 and log2_floor are wrong (C31_ceil_to_pow_2_narrow, C31_log2_floor_narrow: found defect)"
 },
 "C32": {
  "note": "Serial execution and start-time order proved for every history (whatever the undefined comparison in push() yields). Submission order only if that comparison (dereference of rend(), found defect) yields false. Liveness is false in general (C32_deadlock, found defect) and proved for autocommit clients.",
  "status": "partial"
 },
 "C33": {
  "note": "Separation, bounds, alignment, read/write, scan proved for row layout (all schemas), PAX (whenever the factory's own check passes; proved to pass for NTuples, and for NBytes when one padded row fits or all sizes are whole bytes), RowStore/ColumnStore. False in general: C33_pax_bytes_overlap, C33_row_misaligned_without_reordering, C33_decimal_half_byte, C33_capacity_exceeds_layout are proved counterexamples",
  "status": "partial"
 },
 "C34": {
  "note": "Proved for every expression of the integer/decimal/boolean/string/date fragment and every tuple: the compiled program pushes exactly the SQL value or stops at a 64-bit overflow / a zero or NULL divisor (C34_expression_partial), expressions without arithmetic never trap (C34_logic_total), CNF conditions compute the three-valued formula (C34_cnf_partial), the stack allocation suffices (C34_stack_size). Missing: floating point. Restrictions needed because of proved defects: NULL concatenation, NULL divisor, modulo of decimals, 64-bit scaling factors, 8-bit context indices.",
  "status": "partial"
 },
 "C35": {
  "note": "Operator trees over abstract tuples with compiled expressions as functions; exact arithmetic. Proved for plans satisfying Ok; counterexamples for NULLs in copied tuples (Tuple::clone clears the NULL bit: sorts, buffered join inputs, build keys), string keys in grouping and hash joins (compared by address), rows lost below filters, AVG/SUM with NULLs, LIMIT 0, LIMIT+OFFSET overflow.",
  "status": "partial"
 },
 "C36": {
  "note": "Lossless tiling with positions, termination, and round trip of every text composed of valid tokens are proved for all inputs without NUL that do not end in a backslash. The converse 'every non-error token is valid' holds except for dates (C36_dates_unchecked: invalid &= accept(..) forgets errors) and hex floats without digits (C36_hex_float_without_digits), both found defects.",
  "status": "partial"
 },
 "C37": {
  "note": "Completeness, unambiguity, termination and progress are proved for all token sequences. Print/parse round trip is proved for the trees described in Parser/Printable.lean, soundness for the lax grammar; the excluded cases are real defects, proved as C37_nested_query_lost, C37_quote_lost, C37_null_lost, C37_decimal_rejected, C37_binary_not, C37_error_token_accepted, C37_size_truncated.",
  "status": "partial"
 },
 "C38": {
  "note": "Round trip proved for all tables, sensible dialects, header modes (C38_round_trip_partial, C38_header_partial, C38_placement, C38_skip_header_partial), for any input: C38_any_input. The full claim is false: eight defects are proved (missing final newline, unwritten rows, stale Booleans, ignored quoted columns, empty skipped header, decimals of scale >= 10, byte 255, sign without digits). Floats and dates are kept as text.",
  "status": "partial"
 },
 "C39": {
  "note": "sequential and thread-safe pools over the model of reader_writer_mutex (fewer than 65536 threads); std::unordered_map and atomic counters are trusted; counters are 32 bits wide (C39_count_overflow)",
  "status": "proved"
 },
 "C40": {
  "note": "Costs in an ordered field (no rounding). Heap order of equally good states is arbitrary. Beam search: C40_beam_raises_cost proves that the missing braces at HeuristicSearch.hpp:364-366 let a state's cost grow. Other state representations (SubproblemTableBottomUp, EdgesBottomUp, EdgePtrBottomUp) and heuristics other than zero and sum are not modelled; for them the general theorems apply given their hypotheses."
 },
 "C41": {
  "note": "find/has/at, deduplicate, drop_constants, union, intersection, equality for all schemas; the ambiguity report is characterised exactly for find/has; union with duplicates on the left fails (C41_union_ambiguous).",
  "status": "proved"
 },
 "C42": {
  "note": "Proved for base tables in the FROM clause of the query, for every history of the scheduler (C42_filter_partial, C42_snapshot_partial, C42_serial_sees_all_writes_partial). The full claim is false: nested queries are not filtered and rows of aborted transactions stay visible (C42_aborted_rows_visible_and_nested_unfiltered), and aliased tables make the filter's attribute unresolvable (C42_alias_not_found).",
  "status": "partial"
 },
 "C43": {
  "note": "proved: the emitted sort always ends and permutes (any comparison); sorted for branching comparison without NULLs in nullable string columns; sorted for predicated comparison within 31 bits and with equal value parts of NULLs. The full claim is false of the code; the three restrictions are shown necessary by counterexample theorems.",
  "status": "partial"
 },
 "C44": {
  "note": "proved: comparison for all strings unless both are VARCHAR of different length (order operators for ASCII), exact result for VARCHARs of different length and for arbitrary bytes, NULL, concatenation with a VARCHAR on the right. The full claim is false of the code: counterexamples C44_varchar_literal, C44_nonascii, C44_cached_direction, C44_concat_char.",
  "status": "partial"
 },
 "C45": {
  "note": "proved: all four algorithms decide LIKE (general DP for every non-empty pattern; search for every text; prefix and suffix bounds and the dispatch for ASCII). The full claim is false of the code: C45_empty_pattern, C45_prefix_127, C45_prefix_char, C45_suffix_127, C45_suffix_nonascii, C45_suffix_direction.",
  "status": "partial"
 },
 "C46": {
  "note": "Proved without bound for the open-addressing tables (linear and quadratic probing), join and grouping, for every hash function compatible with key equality and up to 2^29 entries (32-bit memory). For the chained table only without growth: its rehash reads the key from the bucket array instead of the entry (WasmAlgo.cpp:1235), so after growing keys are lost (C46_chained_growth). Predication, allocation and byte layout not modelled here.",
  "status": "partial"
 },
 "C47": {
  "note": "Full claim is false of the code: 0.0 and -0.0, NaN, short strings in memory that is not zeroed, more than 256 columns, INT joined with DECIMAL (proved as counterexamples). Proved: comparison and storing of keys correct for all contents of memory; equal hash for canonical keys; grouping end to end with the hash function of the code; layout and NULL bits.",
  "status": "partial"
 },
 "C48": {
  "note": "The claim as stated is false of the code. Proved: every typed, supported expression gets code of the right type that shows its SQL value, and traps only if it contains an integer division with a NULL operand (C48_expression_partial); can_be_null is sound; filters, lazy disjunctive filters, projections above them (branching and predicated). Defects proved: a / NULL traps; predicated filters evaluate projections of rows that do not qualify; INT(1)/INT(2) results not reduced; AND/OR evaluate both sides; float % accepted by Sema but no code. Not modelled: strings (C44/C45), DECIMAL, INT(x), SIMD lanes.",
  "status": "partial"
 },
 "C49": {
  "note": "Full statement is false of the code (counterexamples C49_null_wrong_column, C49_null_keeps_previous, C49_default_keeps_previous, C49_not_null_garbage, C49_out_of_range, C49_not_atomic). Proved for row and PAX layouts and all column types but floating point: accepted statements whose values fit, without NULL when there are hidden columns, with DEFAULT only after DEFAULT/NULL, NOT NULL columns given a value (C49_insert_partial); preservation of all previous rows and of the capacity for every statement (C49_preserves); rejected statements change nothing.",
  "status": "partial"
 },
 "C50": {
  "note": "Proved for conditions on one attribute compared to constants of its type and range, after histories without IMPORT into an indexed table and without INSERTs that fail half-way, for satisfiable conditions (or release build without interpretation), RMI predictions inside the array and fewer than 2^32 rows; each excluded case is a proved counterexample (C50_import_stale, C50_failed_insert_stale, C50_second_attribute, C50_decimal_not_scaled, C50_constant_range, C50_constant_type, C50_crossing_range, C50_alias_aborts, C50_rmi_exposed).",
  "status": "partial"
 },
 "C51": {
  "note": "False for statements without FROM, Cartesian products and clauses over three sources (proved); correlated nested queries not modelled.",
  "status": "partial"
 },
 "C52": {
  "note": "Compiled back end: proved for SELECT lists whose names do not clash, without predication into finite windows and, for callbacks, without a single constant among other columns; false of the code otherwise (counterexamples proved). Interpreter: no condition on names.",
  "status": "partial"
 },
 "C53": {
  "note": "proved for finite arguments, sums that fit into 64 bits and AVG of numbers without scale; the full claim is false of the code: no qualifying row with predication, running averages after a rejected first row, infinities, DECIMAL averages",
  "status": "partial"
 },
 "C54": {
  "note": "Proved for ORDER BY without scalar functions, non-zero LIMIT with offset+limit < 2^64 and names that do not clash; the full claim is false of the code, counterexamples proved (C54_*_defect).",
  "status": "partial"
 },
 "C55": {
  "note": "proved: nested-loops join for all inputs; sort-merge join exact for one key column with unique left keys (also with C43's quicksort), sound and ordered for all inputs; agreement with the hash join of C46; group-join under the stated hypotheses. Not covered: composite keys of the sort-merge join and group-joins with reordered grouping keys or predicated probe rows, where the code is wrong (counterexamples proved)",
  "status": "partial"
 },
 "C56": {
  "note": "Proved for all plans without duplicate identifiers: minimization succeeds and keeps the result schema, compiled code returns the original result, scans read exactly the live attributes. The interpreter returns the original result if no filter or sort directly above a projection/grouping/aggregation feeds a grouping, aggregation or left join input (otherwise false: C56_group_counterexample, C56_join_counterexample). Running the pass twice changes nothing if every aggregation keeps an aggregate (otherwise an assertion fails: C56_twice_counterexample). Duplicate identifiers below ORDER BY: exception (C56_duplicate_counterexample).",
  "status": "partial"
 },
 "C57": {
  "note": "Proved for all plans whose expressions are resolved (an expression taken for never NULL refers to columns marked NOT NULL) and in which no item or key has the name of another input column: every schema entry's NOT NULL and UNIQUE is kept by the rows, for any number of minimizations; execution relying on them returns the rows of the plan. The general statement is false: C57_sum_counterexample (aggregates over empty input), C57_alias_counterexample, C57_derived_counterexample (names clash).",
  "status": "partial"
 },
 "C58": {
  "note": "generic in physical operators, conditions and costs; hypotheses CostOK (no NaN, monotone +) and ReadsMatched (documented contract of pre_condition); both shown to be needed by counterexamples",
  "status": "proved"
 },
 "C59": {
  "note": "True for plans whose projections and ordered groupings keep a prefix of the sort order (Careful), and for all plans without projection, ordered grouping and aggregation (C59_simple_plans). The full property is false (C59_full_property_false): counterexamples are admitted plans that leave out a necessary sort or split groups.",
  "status": "partial"
 },
 "C60": {
  "note": "Names, scopes, FROM isolation, independence of enumeration and types of accepted statements proved for all statements; no crash only if just names are called and NULL is neither selected nor ordered by (bug theorems show the crashes); column order of SELECT * depends on the hash table.",
  "status": "partial"
 },
 "C61": {
  "note": "WHERE/GROUP BY row-local and one value per group proved for all accepted statements whose nested queries do not depend on the row; the code accepts statements that violate the full property (bug theorems).",
  "status": "partial"
 },
 "C62": {
  "note": "Symmetry, category, float precision, integer and equal-scale decimal joins proved; false for decimals of different scale and integer/decimal (bug theorems).",
  "status": "partial"
 },
 "C63": {
  "note": "Scalar code (one lane). Layouts of any depth without leaves directly below the root; C63_factory_* instantiates the theorems for the row and PAX layouts of all tables of storable types. Pointers and tuple IDs are unbounded numbers.",
  "status": "proved"
 },
 "C64": {
  "note": "Scalar scans: proved for all layouts. SIMD: proved when L divides the number of rows and of tuples per block (what the planner checks suffices without double pumping), no packed booleans, numbers without gaps, NULL bits among the first 32; C64_bug_* show that each of these is needed. Phantom rows and wrong rows occur with default options.",
  "status": "partial"
 },
 "C65": {
  "note": "Infinite buffers (global over any number of executions, and local), point stores and swaps for every layout; finite buffers under the two conditions that the counterexample theorems show to be necessary (no rejected row at the last place; empty at re-entry).",
  "status": "partial"
 },
 "C66": {
  "note": "Enumeration, prefix notation and the first file proved in full for all plans; files of later queries in one process are not JSON (static variable), shown by C66_bug_later_files.",
  "status": "partial"
 },
 "C67": {
  "note": "Proved for nested queries that are whole SELECT items without free variables (in any statement), up to the order of columns. For nested queries in WHERE, in HAVING, inside SELECT expressions or with free variables the code violates the claim: theorems C67_bug_*.",
  "status": "partial"
 },
 "C68": {
  "note": "Proved for every history that drops no referenced table, no name twice in a statement and creates no rmi index on a type without one: no crash, replies and schemas as specified, rejected statements without effect. Outside of it the code dangles, crashes or has effects although it reports an error: see the C68_bug theorems.",
  "status": "partial"
 },
 "C69": {
  "note": "Upper bound: partial (products beyond 64 bits, aggregation of inputs estimated empty, and queries without sources excluded; C69_bug_overflow, C69_bug_aggregate, C69_bug_no_sources). Independence of the join order: full for Cartesian products; for injected cardinalities partial, for files that list every set of sources consistently, with names without $ (C69_bug_incomplete_file, C69_bug_dollar). SPN: partial, uniform columns and conjunctions of positive comparisons of different attributes with constants on the right; the remaining theorems are deviations.",
  "status": "partial"
 },
 "C70": {
  "note": "Learned networks of discrete leaves: exact for one condition, bounded for several, distinct values bounded. Updates: leaves exact except IS NULL, networks without clusters exact for insertions; continuous leaves within one bin, except deletions of the lower bound. Missing: updates of networks with clusters, upper bounds, NULL after updates: the code violates them (bug theorems).",
  "status": "partial"
 },
 "C71": {
  "note": "Integral types of up to 32 bits (or bounds up to 2^49 in magnitude): full claim for at, sequence, distinct numbers. double: inside the bounds, in order, starts at a bound. Grid search: full. Missing: 64-bit bounds, 2^32 steps or counts, reaching the end with doubles, num_points beyond 32 bits - violated by the code (bug theorems).",
  "status": "partial"
 },
 "C72": {
  "note": "Filling, correlated columns (given one spare value in the type), distinct numbers: for all inputs; primary keys of 32/64 bits. NULL bits: for the alignments for which the code is right (all others: bug theorems). Missing: assertions in debug builds, 8/16-bit keys: violated by the code (bug theorems); floating-point columns not modelled.",
  "status": "partial"
 },
 "C73": {
  "note": "the laws of the comparisons (total, transitive, consistent) and the bounds by the limits of the type are hypotheses, shown for 32-bit integers; NaN and infinities break them (bug theorems)",
  "status": "proved"
 },
 "C74": {
  "note": "reference counting of std::shared_ptr modelled as implemented; conversions between base classes, weak pointers and threads not modelled; null pointers with a control block are a finding (C74_bug_null)",
  "status": "proved"
 },
 "C75": {
  "note": "Graphs that can be written in SQL (Ok): expressions without nested queries, tables with an alias, names that are identifiers; the excluded cases are defects proved beside (C75_bug_*).",
  "status": "partial"
 },
 "C76": {
  "note": "Unsigned options accept negative numbers (C76_bug_negative); everything else is proved in full for the modelled option types.",
  "status": "partial"
 },
 "C77": {
  "note": "For every text that is not empty; the empty one does not terminate (C77_bug_empty).",
  "status": "proved"
 },
 "C78": {
  "note": "proved: encoding, order, constants accepted by the semantic analysis, printing and reading back dates and date times, lexer tokens, non-negative decimals. Negative decimals with a fraction are misprinted by the code (C78_bug_negative_decimal), 29 February and DSV files are not checked (bugs); timegm/gmtime_r are not modelled",
  "status": "partial"
 }
}