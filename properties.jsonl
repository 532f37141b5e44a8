{"id": "C01", "title": "SmallBitset is a set over 0..63", "statement": "Every SmallBitset operation (All, Singleton, element access and assignment, union, intersection, difference, complement, is_subset, size, empty, is_singleton, hi, mask_to_lo, singleton_to_lo_mask) behaves as the operation of the same name on sets of integers in 0..63.", "quantifier": "all pairs of 64-bit sets and all element indices", "why_tests_cant": "2^128 pairs of sets; bit tricks fail only at boundary bits (0, 63, full set)", "anchors": ["include/mutable/util/ADT.hpp:SmallBitset"]}
{"id": "C02", "title": "Iterating a SmallBitset", "statement": "Forward iteration visits exactly the elements of the set, each once, in strictly increasing order; reverse iteration visits the same elements in strictly decreasing order; as_set() of an iterator is the singleton of the visited element.", "quantifier": "all 64-bit sets", "why_tests_cant": "2^64 sets", "anchors": ["include/mutable/util/ADT.hpp:SmallBitset::iterator", "include/mutable/util/ADT.hpp:SmallBitset::reverse_iterator"]}
{"id": "C03", "title": "Subset enumeration", "statement": "Starting at least_subset(S) and applying next_subset(., S) until the empty set enumerates every non-empty subset of S exactly once, in increasing numeric order; hence every strict subset is enumerated before its superset.", "quantifier": "all 64-bit sets S and all of their subsets", "why_tests_cant": "the sequence has up to 2^64-1 steps", "anchors": ["include/mutable/util/ADT.hpp:least_subset", "include/mutable/util/ADT.hpp:next_subset"]}
{"id": "C04", "title": "Enumeration of fixed-size subsets", "statement": "GospersHack::enumerate_all(k, n) enumerates exactly the k-element subsets of {0..n-1}, each once, in increasing order, for 1 <= k <= n < 64; SubsetEnumerator enumerates exactly the k-element subsets of an arbitrary set.", "quantifier": "all k, n and all sets", "why_tests_cant": "binomially many results, wrap-around only at large n", "anchors": ["include/mutable/util/ADT.hpp:GospersHack", "include/mutable/util/ADT.hpp:SubsetEnumerator"]}
{"id": "C05", "title": "Reachability", "statement": "reachable(src) returns exactly the vertices that are in src or connected to src by a finite path; reachable(src, S) exactly the vertices of S reachable from src\u2229S by a path inside S; both terminate.", "quantifier": "all graphs on up to 64 vertices, all vertex sets", "why_tests_cant": "2^4096 graphs", "anchors": ["include/mutable/util/AdjacencyMatrix.hpp:AdjacencyMatrix::reachable"]}
{"id": "C06", "title": "Connectedness and neighbourhood", "statement": "is_connected(S) holds iff the subgraph induced by S is connected; is_connected(L,R) iff some edge joins L and R; neighbors(S) are exactly the vertices outside S adjacent to S.", "quantifier": "all symmetric graphs, all vertex sets", "why_tests_cant": "2^2080 graphs times 2^64 sets", "anchors": ["include/mutable/util/AdjacencyMatrix.hpp:AdjacencyMatrix::is_connected", "include/mutable/util/AdjacencyMatrix.hpp:AdjacencyMatrix::neighbors"]}
{"id": "C07", "title": "Transitive closure", "statement": "transitive_closure_directed() and transitive_closure_undirected() terminate and entry (i,j) of the result is set iff there is a path of at least one edge from i to j.", "quantifier": "all graphs (symmetric ones for the undirected variant)", "why_tests_cant": "in-place update order matters; only all graphs settle it", "anchors": ["src/util/AdjacencyMatrix.cpp:transitive_closure_directed", "src/util/AdjacencyMatrix.cpp:transitive_closure_undirected"]}
{"id": "C08", "title": "Connected-subgraph enumeration", "statement": "for_each_CSG_undirected(super, source) calls back exactly the non-empty connected subsets of super that meet source, each exactly once.", "quantifier": "all symmetric graphs, all super and source sets", "why_tests_cant": "exponentially many subgraphs; duplicates or omissions occur only on particular cyclic graphs", "anchors": ["include/mutable/util/AdjacencyMatrix.hpp:for_each_CSG_undirected"]}
{"id": "C09", "title": "Connected-subgraph-pair enumeration", "statement": "for_each_CSG_pair_undirected(super) calls back every unordered pair of disjoint, connected, mutually adjacent subsets of super exactly once (in exactly one orientation) and nothing else.", "quantifier": "all symmetric graphs without self loops", "why_tests_cant": "as C08, squared", "anchors": ["include/mutable/util/AdjacencyMatrix.hpp:for_each_CSG_pair_undirected"]}
{"id": "C10", "title": "Minimal-cut partitioning", "statement": "MinCutAGaT::partition(S) calls back every partition of the connected set S into two connected parts exactly once, with the first part containing the least vertex, and nothing else.", "quantifier": "all symmetric graphs, all connected S with at least two vertices", "why_tests_cant": "the incremental connectedness test is valid only because of an invariant over the whole enumeration", "anchors": ["include/mutable/util/MinCutAGaT.hpp:MinCutAGaT"]}
{"id": "C11", "title": "Minimum spanning forest", "statement": "minimum_spanning_forest(w) returns a symmetric acyclic subgraph with the same connected components and of minimal total weight among all such subgraphs.", "quantifier": "all symmetric graphs and all weight functions", "why_tests_cant": "all graphs and weights", "anchors": ["src/util/AdjacencyMatrix.cpp:minimum_spanning_forest"]}
{"id": "C12", "title": "Tree rooting", "statement": "tree_directed_away_from(root) on a tree keeps exactly one direction of every edge, the one leading away from root.", "quantifier": "all trees with at most 64 vertices and all roots", "why_tests_cant": "64^62 labelled trees", "anchors": ["src/util/AdjacencyMatrix.cpp:tree_directed_away_from"]}
{"id": "C13", "title": "Dynamic-programming plan enumeration is optimal", "statement": "After DPsize, DPsizeOpt, DPsizeSub, DPsub, DPsubOpt, TDbasic or TDMinCutAGaT the cost recorded for every connected set of relations is the minimum cost over all bushy join trees without Cartesian products, and the recorded splits rebuild a tree of exactly that cost.", "quantifier": "all connected query graphs, all cardinality models and monotone cost functions", "why_tests_cant": "number of join trees is super-exponential; sub-optimality shows only for adversarial cardinalities", "anchors": ["src/IR/PlanEnumerator.cpp", "include/mutable/IR/PlanTable.hpp:PlanTableBase::update"]}
{"id": "C14", "title": "DPccp enumeration order", "statement": "DPccp yields the optimal plan without Cartesian products (as C13).", "quantifier": "all connected query graphs and cost functions", "why_tests_cant": "needs all graphs; the callback order only goes wrong on cyclic graphs", "anchors": ["src/IR/PlanEnumerator.cpp:DPccp", "include/mutable/util/AdjacencyMatrix.hpp:for_each_CSG_pair_undirected"]}
{"id": "C15", "title": "PEall is globally optimal", "statement": "PEall records for every non-empty set of relations the minimal cost over all bushy join trees, including Cartesian products.", "quantifier": "all query graphs and cost functions", "why_tests_cant": "as C13", "anchors": ["src/IR/PlanEnumerator.cpp:PEall"]}
{"id": "C16", "title": "Greedy and heuristic enumerators produce valid plans", "statement": "On connected query graphs GOO, TDGOO, IKKBZ and LinearizedDP terminate with a complete join tree over exactly the query's relations, each relation used once, without Cartesian products, and the recorded cost is the cost of that tree. GOO's tree is one of a greedy run that in every step makes the possible join with the smallest result; TDGOO cuts every subproblem so that the sum of the cardinalities of the connected parts is least; IKKBZ's tree is linear and no more expensive than the rank-ordered linearization of the spanning tree it considered for any other root; LinearizedDP's tree is the cheapest one along the linearization and never more expensive than IKKBZ's.", "quantifier": "all connected query graphs, estimators, cost functions and tie-breaking choices", "why_tests_cant": "all graphs", "anchors": ["src/IR/PlanEnumerator.cpp", "include/mutable/IR/PlanEnumerator.hpp"]}
{"id": "C17", "title": "Predicate to CNF conversion preserves three-valued meaning", "statement": "For every Boolean SQL expression, the CNF computed by to_CNF evaluates, under SQL three-valued logic, to the same truth value as the expression, for every valuation of its atoms (TRUE, FALSE, NULL).", "quantifier": "all expressions of any depth and all valuations", "why_tests_cant": "expressions are unbounded; NULL interacts with negated equivalence", "anchors": ["src/IR/CNF.cpp:CNFGenerator", "src/IR/CNF.cpp:to_CNF"]}
{"id": "C18", "title": "Reader/writer mutual exclusion", "statement": "In every interleaving of lock_read, lock_write, try_lock_*, upgrade, unlock_* by any number of threads (below 65536, the range of its counters), a thread holding the write lock excludes every other holder, and no internal assertion of the mutex fails.", "quantifier": "all schedules of any number of threads", "why_tests_cant": "interleavings are unbounded", "anchors": ["include/mutable/util/reader_writer_lock.hpp:reader_writer_mutex"]}
{"id": "C19", "title": "Upgrade atomicity", "statement": "When upgrade() returns true no other thread has held the write lock since the caller acquired its read lock; when two readers race at most one upgrade succeeds.", "quantifier": "all schedules", "why_tests_cant": "interleavings are unbounded", "anchors": ["include/mutable/util/reader_writer_lock.hpp:upgrade"]}
{"id": "C20", "title": "Lock liveness", "statement": "If every holder eventually releases, a thread waiting for the lock is eventually woken: there is no reachable state in which the lock is grantable to a waiting thread, nobody else can run, and no wake-up is pending.", "quantifier": "all schedules, all choices made by notify_one", "why_tests_cant": "lost wake-ups appear only in particular interleavings", "anchors": ["include/mutable/util/reader_writer_lock.hpp:unlock_read", "include/mutable/util/reader_writer_lock.hpp:notify_writer"]}
{"id": "C21", "title": "Hash table is a multimap", "statement": "After any sequence of insert_with_duplicates / insert_without_duplicates / resize / rehash, count(k) and for_all(k) report exactly the values inserted under k, find(k) succeeds iff k was inserted, and insert_without_duplicates inserts iff k is absent.", "quantifier": "all operation sequences, all hash functions, all keys", "why_tests_cant": "collision and growth histories are unbounded", "anchors": ["src/util/container/RefCountingHashMap.hpp:RefCountingHashMap"]}
{"id": "C22", "title": "Quadratic probing terminates", "statement": "In a table whose capacity is a power of two and that has at least one free slot, the probe sequence reaches a free slot within capacity steps.", "quantifier": "all capacities 2^k, all home buckets, all occupancy patterns", "why_tests_cant": "all capacities", "anchors": ["src/util/container/RefCountingHashMap.hpp:insert_with_duplicates"]}
{"id": "C23", "title": "XOR-linked list is a sequence", "statement": "Any history of emplace, insert, erase, push/pop at either end, reverse and clear on doubly_linked_list yields the same contents, size and iteration order (both directions) as the same operations on a plain sequence.", "quantifier": "all operation histories, all node addresses", "why_tests_cant": "pointer-XOR corruption depends on history and addresses", "anchors": ["include/mutable/util/ADT.hpp:doubly_linked_list"]}
{"id": "C24", "title": "list_allocator hands out disjoint memory", "statement": "In every history of allocate/deallocate with requests of at most 2^64-9 bytes, live allocations are pairwise disjoint, lie inside mapped memory, are aligned as requested, and hold at least the requested bytes without overlapping the allocator's own bookkeeping.", "quantifier": "all allocation/deallocation histories, all sizes and power-of-two alignments", "why_tests_cant": "histories are unbounded; failures are silent memory corruption", "anchors": ["include/mutable/util/list_allocator.hpp:list_allocator"]}
{"id": "C25", "title": "list_allocator leaks nothing", "statement": "When every allocation has been deallocated, destroying the allocator unmaps exactly the memory it mapped.", "quantifier": "all histories", "why_tests_cant": "coalescing order depends on history", "anchors": ["include/mutable/util/list_allocator.hpp:~list_allocator"]}
{"id": "C26", "title": "LinearAllocator offsets", "statement": "In every history of allocate/deallocate, live Memory objects occupy disjoint page-aligned file ranges below the file size, and the file shrinks to the end of the last live allocation.", "quantifier": "all histories", "why_tests_cant": "histories are unbounded", "anchors": ["src/util/memory.cpp:LinearAllocator"]}
{"id": "C27", "title": "ArrayIndex lookup", "statement": "After finalize(), lower_bound/upper_bound return the first entry whose key is not less / greater than the probe, for any multiset of keys, and the range [lower_bound(k), upper_bound(k)) holds exactly the row ids inserted with key k; querying before finalize() throws.", "quantifier": "all insertion histories and probe keys", "why_tests_cant": "unbounded key multisets", "anchors": ["include/mutable/storage/Index.hpp:ArrayIndex"]}
{"id": "C28", "title": "RecursiveModelIndex equals ArrayIndex", "statement": "RecursiveModelIndex lower_bound/upper_bound return the same position as ArrayIndex on the same entries, whatever its trained models predict.", "quantifier": "all entry multisets, all probe keys, all model predictions", "why_tests_cant": "depends on floating-point predictions for adversarial key sets", "anchors": ["include/mutable/storage/Index.hpp:RecursiveModelIndex"]}
{"id": "C29", "title": "LIKE matching", "statement": "like(str, pattern) returns true iff str matches the SQL LIKE pattern (% any sequence, _ any one character, escape makes the next %, _ or escape literal) and throws exactly on malformed escapes.", "quantifier": "all strings, patterns and escape characters", "why_tests_cant": "strings and patterns are unbounded", "anchors": ["src/util/fn.cpp:like"]}
{"id": "C30", "title": "Escaping round-trips", "statement": "unescape(escape(s)) = s and interpret(quote(escape(s))) = s for every string s and every escape/quote pair other than the letter n.", "quantifier": "all strings", "why_tests_cant": "unbounded strings", "anchors": ["src/util/fn.cpp:escape", "src/util/fn.cpp:unescape", "include/mutable/util/fn.hpp:interpret"]}
{"id": "C31", "title": "Integer helpers", "statement": "ceil_to_pow_2, ceil_to_multiple_of_pow_2, round_up_to_multiple, log2_floor, log2_ceil, is_pow_2, Ceil_To_Next_Page, add_wo_overflow, mul_wo_overflow, powi, is_range_wide_enough, setbit, sum_wo_overflow, prod_wo_overflow compute their documented mathematical functions whenever the result is representable, and saturate where documented; murmur3_64 is injective; sequence_number is the rank of a pair.", "quantifier": "all 32- and 64-bit operands", "why_tests_cant": "2^128 operand pairs", "anchors": ["include/mutable/util/fn.hpp"]}
{"id": "C32", "title": "Serial transaction execution", "statement": "Between the first executed command of a transaction and its commit/abort, the scheduler executes no command of another transaction; commands of one transaction execute in submission order; every accepted command is eventually answered.", "quantifier": "all submission histories of any number of sessions", "why_tests_cant": "histories and interleavings are unbounded", "anchors": ["src/catalog/SerialScheduler.cpp:SerialScheduler"]}
{"id": "C33", "title": "Data layouts never overlap", "statement": "For RowStore, PAX and column layouts over any schema, distinct (row, attribute) cells and null-bitmap bits occupy disjoint bit ranges and each cell is aligned to its type, so that writing one cell leaves all others unchanged and a read returns the last write.", "quantifier": "all schemas, all row counts", "why_tests_cant": "unbounded schemas and row counts", "anchors": ["src/storage/DataLayoutFactory.cpp", "src/storage/RowStore.cpp", "src/storage/PaxStore.cpp", "src/storage/ColumnStore.cpp"]}
{"id": "C34", "title": "Expression compilation is correct", "statement": "Evaluating the stack-machine program compiled from an expression yields the SQL value of the expression, including NULL propagation and three-valued AND/OR, for every tuple.", "quantifier": "all expressions and tuples", "why_tests_cant": "unbounded expressions", "anchors": ["src/backend/StackMachine.cpp:StackMachineBuilder", "src/backend/StackMachine.hpp"]}
{"id": "C35", "title": "Query operators implement the relational algebra", "statement": "Filter, nested-loops join, hash join, projection, limit, sorting, hash grouping and aggregation of the interpreter produce exactly the multiset (for sorting and limit: sequence) of tuples given by their SQL definition on every input.", "quantifier": "all input relations", "why_tests_cant": "unbounded relations; NULL keys, duplicates", "anchors": ["src/backend/Interpreter.cpp"]}
{"id": "C36", "title": "Lexer", "statement": "Token text concatenated with skipped white space and comments reproduces the input; keywords, identifiers, numbers and strings are classified by longest match, and lexing always terminates.", "quantifier": "all input strings", "why_tests_cant": "unbounded strings", "anchors": ["src/lex/Lexer.cpp"]}
{"id": "C37", "title": "Parser and pretty printer", "statement": "Every statement of the SQL grammar is accepted without an error and yields the tree of the grammar, with the documented precedence and left associativity of operators; the grammar is unambiguous; parsing terminates and makes progress on every input; what is read without an error is a statement of the grammar; and printing a statement or expression and parsing the text again yields the same tree.", "quantifier": "all token sequences, texts, statements and expression trees", "why_tests_cant": "unbounded trees and texts", "anchors": ["src/parse/Parser.cpp", "src/parse/Parser.hpp", "src/tables/FollowSet.tbl", "src/parse/ASTPrinter.cpp", "src/catalog/Type.cpp:Type::print"]}
{"id": "C38", "title": "Delimited-file import", "statement": "Importing a DSV file recovers exactly the cell values that a conforming writer wrote, including quoted fields with embedded delimiters, quotes and newlines.", "quantifier": "all tables of cell values, all dialects", "why_tests_cant": "unbounded cells", "anchors": ["src/io/DSVReader.cpp"]}
{"id": "C39", "title": "Interning", "statement": "Pooling equal values (sequentially or from any number of threads) always yields the same pooled object, different values yield different objects, and the reference count of a pooled object equals the number of live handles.", "quantifier": "all histories and schedules", "why_tests_cant": "interleavings are unbounded", "anchors": ["include/mutable/util/Pool.hpp"]}
{"id": "C40", "title": "Heuristic search for join orders", "statement": "Heuristic search terminates and returns a goal together with a chain of parents that is a real path from the initial state. A* with an admissible heuristic (with or without cost-based pruning, and lazy search with any heuristic) returns a cheapest path, weighted search one that is at most w times as expensive; failure is reported only if there is no goal below the upper bound. Over join orders, bottom-up and top-down: the search never fails on a connected query, the plan is reconstructed from the parents without violating an assertion, has no cross products, and minimises the sum of intermediate result sizes; beam search always yields a plan without cross products.", "quantifier": "all finite-depth search spaces, heuristics, weights, budgets and choices among equally good states; all connected query graphs with up to 64 relations and all cardinalities", "why_tests_cant": "all graphs, all tie-breaking choices of the priority queue", "anchors": ["include/mutable/util/HeuristicSearch.hpp", "include/mutable/IR/HeuristicSearchPlanEnumerator.hpp", "src/IR/HeuristicSearchPlanEnumerator.cpp"]}
{"id": "C41", "title": "Schema operations", "statement": "Schema union, intersection, deduplicate, drop_constants and find behave as set operations on identifiers, keep entry order, and report ambiguity exactly when two entries match.", "quantifier": "all schemas", "why_tests_cant": "unbounded schemas", "anchors": ["include/mutable/catalog/Schema.hpp:Schema"]}
{"id": "C42", "title": "Multi-versioned visibility", "statement": "With multi-versioning enabled, a query of a transaction with start time t sees exactly the row versions with ts_begin <= t and (ts_end > t or ts_end unset).", "quantifier": "all histories of versions and transactions", "why_tests_cant": "histories are unbounded", "anchors": ["src/catalog/Schema.cpp"]}
{"id": "C43", "title": "Sorting in the WebAssembly backend", "statement": "The code emitted for ORDER BY always ends, returns exactly the tuples of its buffer, and returns them in the requested order: lexicographic in the ordering expressions, each ascending or descending, NULL first; for both comparison strategies, both partitioning modes and with or without the special case for two tuples.", "quantifier": "all buffers, tuples, ordering expressions, options", "why_tests_cant": "unbounded buffers and any number of ordering expressions; the comparison may overflow only from 32 expressions on", "anchors": ["src/backend/WasmAlgo.cpp", "src/backend/WasmUtil.cpp"]}
{"id": "C44", "title": "String comparison and concatenation in compiled queries", "statement": "In a compiled query the comparisons =, !=, <, <=, >, >= of two strings always end and yield NULL if an operand is NULL and otherwise what the operator means for the character sequences, whatever the declared types (CHAR or VARCHAR of any length); l .. r yields the concatenation of the two values.", "quantifier": "all strings, declared types and lengths, all contents of memory behind the strings, all operators, all orders in which comparisons occur in the query", "why_tests_cant": "there are unboundedly many combinations of types, values and memory contents; the failures need a value that fills its column, a CHAR on the right, or a certain other predicate in the same query", "anchors": ["src/backend/WasmUtil.cpp: strncmp, strcmp, strncpy, TK_DOTDOT", "src/backend/WasmUtil.hpp: NChar, add_literal"]}
{"id": "C45", "title": "LIKE in compiled queries", "statement": "In a compiled query s LIKE p always ends; it throws exactly if p has an invalid escape sequence and otherwise is true exactly if p matches s, whichever of the four algorithms (dynamic programming, search, prefix bounds, suffix bounds) the compiler chooses.", "quantifier": "all strings and patterns, all declared types and lengths, all contents of memory, all other predicates of the query", "why_tests_cant": "matching is over all strings and patterns; a table off by one or a wrong failure link shows only for particular overlaps", "anchors": ["src/backend/WasmUtil.cpp: like, like_contains, like_prefix, like_suffix, TK_Like"]}
{"id": "C46", "title": "Hash tables, hash join and hash grouping in compiled queries", "statement": "In a compiled query a hash table behaves as a multimap: every inserted entry is enumerated exactly once and a lookup yields exactly the entries with the given key, through any number of growth steps, with any hash values and either probing strategy, and every probe terminates. Hence a hash join outputs every pair of SQL-equal build and probe rows exactly once (NULL matches nothing) and hash grouping outputs one row per distinct key with the aggregate over all its rows.", "quantifier": "all hash functions, initial capacities, load factors, probing strategies, sequences of insertions and lookups, build and probe relations", "why_tests_cant": "Collisions, wrap-around of probe sequences and the interplay with growth depend on hash values and on the history of insertions.", "anchors": ["src/backend/WasmAlgo.cpp: OpenAddressingHashTable, ChainedHashTable, LinearProbing, QuadraticProbing", "src/backend/WasmAlgo.hpp: HashTable", "src/backend/WasmOperator.cpp: SimpleHashJoin::execute, HashBasedGrouping::execute"]}
{"id": "C47", "title": "Keys of hash tables in compiled queries", "statement": "A key stored in a hash table of a compiled query is the key that was inserted; comparing a stored key with a given key answers whether all components are equal or both NULL, whatever lies in memory behind a NULL or behind the end of a string; equal keys have equal hashes, so that a lookup looks in the right bucket also after the table has grown; different integers never have the same hash; components and NULL bits of an entry do not overlap and are aligned.", "quantifier": "all key columns and types, all values including NULL, NaN and both zeros, all strings, all contents of memory, all schemas", "why_tests_cant": "a wrong hash shows only for particular bit patterns, dirty memory and bucket numbers", "anchors": ["src/backend/WasmAlgo.cpp: murmur3_bit_mix, fnv_1a, str_hash, murmur3_64a_hash, set_byte_offsets, equal_key, insert_key", "src/backend/WasmAlgo.hpp: the_reference", "src/backend/WasmUtil.cpp: strncpy"]}
{"id": "C48", "title": "Compiled expressions, filters and projections", "statement": "In compiled queries, the code generated for an expression yields the SQL value of the expression for every tuple: NULL exactly where SQL says NULL, otherwise the right value of the right type, with operands converted to their common type; a filter passes on exactly the rows for which its condition is TRUE, whether it evaluates the whole condition, the literals of a disjunction one after the other, or predicates; code is generated for every expression that the semantic analysis accepts; and no query traps whose SQL result exists.", "quantifier": "all typed expressions, all conditions in conjunctive normal form, all projections, all tuples including NULLs, all contents of the variables behind a NULL", "why_tests_cant": "NULL bits and value bits combine in a number of cases that is exponential in the expression; garbage behind a NULL and values at the limits of a type matter", "anchors": ["src/backend/WasmUtil.cpp: ExprCompiler, convert_in_place, compile_cnf", "src/backend/WasmDSL.hpp: PrimitiveExpr, Expr", "src/backend/WasmOperator.cpp: Filter, LazyDisjunctiveFilter, Projection", "src/parse/Sema.cpp: operator()(const UnaryExpr &), operator()(const BinaryExpr &)"]}
{"id": "C49", "title": "INSERT", "statement": "An INSERT appends one row per tuple to what a scan of the table returns: every column holds the value of its expression, converted to the type of the column, or NULL for NULL and DEFAULT, and the hidden timestamps say when the row was written; rows that were in the table before are unchanged, however the statement ends; a statement rejected by the semantic analysis changes nothing; values that cannot be stored are rejected.", "quantifier": "all tables (columns of all types, nullable or not, with or without hidden timestamps) in row and PAX layouts, all lists of tuples of NULL, DEFAULT and expressions, all previous contents of the store", "why_tests_cant": "position of a value in the tuple, in the machine and in the layout are three different numberings that coincide in small tests; one tuple object is reused for all rows, so errors depend on the tuples before; neighbouring bits share bytes", "anchors": ["src/catalog/DatabaseCommand.cpp InsertRecords::execute", "src/parse/Sema.cpp operator()(InsertStmt&)", "src/mutable.cpp StoreWriter::append", "src/backend/Interpreter.cpp compile_data_layout", "src/backend/StackMachine.cpp emit_St_Tup, emit_Cast", "include/mutable/IR/Tuple.hpp Tuple", "include/mutable/catalog/Schema.hpp convert_id"]}
{"id": "C50", "title": "Index scans", "statement": "Whenever the planner may answer a filter over a table with an index, the index scan returns exactly the rows a full scan followed by the filter returns (NULL keys never qualify), each once, sorted by the key, whatever the access strategy, batch size and build; an index is only used while it reflects the current contents of the table.", "quantifier": "every history of CREATE/DROP TABLE, INSERT, IMPORT, CREATE/DROP INDEX; every condition for which the planner accepts an index scan; every table content; compilation, interpretation and hybrid strategies, callbacks and exposed memory, every batch size", "why_tests_cant": "needs a statement about all histories and all conditions: stale indexes, boundary constants and crossing ranges only show for particular combinations", "anchors": ["src/backend/WasmOperator.cpp: extract_index_scan_bounds, IndexScan::pre_condition, IndexScan::execute, index_scan_codegen_*", "src/backend/V8Engine.cpp: index_seek, index_sequential_scan", "src/storage/Index.cpp: ArrayIndex::bulkload", "include/mutable/catalog/Schema.hpp: has_index, get_index, invalidate_indexes, drop_indexes", "src/catalog/DatabaseCommand.cpp: InsertRecords, ImportDSV, CreateIndex"]}
{"id": "C51", "title": "FROM and WHERE", "statement": "The logical plan of a SELECT statement yields, as a bag, exactly the combinations of one row of each data source in FROM for which WHERE is TRUE in three-valued logic, each join condition is used exactly where all its sources are available and none is forgotten, whatever join order the plan enumerator chose; HAVING keeps exactly the groups for which its condition is TRUE.", "quantifier": "every list of at most 63 data sources with arbitrary contents, every type-correct WHERE or HAVING expression, every order of iteration of hash maps and of sorting, every plan enumerator, every cost and cardinality estimate", "why_tests_cant": "The condition is split into clauses, deduplicated, spread over filters and joins and put together again along a join tree found by search; one misplaced clause changes the result only for particular expressions, data and join orders.", "anchors": ["src/IR/QueryGraph.cpp: GraphBuilder::process_selection, QueryGraph::compute_adjacency_matrix", "src/IR/Optimizer.cpp: optimize_filter, optimize_source_plans, construct_join_order"]}
{"id": "C52", "title": "Delivery of the result", "statement": "The client is shown, printed or through a callback, exactly the rows that qualify, in their order, each with the value of every item of the SELECT list in its place: regardless of the names and aliases of the items, of repeated items and constants, of the size of the windows the result set is handed over in, of SIMD lanes and of predication; and both back ends deliver the same.", "quantifier": "every SELECT list over expressions of any depth with arbitrary aliases, every sequence of rows, every grouping of rows into packs, every window size, both back ends, printing and callbacks", "why_tests_cant": "Items are identified by names on their way to the client, deduplicated, dropped and re-inserted, and rows pass a buffer that is emptied when full; an item shows the value of another one only for particular combinations of names, and a row is lost or invented only for particular combinations of window size and data.", "anchors": ["src/backend/WasmOperator.cpp: write_result_set, Projection::execute", "src/backend/WasmUtil.cpp: Buffer::consume", "src/backend/V8Engine.cpp: read_result_set", "src/backend/Interpreter.cpp: Pipeline(ProjectionOperator), CallbackOperator, PrintOperator", "src/IR/Operator.cpp: ProjectionOperator"]}
{"id": "C53", "title": "Aggregate functions of the compiled back end", "statement": "The compiled back end gives every aggregate function the value SQL defines: NULLs are ignored, COUNT counts, all others are NULL if there is no value; with hash-based grouping the groups are exactly the distinct keys of the qualifying rows (NULL is one key), with ordered grouping the maximal runs of equal keys, independent of how rows are split into batches, and without grouping the result does not depend on the number of SIMD lanes or on the order of the rows; rows rejected by predication do not count.", "quantifier": "every list of aggregate expressions (also repeated ones and AVG sharing its count or sum with others), every sequence of rows with values of their types, every split into batches, every number of SIMD lanes, with and without predication", "why_tests_cant": "Values are kept in neutral elements, NULL bits, running counts and running averages whose initialisation and update differ between four code paths; an error shows only for particular combinations of NULLs, rejected rows, first rows of groups, lanes and types.", "anchors": ["src/backend/WasmOperator.cpp: compute_aggregate_info, HashBasedGrouping::execute, OrderedGrouping::execute, Aggregation::execute", "src/parse/Sema.cpp: operator()(FnApplicationExpr)", "include/mutable/parse/AST.hpp: FnApplicationExpr::can_be_null"]}
{"id": "C54", "title": "SELECT, ORDER BY and LIMIT together", "statement": "A query with SELECT, ORDER BY and LIMIT clauses returns, in both back ends, the rows in an order that respects the ORDER BY keys (in the order of the rows below if there is no ORDER BY), of these the rows OFFSET, OFFSET+1, ... as many as LIMIT says, and of each row the items of the SELECT list: names in ORDER BY mean items of the SELECT list first (ambiguous names are rejected) and columns of the sources second, and columns used only by ORDER BY do not show up in the result.", "quantifier": "every SELECT list with aliases, every list of ORDER BY expressions, every limit and offset, every table content, every way the rows are split into batches, every correct sorting algorithm", "why_tests_cant": "Names are looked up in rows whose columns depend on aliases, on which columns ORDER BY needs in addition and on two projections; the combinations of clauses, names and batches are unbounded.", "anchors": ["src/parse/Sema.cpp: Designator, SelectClause, OrderByClause", "src/IR/Optimizer.cpp: compute_projections_required_for_order_by, optimize_source_plans, the part that puts projection, sorting, limit on top", "src/backend/WasmOperator.cpp: Projection, Quicksort, Limit", "src/backend/Interpreter.cpp: LimitOperator, ProjectionOperator, SortingOperator"]}
{"id": "C55", "title": "Joins and group-join of compiled code", "statement": "Whichever of the join algorithms the compiler picks, the rows of a join are exactly the pairs of rows of both inputs for which the join predicate is true (NULL equals nothing), each once, in the order of the keys for the sort-merge join; and a grouping that is executed together with the join below it has the groups and the values of aggregates that the rows of the join would give.", "quantifier": "every content of both inputs with NULLs, every set of rows rejected by predication, every predicate, every number of key columns, every list of aggregates over columns of either input", "why_tests_cant": "The sort-merge join skips rows depending on comparisons of all key columns, and the group-join never builds the rows it aggregates but multiplies partial results; both are right only if an argument about all contents is.", "anchors": ["src/backend/WasmOperator.cpp: NestedLoopsJoin, SortMergeJoin, HashBasedGroupJoin", "src/backend/WasmAlgo.cpp: OpenAddressingHashTable::find, try_emplace"]}
{"id": "C56", "title": "Dropping unused columns", "statement": "Before a query is executed, columns nobody needs are removed from all operators. This never fails, changes nothing when it is done again, and the result of the query - rows, order of rows, columns and their order - is the one the plan had before, in both back ends; scans read exactly the columns that are needed.", "quantifier": "every plan of scans, filters, joins, projections, groupings, aggregations, sorts and limits of any depth with arbitrary expressions, every content of tables, whatever memory holds behind the end of a tuple", "why_tests_cant": "Whether an operator finds a column at the position it was told depends on which columns all operators above it need and on all operators below; the combinations are unbounded.", "anchors": ["src/IR/Operator.cpp: SchemaMinimizer, Operator::minimize_schema", "src/backend/Interpreter.cpp: the positions operators are compiled with", "src/backend/WasmOperator.cpp: schemas of buffers", "include/mutable/catalog/Schema.hpp: operator|, operator&, has"]}
{"id": "C57", "title": "NOT NULL and UNIQUE in plans", "statement": "Every operator of a plan declares for its columns whether they can be NULL and whether they are unique. The rows of the operator keep these promises, before columns nobody needs are removed and after it, so that compiled code, which stores no NULL bits for columns declared NOT NULL and looks for a single partner if join keys are declared UNIQUE, returns the rows of the query.", "quantifier": "every plan of scans, filters, joins, projections, groupings, aggregations, sorts and limits of any depth, every content of tables that keeps the constraints of the tables, any number of minimizations, whatever value is read where a NULL was stored without NULL bit", "why_tests_cant": "The promise of an operator is derived from promises of all operators below and from static analysis of expressions; a wrong one shows only for contents that violate it.", "anchors": ["src/IR/Operator.cpp: constructors of operators, add_constraints, SchemaMinimizer", "include/mutable/IR/Operator.hpp: add_child", "include/mutable/catalog/Schema.hpp: entry_type, operator|=, operator&", "include/mutable/parse/AST.hpp: can_be_null", "src/backend/WasmOperator.cpp: SimpleHashJoin<UniqueBuild>", "src/backend/WasmUtil.cpp: NULL bits"]}
{"id": "C58", "title": "The physical optimizer finds a cheapest covering", "statement": "cover() and extract_plan() return a physical plan whose operators match the logical plan and cover every logical operator exactly once, in which every pre-condition is implied by the post-condition of the child, and than which no other such covering is cheaper; has_plan() is true iff there is one. This presumes costs that are numbers (not NaN) with monotone addition and pre-conditions that look only at operators already matched. With the operators of the interpreter every logical plan gets a plan.", "quantifier": "every logical plan, every set of registered physical operators with arbitrary patterns, pre- and post-conditions and costs, every order of registration", "why_tests_cant": "Optimality quantifies over all coverings, of which there are exponentially many; a lost combination of children or a wrong entry of the table shows only for particular costs and conditions.", "anchors": ["include/mutable/IR/PhysicalOptimizer.hpp: PhysicalOptimizerImpl, pattern_matcher_recursive, handle_match, get_plan_entry", "src/IR/PhysicalPlanTable.hpp: ConcretePhysicalPlanTable, Condition2PPTEntryMap", "include/mutable/IR/Operator.hpp: assign_post_order_ids, PostOrderOperatorVisitor", "src/backend/InterpreterOperator.hpp", "src/backend/WasmOperator.cpp: SimpleHashJoin::cost, SortMergeJoin::cost"]}
{"id": "C59", "title": "Claims about the order of rows are true", "statement": "Every Sortedness that a physical operator announces is true of the rows it passes on (in lexicographic order of the attributes with their directions), so that a sort that is left out (NoOpSorting) was superfluous, grouping without a hash table (OrderedGrouping) forms exactly the groups of GROUP BY, and a merge join that does not sort an input gets it sorted by the join keys.", "quantifier": "every physical plan that the checks of pre-conditions admit, every table contents, every predicate and aggregate, every way of sorting and every order of hash-based groups", "why_tests_cant": "A wrong claim shows only if an operator further up relies on it and the data happen not to be sorted; the combinations of operators, keys, renamings and directions are unbounded.", "anchors": ["include/mutable/IR/Condition.hpp: ConditionPropertyMap, Sortedness", "src/IR/Condition.cpp: ConditionSet::implied_by", "src/backend/WasmOperator.cpp: pre_condition, post_condition, adapt_post_condition(s) of Scan, IndexScan, Projection, OrderedGrouping, HashBasedGrouping, Aggregation, Quicksort, NoOpSorting, NestedLoopsJoin, SimpleHashJoin, SortMergeJoin"]}
{"id": "C60", "title": "Names in a query mean what SQL says", "statement": "In every accepted query a name without table refers to the only column of that name in the innermost enclosing query that has one, a name with table to the column of the innermost source of that name; names of results are preferred in ORDER BY; ambiguous and unknown names are rejected; nested queries in FROM see nothing outside; the meaning does not depend on the internal enumeration order of tables, nor on whether the statement is nested in another one; an accepted query has no expression of error type; the analysis does not crash.", "quantifier": "every query (any nesting, any number of sources, columns, aliases, clauses), every enumeration order of the sources", "why_tests_cant": "Tests use a handful of schemas; shadowing, ambiguity, aliases and nesting combine without bound, and the enumeration order of the hash table depends on addresses and library version.", "anchors": ["src/parse/Sema.cpp: Sema::operator() for Designator, FnApplicationExpr, QueryExpr, SelectClause, FromClause, WhereClause, GroupByClause, HavingClause, OrderByClause, SelectStmt", "src/parse/Sema.hpp: SemaContext"]}
{"id": "C61", "title": "Accepted queries obey the rules of grouping", "statement": "WHERE and the grouping keys are functions of a single row; in a query with GROUP BY or HAVING every result, the HAVING condition and every ORDER BY key has exactly one value per group; in a query without grouping whose SELECT list contains an aggregate all results have one value for all rows; a nested query used as a value has one result with one value.", "quantifier": "every accepted query, every table contents, every meaning of operators and aggregates", "why_tests_cant": "A violation shows as an arbitrary value only if the rows of a group differ in just the columns in question.", "anchors": ["src/parse/Sema.cpp: Sema::operator() for Designator, FnApplicationExpr, QueryExpr, SelectClause, GroupByClause, HavingClause, OrderByClause", "include/mutable/parse/AST.hpp: is_constant, contains_free_variables"]}
{"id": "C62", "title": "Types of arithmetic can hold the operands", "statement": "The type of an arithmetic expression does not depend on the order of the operands, is vectorial iff an operand is, floating-point types have 32 or 64 bits, and every value of either operand is a value of the result type.", "quantifier": "every pair of numeric types (kind, precision, scale)", "why_tests_cant": "Precision and scale range over all numbers; only a few pairs occur in tests.", "anchors": ["src/catalog/Type.cpp: arithmetic_join", "src/parse/Sema.cpp: Sema::operator()(BinaryExpr&)"]}
{"id": "C63", "title": "Compiled queries read and write rows where the data layout says", "statement": "A compiled scalar (non-SIMD) loop over a stored table or materialized result reads in its k-th iteration exactly the (first + k)-th row as the data layout defines it (values and NULLs), whatever subset of attributes is read and whichever pointer-sharing and remainder options are chosen; a compiled point access reads the row with the given number; a compiled store loop writes the rows (those satisfying the predicate) consecutively, changes no bit of any other row, and what was stored is what a later loop loads.", "quantifier": "every data layout of any depth (with bit-packed booleans and NULL bitmaps), schema, subset of attributes, memory contents, starting row, sequence of rows and predicates", "why_tests_cant": "Pointer and mask arithmetic over all nestings, strides and offsets; errors only show at block boundaries of particular layouts.", "anchors": ["src/backend/WasmUtil.cpp: compile_data_layout_sequential, compile_data_layout_point_access", "src/storage/DataLayout.cpp: for_sibling_leaves", "src/backend/WasmUtil.hpp: setbit"]}
{"id": "C64", "title": "Table scans deliver every row exactly once", "statement": "A compiled scan of a table delivers rows 0 to n-1 in order, each exactly once, scalar or with SIMD; in particular SIMD never changes the rows.", "quantifier": "every table size, data layout that the planner accepts for SIMD, subset of attributes, memory contents, number of lanes", "why_tests_cant": "The effects show only for numbers of rows and block sizes that are multiples of the lanes but not of twice the lanes, at block boundaries, or with many attributes.", "anchors": ["src/backend/WasmOperator.cpp: Scan::pre_condition, Scan::execute", "src/storage/DataLayout.cpp: supports_simd, get_num_simd_lanes", "src/backend/WasmUtil.cpp: compile_data_layout_sequential"]}
{"id": "C65", "title": "Buffers of compiled queries pass every row once, in order", "statement": "A pipeline breaker's buffer passes on exactly the rows whose predicate holds, in the order of arrival, each once: an infinite buffer in one go, a finite one in batches of its size; it touches no memory but its own; swapping two tuples of a buffer exchanges exactly these rows, so in-place sorting permutes the rows.", "quantifier": "every data layout, schema, number of rows, number of executions of the producer, predicate of every row, memory contents, sequence of swaps", "why_tests_cant": "The effects depend on the number of rows relative to capacity and block size, on where rejected rows fall, on re-entry of the producer with a partly filled buffer, and on what memory contained before.", "anchors": ["src/backend/WasmUtil.cpp: Buffer::setup, Buffer::teardown, Buffer::consume, Buffer::resume_pipeline, compile_store_point_access, buffer_swap_proxy_t::operator()", "src/backend/WasmUtil.hpp: Buffer", "src/backend/WasmOperator.hpp: SoftPipelineBreaker"]}
{"id": "C66", "title": "Partial plans of a query: each exactly once, in a valid JSON file", "statement": "With --output-partial-plans-file every complete partial plan of the chosen query plan (plans occurring in it that together contain each relation exactly once) is written exactly once, and only such plans; the file is a JSON document whose strings, in prefix notation, read back as the plans in the plan table.", "quantifier": "every plan over any number of relations, names, sequence of queries in one process", "why_tests_cant": "The number of partial plans is exponential in the size of the plan, and the loops with an explicit decision stack must visit each exactly once for every shape of the tree; tests list a few shapes and write one file.", "anchors": ["src/IR/PartialPlanGenerator.cpp: for_each_complete_partial_plan, write_partial_plans_JSON", "src/mutable.cpp: process_stream"]}
{"id": "C67", "title": "Nested queries mean what SQL says", "statement": "A statement with nested queries in SELECT, WHERE or HAVING delivers the rows SQL prescribes: a nested query has, for each row of the enclosing query, the value of its single row, evaluated with that row's values for its free variables; it is NULL if there is no row and an error if there are several.", "quantifier": "every statement, nested queries with or without free variables, every contents of the tables", "why_tests_cant": "A nested query becomes a data source joined with the others; whether the join multiplies, loses or duplicates rows depends on the rows of both and on the clauses that are deferred.", "anchors": ["src/IR/QueryGraph.cpp: GraphBuilder::process_selection, GraphBuilder::operator()(const ast::SelectStmt&), ClauseInfo, is_composable_of", "src/backend/WasmUtil.cpp: QueryExpr", "src/backend/StackMachine.cpp: StackMachineBuilder", "src/parse/Sema.cpp: operator()(const QueryExpr&), operator()(const SelectClause&)"]}
{"id": "C68", "title": "Data definition does what it says", "statement": "CREATE/DROP/USE DATABASE, CREATE/DROP TABLE and CREATE/DROP INDEX change the set of databases, tables (with exactly the declared attributes, primary key, UNIQUE, NOT NULL and REFERENCES) and indexes as the statement says; a statement that reports an error has no effect; dropping a table also drops its indexes and is refused, or drops the references, if another table refers to it; no sequence of statements leaves anything dangling or crashes.", "quantifier": "every sequence of data definition statements, any number of databases, tables, attributes, constraints and indexes", "why_tests_cant": "Tables, attributes and indexes refer to one another by address; whether an address is still valid depends on the whole history of statements.", "anchors": ["src/parse/Sema.cpp: Sema::operator()(CreateTableStmt&), (DropTableStmt&), (CreateIndexStmt&), (DropIndexStmt&), (CreateDatabaseStmt&), (DropDatabaseStmt&), (UseDatabaseStmt&)", "src/catalog/DatabaseCommand.cpp: CreateTable::execute, DropTable::execute, CreateIndex::execute, DropIndex::execute", "src/catalog/Schema.cpp: ConcreteTable::schema", "include/mutable/catalog/Schema.hpp: Database, ConcreteTable", "src/catalog/Catalog.cpp: add_database, drop_database"]}
{"id": "C69", "title": "Estimated cardinalities", "statement": "The estimated cardinality of a set of sources does not depend on the join order that is considered first; the Cartesian product estimator never estimates fewer rows than there are; with injected cardinalities the estimate for every set of sources listed in the file is the one listed, in whatever order entries and relations are given; the SPN estimator asks its network for exactly the rows a filter selects, and estimates the size of a join exactly if the values are uniformly distributed.", "quantifier": "every query plan, database, plan enumeration order, injection file, filter and join condition", "why_tests_cant": "Estimates are computed once per set of sources from whichever pair of parts is enumerated first; tests check few sets in one order, and small cardinalities that neither overflow nor are reduced by filters.", "anchors": ["src/catalog/CardinalityEstimator.cpp: CartesianProductEstimator, InjectionCardinalityEstimator, SpnEstimator, FilterTranslator", "include/mutable/catalog/CardinalityEstimator.hpp", "include/mutable/IR/PlanTable.hpp: update", "src/IR/Optimizer.cpp: optimize_source_plans, optimize_plan"]}
{"id": "C70", "title": "Sum-product networks know the data they learned", "statement": "Whatever groups of attributes and clusters of rows are chosen during learning, a network of discrete leaves answers a single condition with exactly the fraction of the rows that meet it, several conditions with a probability no greater than the fraction for any of them, and estimates no fewer distinct values than there are; a continuous leaf is off by at most the fraction of the values in one bin, and its lower and upper bounds are bounds; all of this remains true after any history of insertions and deletions.", "quantifier": "every table with or without NULLs, every structure of the network, every condition, every history of updates", "why_tests_cant": "The result is a sum of products over a tree whose form depends on correlations in the data; tests compare a few queries on small tables with a tolerance, and updates accumulate errors over histories.", "anchors": ["src/util/Spn.cpp: Spn::learn_node, create_product_min_slice, create_product_rdc, create_sum, Sum::evaluate, Product::evaluate, DiscreteLeaf::evaluate, ContinuousLeaf::evaluate, update, estimate_number_distinct_values", "src/util/Spn.hpp: Spn"]}
{"id": "C71", "title": "Linear spaces, grid search, distinct numbers", "statement": "A linear space over an integral type from lo to hi yields num_steps()+1 evenly spaced points inside [lo,hi], in order, beginning at one bound and ending at the other, and all different if the interval holds enough integers; over double, the points stay inside the bounds, in order, and reach both ends; a grid search calls its function for every point of the grid exactly once, in lexicographic order, and num_points() says how often; generate_uniform_distinct_numbers(min,max,count) returns count different numbers of [min,max] whatever the order in which they are shuffled.", "quantifier": "every integral type, every interval, every number of steps, every number of spaces, every count", "why_tests_cant": "The points come from floating-point arithmetic in two rounding modes: whether two of them coincide or the last one is missed depends on the single bits of every combination of bounds and steps; tests sample a dozen small ones.", "anchors": ["src/util/GridSearch.hpp: LinearSpace, at, sequence, GridSearch::search, num_points, make_args", "src/util/datagen.hpp: generate_uniform_distinct_numbers"]}
{"id": "C72", "title": "Generated columns", "statement": "The generators of data write exactly the rows they are asked to write: setting the NULL bits of a range of rows changes the bits of these rows and no others; primary keys are the row numbers; filling rows with values uses each value equally often up to one, whatever the shuffles; a request for distinct numbers yields that many different numbers of the range, whatever is drawn; correlated columns have exactly the requested numbers of distinct and of common values.", "quantifier": "every number of attributes, every range of rows, every previous contents, every list of values, every behaviour of the random generator and the shuffles", "why_tests_cant": "Ranges of rows start and end at any bit of a byte, and random draws collide arbitrarily; tests fill whole columns from row 0 with one seed.", "anchors": ["src/storage/store_manip.cpp: set_all_null, set_all_not_null, generate_primary_keys, generate_distinct_numbers, generate_numeric_column, generate_correlated_numeric_columns", "src/storage/store_manip.hpp: fill_uniform"]}
{"id": "C73", "title": "Generic quicksort", "statement": "The quicksort of the utility library terminates on every range of elements whose comparisons form a total order within the limits of the type, without failing one of its assertions, leaves the range a sorted permutation of what it was, and touches nothing outside the range; its partitioning splits every range at any pivot into elements not greater and elements not smaller; its verifier of partitions says yes exactly for partitions; the pivot is a median of three.", "quantifier": "every element type with lawful comparisons, every range of every length, every content (duplicates included)", "why_tests_cant": "the loop advances one or both ends per round depending on data, the recursion depends on the pivots, and termination is about every input", "anchors": ["src/util/algorithms.hpp: verify_partition, partition_predicated_naive, qsort"]}
{"id": "C74", "title": "Unsharable shared pointers", "statement": "In every program over pointers that can be shared and, when exclusive, turned into a unique pointer: an object some pointer refers to is alive; an object no pointer refers to was destroyed exactly once; an object held by a unique pointer is held by nothing else; use_count is the number of pointers to the object; unsharing fails exactly when another pointer refers to the object and otherwise hands it over without destroying it; assignments affect the assigned pointers only.", "quantifier": "every number of variables, every sequence of creations, copies, moves, resets, adoptions and unsharings", "why_tests_cant": "double frees, leaks and use after free depend on the history of all owners", "anchors": ["include/mutable/util/unsharable_shared_ptr.hpp: unsharable_shared_ptr, exclusive_shared_to_unique, make_unsharable_shared"]}
{"id": "C75", "title": "SQL text of a query graph", "statement": "The SQL text generated for a query graph can be read again by the scanner and the parser and is the statement with the same projections, sources (with nested queries), grouping and ordering keys, limit and offset, whose condition holds in three-valued logic for exactly the rows for which every filter of a source and every join condition holds; behind a grouping, an aggregate is referred to by the very name under which the inner query projects it; anonymous queries get names that differ from each other.", "quantifier": "every query graph (any number of sources, joins, keys, clauses, any nesting of queries and expressions), every interpretation of the predicates", "why_tests_cant": "precedence, parentheses, white space and names have to be right for every nesting of expressions and queries; tests compare the text of a few graphs", "anchors": ["src/IR/QueryGraph2SQL.cpp: QueryGraph2SQL::translate, insert_projection, translate_projection, make_unique_alias, operator()"]}
{"id": "C76", "title": "Command lines", "statement": "Options can be registered exactly if no name is used twice; a command line is read as the sequence of options with their arguments, positional arguments and ignored unknown options it consists of, up to --, and callbacks are called with the right values in that order; if the argument of an option is missing or malformed the process exits after everything before it and nothing behind it took effect; integral options accept exactly the numbers of their type's range, lists are split at the commas; the help lists each option once, in aligned columns.", "quantifier": "every set of options, every command line, every argument text", "why_tests_cant": "names, arguments that look like options, boundaries of number ranges and empty list elements combine arbitrarily", "anchors": ["include/mutable/util/ArgParser.hpp: ArgParser::add", "src/util/ArgParser.cpp: ArgParser::parse_args, ArgParser::print_args, OptionImpl::parse, help_parse"]}
{"id": "C77", "title": "Replacing text and escaping HTML", "statement": "Replacing all occurrences of a text that is not empty terminates for every text and replacement, also if the replacement contains the text, and replaces exactly the occurrences found from left to right that neither overlap nor arise from the replacement; escaping for HTML replaces exactly the three special characters, once each, yields no tags, shows the reader the original text, and is injective.", "quantifier": "every text, pattern and replacement", "why_tests_cant": "occurrences overlap, span the borders of replacements and arise from them; entities contain the character that is escaped", "anchors": ["include/mutable/util/fn.hpp: replace_all", "src/util/fn.cpp: html_escape"]}
{"id": "C78", "title": "Dates, date times and decimals as text", "statement": "A date constant the lexer and the semantic analysis accept denotes the year, month and day it is written with; the value printed for any date or date time is read back as the same value and is a constant the lexer accepts; dates compare like year, month and day, also before Christ; decimals are printed exactly, with as many decimal places as their type has.", "quantifier": "every date value, date constant, date time and decimal", "why_tests_cant": "2^32 dates, negative years and padding; a sign in the wrong place shows only for negative fractions", "anchors": ["src/IR/Tuple.cpp: Value::print", "src/backend/Interpreter.hpp: Interpreter::eval(Constant) for TK_DATE, TK_DATE_TIME", "src/backend/StackMachine.cpp: Print_date, Print_datetime", "src/parse/Sema.cpp: operator()(Constant) for TK_DATE", "include/mutable/util/fn.hpp: put_tm, get_tm"]}
