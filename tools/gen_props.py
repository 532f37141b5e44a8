import json
P=[]
def p(id,title,statement,quantifier,why,anchors):
    P.append(dict(id=id,title=title,statement=statement,quantifier=quantifier,why_tests_cant=why,anchors=anchors))
A="include/mutable/util/ADT.hpp"; AM="include/mutable/util/AdjacencyMatrix.hpp"; AMC="src/util/AdjacencyMatrix.cpp"
p("C01","SmallBitset is a set over 0..63","Every SmallBitset operation (All, Singleton, element access and assignment, union, intersection, difference, complement, is_subset, size, empty, is_singleton, hi, mask_to_lo, singleton_to_lo_mask) behaves as the operation of the same name on sets of integers in 0..63.","all pairs of 64-bit sets and all element indices","2^128 pairs of sets; bit tricks fail only at boundary bits (0, 63, full set)",[A+":SmallBitset"])
p("C02","Iterating a SmallBitset","Forward iteration visits exactly the elements of the set, each once, in strictly increasing order; reverse iteration visits the same elements in strictly decreasing order; as_set() of an iterator is the singleton of the visited element.","all 64-bit sets","2^64 sets",[A+":SmallBitset::iterator",A+":SmallBitset::reverse_iterator"])
p("C03","Subset enumeration","Starting at least_subset(S) and applying next_subset(., S) until the empty set enumerates every non-empty subset of S exactly once, in increasing numeric order; hence every strict subset is enumerated before its superset.","all 64-bit sets S and all of their subsets","the sequence has up to 2^64-1 steps",[A+":least_subset",A+":next_subset"])
p("C04","Enumeration of fixed-size subsets","GospersHack::enumerate_all(k, n) enumerates exactly the k-element subsets of {0..n-1}, each once, in increasing order, for 1 <= k <= n < 64; SubsetEnumerator enumerates exactly the k-element subsets of an arbitrary set.","all k, n and all sets","binomially many results, wrap-around only at large n",[A+":GospersHack",A+":SubsetEnumerator"])
p("C05","Reachability","reachable(src) returns exactly the vertices that are in src or connected to src by a finite path; reachable(src, S) exactly the vertices of S reachable from src∩S by a path inside S; both terminate.","all graphs on up to 64 vertices, all vertex sets","2^4096 graphs",[AM+":AdjacencyMatrix::reachable"])
p("C06","Connectedness and neighbourhood","is_connected(S) holds iff the subgraph induced by S is connected; is_connected(L,R) iff some edge joins L and R; neighbors(S) are exactly the vertices outside S adjacent to S.","all symmetric graphs, all vertex sets","2^2080 graphs times 2^64 sets",[AM+":AdjacencyMatrix::is_connected",AM+":AdjacencyMatrix::neighbors"])
p("C07","Transitive closure","transitive_closure_directed() and transitive_closure_undirected() terminate and entry (i,j) of the result is set iff there is a path of at least one edge from i to j.","all graphs (symmetric ones for the undirected variant)","in-place update order matters; only all graphs settle it",[AMC+":transitive_closure_directed",AMC+":transitive_closure_undirected"])
p("C08","Connected-subgraph enumeration","for_each_CSG_undirected(super, source) calls back exactly the non-empty connected subsets of super that meet source, each exactly once.","all symmetric graphs, all super and source sets","exponentially many subgraphs; duplicates or omissions occur only on particular cyclic graphs",[AM+":for_each_CSG_undirected"])
p("C09","Connected-subgraph-pair enumeration","for_each_CSG_pair_undirected(super) calls back every unordered pair of disjoint, connected, mutually adjacent subsets of super exactly once (in exactly one orientation) and nothing else.","all symmetric graphs without self loops","as C08, squared",[AM+":for_each_CSG_pair_undirected"])
p("C10","Minimal-cut partitioning","MinCutAGaT::partition(S) calls back every partition of the connected set S into two connected parts exactly once, with the first part containing the least vertex, and nothing else.","all symmetric graphs, all connected S with at least two vertices","the incremental connectedness test is valid only because of an invariant over the whole enumeration",["include/mutable/util/MinCutAGaT.hpp:MinCutAGaT"])
p("C11","Minimum spanning forest","minimum_spanning_forest(w) returns a symmetric acyclic subgraph with the same connected components and of minimal total weight among all such subgraphs.","all symmetric graphs and all weight functions","all graphs and weights",[AMC+":minimum_spanning_forest"])
p("C12","Tree rooting","tree_directed_away_from(root) on a tree keeps exactly one direction of every edge, the one leading away from root.","all trees with at most 64 vertices and all roots","64^62 labelled trees",[AMC+":tree_directed_away_from"])
PE="src/IR/PlanEnumerator.cpp"
p("C13","Dynamic-programming plan enumeration is optimal","After DPsize, DPsizeOpt, DPsizeSub, DPsub, DPsubOpt, TDbasic or TDMinCutAGaT the cost recorded for every connected set of relations is the minimum cost over all bushy join trees without Cartesian products, and the recorded splits rebuild a tree of exactly that cost.","all connected query graphs, all cardinality models and monotone cost functions","number of join trees is super-exponential; sub-optimality shows only for adversarial cardinalities",[PE,"include/mutable/IR/PlanTable.hpp:PlanTableBase::update"])
p("C14","DPccp enumeration order","DPccp yields the optimal plan without Cartesian products (as C13).","all connected query graphs and cost functions","needs all graphs; the callback order only goes wrong on cyclic graphs",[PE+":DPccp",AM+":for_each_CSG_pair_undirected"])
p("C15","PEall is globally optimal","PEall records for every non-empty set of relations the minimal cost over all bushy join trees, including Cartesian products.","all query graphs and cost functions","as C13",[PE+":PEall"])
p("C16","Greedy and heuristic enumerators produce valid plans","On connected query graphs GOO, TDGOO, IKKBZ and LinearizedDP terminate with a complete join tree over exactly the query's relations, each relation used once, without Cartesian products, and the recorded cost is the cost of that tree. GOO's tree is one of a greedy run that in every step makes the possible join with the smallest result; TDGOO cuts every subproblem so that the sum of the cardinalities of the connected parts is least; IKKBZ's tree is linear and no more expensive than the rank-ordered linearization of the spanning tree it considered for any other root; LinearizedDP's tree is the cheapest one along the linearization and never more expensive than IKKBZ's.","all connected query graphs, estimators, cost functions and tie-breaking choices","all graphs",[PE,"include/mutable/IR/PlanEnumerator.hpp"])
p("C17","Predicate to CNF conversion preserves three-valued meaning","For every Boolean SQL expression, the CNF computed by to_CNF evaluates, under SQL three-valued logic, to the same truth value as the expression, for every valuation of its atoms (TRUE, FALSE, NULL).","all expressions of any depth and all valuations","expressions are unbounded; NULL interacts with negated equivalence",["src/IR/CNF.cpp:CNFGenerator","src/IR/CNF.cpp:to_CNF"])
RW="include/mutable/util/reader_writer_lock.hpp"
p("C18","Reader/writer mutual exclusion","In every interleaving of lock_read, lock_write, try_lock_*, upgrade, unlock_* by any number of threads (below 65536, the range of its counters), a thread holding the write lock excludes every other holder, and no internal assertion of the mutex fails.","all schedules of any number of threads","interleavings are unbounded",[RW+":reader_writer_mutex"])
p("C19","Upgrade atomicity","When upgrade() returns true no other thread has held the write lock since the caller acquired its read lock; when two readers race at most one upgrade succeeds.","all schedules","interleavings are unbounded",[RW+":upgrade"])
p("C20","Lock liveness","If every holder eventually releases, a thread waiting for the lock is eventually woken: there is no reachable state in which the lock is grantable to a waiting thread, nobody else can run, and no wake-up is pending.","all schedules, all choices made by notify_one","lost wake-ups appear only in particular interleavings",[RW+":unlock_read",RW+":notify_writer"])
p("C21","Hash table is a multimap","After any sequence of insert_with_duplicates / insert_without_duplicates / resize / rehash, count(k) and for_all(k) report exactly the values inserted under k, find(k) succeeds iff k was inserted, and insert_without_duplicates inserts iff k is absent.","all operation sequences, all hash functions, all keys","collision and growth histories are unbounded",["src/util/container/RefCountingHashMap.hpp:RefCountingHashMap"])
p("C22","Quadratic probing terminates","In a table whose capacity is a power of two and that has at least one free slot, the probe sequence reaches a free slot within capacity steps.","all capacities 2^k, all home buckets, all occupancy patterns","all capacities",["src/util/container/RefCountingHashMap.hpp:insert_with_duplicates"])
p("C23","XOR-linked list is a sequence","Any history of emplace, insert, erase, push/pop at either end, reverse and clear on doubly_linked_list yields the same contents, size and iteration order (both directions) as the same operations on a plain sequence.","all operation histories, all node addresses","pointer-XOR corruption depends on history and addresses",[A+":doubly_linked_list"])
p("C24","list_allocator hands out disjoint memory","In every history of allocate/deallocate with requests of at most 2^64-9 bytes, live allocations are pairwise disjoint, lie inside mapped memory, are aligned as requested, and hold at least the requested bytes without overlapping the allocator's own bookkeeping.","all allocation/deallocation histories, all sizes and power-of-two alignments","histories are unbounded; failures are silent memory corruption",["include/mutable/util/list_allocator.hpp:list_allocator"])
p("C25","list_allocator leaks nothing","When every allocation has been deallocated, destroying the allocator unmaps exactly the memory it mapped.","all histories","coalescing order depends on history",["include/mutable/util/list_allocator.hpp:~list_allocator"])
p("C26","LinearAllocator offsets","In every history of allocate/deallocate, live Memory objects occupy disjoint page-aligned file ranges below the file size, and the file shrinks to the end of the last live allocation.","all histories","histories are unbounded",["src/util/memory.cpp:LinearAllocator"])
IX="include/mutable/storage/Index.hpp"
p("C27","ArrayIndex lookup","After finalize(), lower_bound/upper_bound return the first entry whose key is not less / greater than the probe, for any multiset of keys, and the range [lower_bound(k), upper_bound(k)) holds exactly the row ids inserted with key k; querying before finalize() throws.","all insertion histories and probe keys","unbounded key multisets",[IX+":ArrayIndex"])
p("C28","RecursiveModelIndex equals ArrayIndex","RecursiveModelIndex lower_bound/upper_bound return the same position as ArrayIndex on the same entries, whatever its trained models predict.","all entry multisets, all probe keys, all model predictions","depends on floating-point predictions for adversarial key sets",[IX+":RecursiveModelIndex"])
FN="include/mutable/util/fn.hpp"; FC="src/util/fn.cpp"
p("C29","LIKE matching","like(str, pattern) returns true iff str matches the SQL LIKE pattern (% any sequence, _ any one character, escape makes the next %, _ or escape literal) and throws exactly on malformed escapes.","all strings, patterns and escape characters","strings and patterns are unbounded",[FC+":like"])
p("C30","Escaping round-trips","unescape(escape(s)) = s and interpret(quote(escape(s))) = s for every string s and every escape/quote pair other than the letter n.","all strings","unbounded strings",[FC+":escape",FC+":unescape",FN+":interpret"])
p("C31","Integer helpers","ceil_to_pow_2, ceil_to_multiple_of_pow_2, round_up_to_multiple, log2_floor, log2_ceil, is_pow_2, Ceil_To_Next_Page, add_wo_overflow, mul_wo_overflow, powi, is_range_wide_enough, setbit, sum_wo_overflow, prod_wo_overflow compute their documented mathematical functions whenever the result is representable, and saturate where documented; murmur3_64 is injective; sequence_number is the rank of a pair.","all 32- and 64-bit operands","2^128 operand pairs",[FN])
p("C32","Serial transaction execution","Between the first executed command of a transaction and its commit/abort, the scheduler executes no command of another transaction; commands of one transaction execute in submission order; every accepted command is eventually answered.","all submission histories of any number of sessions","histories and interleavings are unbounded",["src/catalog/SerialScheduler.cpp:SerialScheduler"])
p("C33","Data layouts never overlap","For RowStore, PAX and column layouts over any schema, distinct (row, attribute) cells and null-bitmap bits occupy disjoint bit ranges and each cell is aligned to its type, so that writing one cell leaves all others unchanged and a read returns the last write.","all schemas, all row counts","unbounded schemas and row counts",["src/storage/DataLayoutFactory.cpp","src/storage/RowStore.cpp","src/storage/PaxStore.cpp","src/storage/ColumnStore.cpp"])
p("C34","Expression compilation is correct","Evaluating the stack-machine program compiled from an expression yields the SQL value of the expression, including NULL propagation and three-valued AND/OR, for every tuple.","all expressions and tuples","unbounded expressions",["src/backend/StackMachine.cpp:StackMachineBuilder","src/backend/StackMachine.hpp"])
p("C35","Query operators implement the relational algebra","Filter, nested-loops join, hash join, projection, limit, sorting, hash grouping and aggregation of the interpreter produce exactly the multiset (for sorting and limit: sequence) of tuples given by their SQL definition on every input.","all input relations","unbounded relations; NULL keys, duplicates",["src/backend/Interpreter.cpp"])
p("C36","Lexer","Token text concatenated with skipped white space and comments reproduces the input; keywords, identifiers, numbers and strings are classified by longest match, and lexing always terminates.","all input strings","unbounded strings",["src/lex/Lexer.cpp"])
p("C37","Parser and pretty printer","Every statement of the SQL grammar is accepted without an error and yields the tree of the grammar, with the documented precedence and left associativity of operators; the grammar is unambiguous; parsing terminates and makes progress on every input; what is read without an error is a statement of the grammar; and printing a statement or expression and parsing the text again yields the same tree.","all token sequences, texts, statements and expression trees","unbounded trees and texts",["src/parse/Parser.cpp","src/parse/Parser.hpp","src/tables/FollowSet.tbl","src/parse/ASTPrinter.cpp","src/catalog/Type.cpp:Type::print"])
p("C38","Delimited-file import","Importing a DSV file recovers exactly the cell values that a conforming writer wrote, including quoted fields with embedded delimiters, quotes and newlines.","all tables of cell values, all dialects","unbounded cells",["src/io/DSVReader.cpp"])
p("C39","Interning","Pooling equal values (sequentially or from any number of threads) always yields the same pooled object, different values yield different objects, and the reference count of a pooled object equals the number of live handles.","all histories and schedules","interleavings are unbounded",["include/mutable/util/Pool.hpp"])
p("C40","Heuristic search for join orders","Heuristic search terminates and returns a goal together with a chain of parents that is a real path from the initial state. A* with an admissible heuristic (with or without cost-based pruning, and lazy search with any heuristic) returns a cheapest path, weighted search one that is at most w times as expensive; failure is reported only if there is no goal below the upper bound. Over join orders, bottom-up and top-down: the search never fails on a connected query, the plan is reconstructed from the parents without violating an assertion, has no cross products, and minimises the sum of intermediate result sizes; beam search always yields a plan without cross products.","all finite-depth search spaces, heuristics, weights, budgets and choices among equally good states; all connected query graphs with up to 64 relations and all cardinalities","all graphs, all tie-breaking choices of the priority queue",["include/mutable/util/HeuristicSearch.hpp","include/mutable/IR/HeuristicSearchPlanEnumerator.hpp","src/IR/HeuristicSearchPlanEnumerator.cpp"])
p("C41","Schema operations","Schema union, intersection, deduplicate, drop_constants and find behave as set operations on identifiers, keep entry order, and report ambiguity exactly when two entries match.","all schemas","unbounded schemas",["include/mutable/catalog/Schema.hpp:Schema"])
p("C42","Multi-versioned visibility","With multi-versioning enabled, a query of a transaction with start time t sees exactly the row versions with ts_begin <= t and (ts_end > t or ts_end unset).","all histories of versions and transactions","histories are unbounded",["src/catalog/Schema.cpp"])
p("C43","Sorting in the WebAssembly backend","The code emitted for ORDER BY always ends, returns exactly the tuples of its buffer, and returns them in the requested order: lexicographic in the ordering expressions, each ascending or descending, NULL first; for both comparison strategies, both partitioning modes and with or without the special case for two tuples.","all buffers, tuples, ordering expressions, options","unbounded buffers and any number of ordering expressions; the comparison may overflow only from 32 expressions on",["src/backend/WasmAlgo.cpp","src/backend/WasmUtil.cpp"])
p("C44","String comparison and concatenation in compiled queries","In a compiled query the comparisons =, !=, <, <=, >, >= of two strings always end and yield NULL if an operand is NULL and otherwise what the operator means for the character sequences, whatever the declared types (CHAR or VARCHAR of any length); l .. r yields the concatenation of the two values.","all strings, declared types and lengths, all contents of memory behind the strings, all operators, all orders in which comparisons occur in the query","there are unboundedly many combinations of types, values and memory contents; the failures need a value that fills its column, a CHAR on the right, or a certain other predicate in the same query",["src/backend/WasmUtil.cpp: strncmp, strcmp, strncpy, TK_DOTDOT","src/backend/WasmUtil.hpp: NChar, add_literal"])
p("C45","LIKE in compiled queries","In a compiled query s LIKE p always ends; it throws exactly if p has an invalid escape sequence and otherwise is true exactly if p matches s, whichever of the four algorithms (dynamic programming, search, prefix bounds, suffix bounds) the compiler chooses.","all strings and patterns, all declared types and lengths, all contents of memory, all other predicates of the query","matching is over all strings and patterns; a table off by one or a wrong failure link shows only for particular overlaps",["src/backend/WasmUtil.cpp: like, like_contains, like_prefix, like_suffix, TK_Like"])
p("C46","Hash tables, hash join and hash grouping in compiled queries","In a compiled query a hash table behaves as a multimap: every inserted entry is enumerated exactly once and a lookup yields exactly the entries with the given key, through any number of growth steps, with any hash values and either probing strategy, and every probe terminates. Hence a hash join outputs every pair of SQL-equal build and probe rows exactly once (NULL matches nothing) and hash grouping outputs one row per distinct key with the aggregate over all its rows.","all hash functions, initial capacities, load factors, probing strategies, sequences of insertions and lookups, build and probe relations","Collisions, wrap-around of probe sequences and the interplay with growth depend on hash values and on the history of insertions.",["src/backend/WasmAlgo.cpp: OpenAddressingHashTable, ChainedHashTable, LinearProbing, QuadraticProbing","src/backend/WasmAlgo.hpp: HashTable","src/backend/WasmOperator.cpp: SimpleHashJoin::execute, HashBasedGrouping::execute"])
p("C47","Keys of hash tables in compiled queries","A key stored in a hash table of a compiled query is the key that was inserted; comparing a stored key with a given key answers whether all components are equal or both NULL, whatever lies in memory behind a NULL or behind the end of a string; equal keys have equal hashes, so that a lookup looks in the right bucket also after the table has grown; different integers never have the same hash; components and NULL bits of an entry do not overlap and are aligned.","all key columns and types, all values including NULL, NaN and both zeros, all strings, all contents of memory, all schemas","a wrong hash shows only for particular bit patterns, dirty memory and bucket numbers",["src/backend/WasmAlgo.cpp: murmur3_bit_mix, fnv_1a, str_hash, murmur3_64a_hash, set_byte_offsets, equal_key, insert_key","src/backend/WasmAlgo.hpp: the_reference","src/backend/WasmUtil.cpp: strncpy"])
p("C48","Compiled expressions, filters and projections","In compiled queries, the code generated for an expression yields the SQL value of the expression for every tuple: NULL exactly where SQL says NULL, otherwise the right value of the right type, with operands converted to their common type; a filter passes on exactly the rows for which its condition is TRUE, whether it evaluates the whole condition, the literals of a disjunction one after the other, or predicates; code is generated for every expression that the semantic analysis accepts; and no query traps whose SQL result exists.","all typed expressions, all conditions in conjunctive normal form, all projections, all tuples including NULLs, all contents of the variables behind a NULL","NULL bits and value bits combine in a number of cases that is exponential in the expression; garbage behind a NULL and values at the limits of a type matter",["src/backend/WasmUtil.cpp: ExprCompiler, convert_in_place, compile_cnf","src/backend/WasmDSL.hpp: PrimitiveExpr, Expr","src/backend/WasmOperator.cpp: Filter, LazyDisjunctiveFilter, Projection","src/parse/Sema.cpp: operator()(const UnaryExpr &), operator()(const BinaryExpr &)"])
p("C49","INSERT","An INSERT appends one row per tuple to what a scan of the table returns: every column holds the value of its expression, converted to the type of the column, or NULL for NULL and DEFAULT, and the hidden timestamps say when the row was written; rows that were in the table before are unchanged, however the statement ends; a statement rejected by the semantic analysis changes nothing; values that cannot be stored are rejected.","all tables (columns of all types, nullable or not, with or without hidden timestamps) in row and PAX layouts, all lists of tuples of NULL, DEFAULT and expressions, all previous contents of the store","position of a value in the tuple, in the machine and in the layout are three different numberings that coincide in small tests; one tuple object is reused for all rows, so errors depend on the tuples before; neighbouring bits share bytes",["src/catalog/DatabaseCommand.cpp InsertRecords::execute","src/parse/Sema.cpp operator()(InsertStmt&)","src/mutable.cpp StoreWriter::append","src/backend/Interpreter.cpp compile_data_layout","src/backend/StackMachine.cpp emit_St_Tup, emit_Cast","include/mutable/IR/Tuple.hpp Tuple","include/mutable/catalog/Schema.hpp convert_id"])
p("C50","Index scans","Whenever the planner may answer a filter over a table with an index, the index scan returns exactly the rows a full scan followed by the filter returns (NULL keys never qualify), each once, sorted by the key, whatever the access strategy, batch size and build; an index is only used while it reflects the current contents of the table.","every history of CREATE/DROP TABLE, INSERT, IMPORT, CREATE/DROP INDEX; every condition for which the planner accepts an index scan; every table content; compilation, interpretation and hybrid strategies, callbacks and exposed memory, every batch size","needs a statement about all histories and all conditions: stale indexes, boundary constants and crossing ranges only show for particular combinations",["src/backend/WasmOperator.cpp: extract_index_scan_bounds, IndexScan::pre_condition, IndexScan::execute, index_scan_codegen_*","src/backend/V8Engine.cpp: index_seek, index_sequential_scan","src/storage/Index.cpp: ArrayIndex::bulkload","include/mutable/catalog/Schema.hpp: has_index, get_index, invalidate_indexes, drop_indexes","src/catalog/DatabaseCommand.cpp: InsertRecords, ImportDSV, CreateIndex"])
p("C51","FROM and WHERE","The logical plan of a SELECT statement yields, as a bag, exactly the combinations of one row of each data source in FROM for which WHERE is TRUE in three-valued logic, each join condition is used exactly where all its sources are available and none is forgotten, whatever join order the plan enumerator chose; HAVING keeps exactly the groups for which its condition is TRUE.","every list of at most 63 data sources with arbitrary contents, every type-correct WHERE or HAVING expression, every order of iteration of hash maps and of sorting, every plan enumerator, every cost and cardinality estimate","The condition is split into clauses, deduplicated, spread over filters and joins and put together again along a join tree found by search; one misplaced clause changes the result only for particular expressions, data and join orders.",["src/IR/QueryGraph.cpp: GraphBuilder::process_selection, QueryGraph::compute_adjacency_matrix","src/IR/Optimizer.cpp: optimize_filter, optimize_source_plans, construct_join_order"])
p("C52","Delivery of the result","The client is shown, printed or through a callback, exactly the rows that qualify, in their order, each with the value of every item of the SELECT list in its place: regardless of the names and aliases of the items, of repeated items and constants, of the size of the windows the result set is handed over in, of SIMD lanes and of predication; and both back ends deliver the same.","every SELECT list over expressions of any depth with arbitrary aliases, every sequence of rows, every grouping of rows into packs, every window size, both back ends, printing and callbacks","Items are identified by names on their way to the client, deduplicated, dropped and re-inserted, and rows pass a buffer that is emptied when full; an item shows the value of another one only for particular combinations of names, and a row is lost or invented only for particular combinations of window size and data.",["src/backend/WasmOperator.cpp: write_result_set, Projection::execute","src/backend/WasmUtil.cpp: Buffer::consume","src/backend/V8Engine.cpp: read_result_set","src/backend/Interpreter.cpp: Pipeline(ProjectionOperator), CallbackOperator, PrintOperator","src/IR/Operator.cpp: ProjectionOperator"])
p("C53","Aggregate functions of the compiled back end","The compiled back end gives every aggregate function the value SQL defines: NULLs are ignored, COUNT counts, all others are NULL if there is no value; with hash-based grouping the groups are exactly the distinct keys of the qualifying rows (NULL is one key), with ordered grouping the maximal runs of equal keys, independent of how rows are split into batches, and without grouping the result does not depend on the number of SIMD lanes or on the order of the rows; rows rejected by predication do not count.","every list of aggregate expressions (also repeated ones and AVG sharing its count or sum with others), every sequence of rows with values of their types, every split into batches, every number of SIMD lanes, with and without predication","Values are kept in neutral elements, NULL bits, running counts and running averages whose initialisation and update differ between four code paths; an error shows only for particular combinations of NULLs, rejected rows, first rows of groups, lanes and types.",["src/backend/WasmOperator.cpp: compute_aggregate_info, HashBasedGrouping::execute, OrderedGrouping::execute, Aggregation::execute","src/parse/Sema.cpp: operator()(FnApplicationExpr)","include/mutable/parse/AST.hpp: FnApplicationExpr::can_be_null"])
p("C54","SELECT, ORDER BY and LIMIT together","A query with SELECT, ORDER BY and LIMIT clauses returns, in both back ends, the rows in an order that respects the ORDER BY keys (in the order of the rows below if there is no ORDER BY), of these the rows OFFSET, OFFSET+1, ... as many as LIMIT says, and of each row the items of the SELECT list: names in ORDER BY mean items of the SELECT list first (ambiguous names are rejected) and columns of the sources second, and columns used only by ORDER BY do not show up in the result.","every SELECT list with aliases, every list of ORDER BY expressions, every limit and offset, every table content, every way the rows are split into batches, every correct sorting algorithm","Names are looked up in rows whose columns depend on aliases, on which columns ORDER BY needs in addition and on two projections; the combinations of clauses, names and batches are unbounded.",["src/parse/Sema.cpp: Designator, SelectClause, OrderByClause","src/IR/Optimizer.cpp: compute_projections_required_for_order_by, optimize_source_plans, the part that puts projection, sorting, limit on top","src/backend/WasmOperator.cpp: Projection, Quicksort, Limit","src/backend/Interpreter.cpp: LimitOperator, ProjectionOperator, SortingOperator"])
p("C55","Joins and group-join of compiled code","Whichever of the join algorithms the compiler picks, the rows of a join are exactly the pairs of rows of both inputs for which the join predicate is true (NULL equals nothing), each once, in the order of the keys for the sort-merge join; and a grouping that is executed together with the join below it has the groups and the values of aggregates that the rows of the join would give.","every content of both inputs with NULLs, every set of rows rejected by predication, every predicate, every number of key columns, every list of aggregates over columns of either input","The sort-merge join skips rows depending on comparisons of all key columns, and the group-join never builds the rows it aggregates but multiplies partial results; both are right only if an argument about all contents is.",["src/backend/WasmOperator.cpp: NestedLoopsJoin, SortMergeJoin, HashBasedGroupJoin","src/backend/WasmAlgo.cpp: OpenAddressingHashTable::find, try_emplace"])
p("C56","Dropping unused columns","Before a query is executed, columns nobody needs are removed from all operators. This never fails, changes nothing when it is done again, and the result of the query - rows, order of rows, columns and their order - is the one the plan had before, in both back ends; scans read exactly the columns that are needed.","every plan of scans, filters, joins, projections, groupings, aggregations, sorts and limits of any depth with arbitrary expressions, every content of tables, whatever memory holds behind the end of a tuple","Whether an operator finds a column at the position it was told depends on which columns all operators above it need and on all operators below; the combinations are unbounded.",["src/IR/Operator.cpp: SchemaMinimizer, Operator::minimize_schema","src/backend/Interpreter.cpp: the positions operators are compiled with","src/backend/WasmOperator.cpp: schemas of buffers","include/mutable/catalog/Schema.hpp: operator|, operator&, has"])
p("C57","NOT NULL and UNIQUE in plans","Every operator of a plan declares for its columns whether they can be NULL and whether they are unique. The rows of the operator keep these promises, before columns nobody needs are removed and after it, so that compiled code, which stores no NULL bits for columns declared NOT NULL and looks for a single partner if join keys are declared UNIQUE, returns the rows of the query.","every plan of scans, filters, joins, projections, groupings, aggregations, sorts and limits of any depth, every content of tables that keeps the constraints of the tables, any number of minimizations, whatever value is read where a NULL was stored without NULL bit","The promise of an operator is derived from promises of all operators below and from static analysis of expressions; a wrong one shows only for contents that violate it.",["src/IR/Operator.cpp: constructors of operators, add_constraints, SchemaMinimizer","include/mutable/IR/Operator.hpp: add_child","include/mutable/catalog/Schema.hpp: entry_type, operator|=, operator&","include/mutable/parse/AST.hpp: can_be_null","src/backend/WasmOperator.cpp: SimpleHashJoin<UniqueBuild>","src/backend/WasmUtil.cpp: NULL bits"])
p("C58","The physical optimizer finds a cheapest covering","cover() and extract_plan() return a physical plan whose operators match the logical plan and cover every logical operator exactly once, in which every pre-condition is implied by the post-condition of the child, and than which no other such covering is cheaper; has_plan() is true iff there is one. This presumes costs that are numbers (not NaN) with monotone addition and pre-conditions that look only at operators already matched. With the operators of the interpreter every logical plan gets a plan.","every logical plan, every set of registered physical operators with arbitrary patterns, pre- and post-conditions and costs, every order of registration","Optimality quantifies over all coverings, of which there are exponentially many; a lost combination of children or a wrong entry of the table shows only for particular costs and conditions.",["include/mutable/IR/PhysicalOptimizer.hpp: PhysicalOptimizerImpl, pattern_matcher_recursive, handle_match, get_plan_entry","src/IR/PhysicalPlanTable.hpp: ConcretePhysicalPlanTable, Condition2PPTEntryMap","include/mutable/IR/Operator.hpp: assign_post_order_ids, PostOrderOperatorVisitor","src/backend/InterpreterOperator.hpp","src/backend/WasmOperator.cpp: SimpleHashJoin::cost, SortMergeJoin::cost"])
p("C59","Claims about the order of rows are true","Every Sortedness that a physical operator announces is true of the rows it passes on (in lexicographic order of the attributes with their directions), so that a sort that is left out (NoOpSorting) was superfluous, grouping without a hash table (OrderedGrouping) forms exactly the groups of GROUP BY, and a merge join that does not sort an input gets it sorted by the join keys.","every physical plan that the checks of pre-conditions admit, every table contents, every predicate and aggregate, every way of sorting and every order of hash-based groups","A wrong claim shows only if an operator further up relies on it and the data happen not to be sorted; the combinations of operators, keys, renamings and directions are unbounded.",["include/mutable/IR/Condition.hpp: ConditionPropertyMap, Sortedness","src/IR/Condition.cpp: ConditionSet::implied_by","src/backend/WasmOperator.cpp: pre_condition, post_condition, adapt_post_condition(s) of Scan, IndexScan, Projection, OrderedGrouping, HashBasedGrouping, Aggregation, Quicksort, NoOpSorting, NestedLoopsJoin, SimpleHashJoin, SortMergeJoin"])
p("C60","Names in a query mean what SQL says","In every accepted query a name without table refers to the only column of that name in the innermost enclosing query that has one, a name with table to the column of the innermost source of that name; names of results are preferred in ORDER BY; ambiguous and unknown names are rejected; nested queries in FROM see nothing outside; the meaning does not depend on the internal enumeration order of tables, nor on whether the statement is nested in another one; an accepted query has no expression of error type; the analysis does not crash.","every query (any nesting, any number of sources, columns, aliases, clauses), every enumeration order of the sources","Tests use a handful of schemas; shadowing, ambiguity, aliases and nesting combine without bound, and the enumeration order of the hash table depends on addresses and library version.",["src/parse/Sema.cpp: Sema::operator() for Designator, FnApplicationExpr, QueryExpr, SelectClause, FromClause, WhereClause, GroupByClause, HavingClause, OrderByClause, SelectStmt","src/parse/Sema.hpp: SemaContext"])
p("C61","Accepted queries obey the rules of grouping","WHERE and the grouping keys are functions of a single row; in a query with GROUP BY or HAVING every result, the HAVING condition and every ORDER BY key has exactly one value per group; in a query without grouping whose SELECT list contains an aggregate all results have one value for all rows; a nested query used as a value has one result with one value.","every accepted query, every table contents, every meaning of operators and aggregates","A violation shows as an arbitrary value only if the rows of a group differ in just the columns in question.",["src/parse/Sema.cpp: Sema::operator() for Designator, FnApplicationExpr, QueryExpr, SelectClause, GroupByClause, HavingClause, OrderByClause","include/mutable/parse/AST.hpp: is_constant, contains_free_variables"])
p("C62","Types of arithmetic can hold the operands","The type of an arithmetic expression does not depend on the order of the operands, is vectorial iff an operand is, floating-point types have 32 or 64 bits, and every value of either operand is a value of the result type.","every pair of numeric types (kind, precision, scale)","Precision and scale range over all numbers; only a few pairs occur in tests.",["src/catalog/Type.cpp: arithmetic_join","src/parse/Sema.cpp: Sema::operator()(BinaryExpr&)"])
p("C63","Compiled queries read and write rows where the data layout says","A compiled scalar (non-SIMD) loop over a stored table or materialized result reads in its k-th iteration exactly the (first + k)-th row as the data layout defines it (values and NULLs), whatever subset of attributes is read and whichever pointer-sharing and remainder options are chosen; a compiled point access reads the row with the given number; a compiled store loop writes the rows (those satisfying the predicate) consecutively, changes no bit of any other row, and what was stored is what a later loop loads.","every data layout of any depth (with bit-packed booleans and NULL bitmaps), schema, subset of attributes, memory contents, starting row, sequence of rows and predicates","Pointer and mask arithmetic over all nestings, strides and offsets; errors only show at block boundaries of particular layouts.",["src/backend/WasmUtil.cpp: compile_data_layout_sequential, compile_data_layout_point_access","src/storage/DataLayout.cpp: for_sibling_leaves","src/backend/WasmUtil.hpp: setbit"])
p("C64","Table scans deliver every row exactly once","A compiled scan of a table delivers rows 0 to n-1 in order, each exactly once, scalar or with SIMD; in particular SIMD never changes the rows.","every table size, data layout that the planner accepts for SIMD, subset of attributes, memory contents, number of lanes","The effects show only for numbers of rows and block sizes that are multiples of the lanes but not of twice the lanes, at block boundaries, or with many attributes.",["src/backend/WasmOperator.cpp: Scan::pre_condition, Scan::execute","src/storage/DataLayout.cpp: supports_simd, get_num_simd_lanes","src/backend/WasmUtil.cpp: compile_data_layout_sequential"])
p("C65","Buffers of compiled queries pass every row once, in order","A pipeline breaker's buffer passes on exactly the rows whose predicate holds, in the order of arrival, each once: an infinite buffer in one go, a finite one in batches of its size; it touches no memory but its own; swapping two tuples of a buffer exchanges exactly these rows, so in-place sorting permutes the rows.","every data layout, schema, number of rows, number of executions of the producer, predicate of every row, memory contents, sequence of swaps","The effects depend on the number of rows relative to capacity and block size, on where rejected rows fall, on re-entry of the producer with a partly filled buffer, and on what memory contained before.",["src/backend/WasmUtil.cpp: Buffer::setup, Buffer::teardown, Buffer::consume, Buffer::resume_pipeline, compile_store_point_access, buffer_swap_proxy_t::operator()","src/backend/WasmUtil.hpp: Buffer","src/backend/WasmOperator.hpp: SoftPipelineBreaker"])
p("C66","Partial plans of a query: each exactly once, in a valid JSON file","With --output-partial-plans-file every complete partial plan of the chosen query plan (plans occurring in it that together contain each relation exactly once) is written exactly once, and only such plans; the file is a JSON document whose strings, in prefix notation, read back as the plans in the plan table.","every plan over any number of relations, names, sequence of queries in one process","The number of partial plans is exponential in the size of the plan, and the loops with an explicit decision stack must visit each exactly once for every shape of the tree; tests list a few shapes and write one file.",["src/IR/PartialPlanGenerator.cpp: for_each_complete_partial_plan, write_partial_plans_JSON","src/mutable.cpp: process_stream"])
p("C67","Nested queries mean what SQL says","A statement with nested queries in SELECT, WHERE or HAVING delivers the rows SQL prescribes: a nested query has, for each row of the enclosing query, the value of its single row, evaluated with that row's values for its free variables; it is NULL if there is no row and an error if there are several.","every statement, nested queries with or without free variables, every contents of the tables","A nested query becomes a data source joined with the others; whether the join multiplies, loses or duplicates rows depends on the rows of both and on the clauses that are deferred.",["src/IR/QueryGraph.cpp: GraphBuilder::process_selection, GraphBuilder::operator()(const ast::SelectStmt&), ClauseInfo, is_composable_of","src/backend/WasmUtil.cpp: QueryExpr","src/backend/StackMachine.cpp: StackMachineBuilder","src/parse/Sema.cpp: operator()(const QueryExpr&), operator()(const SelectClause&)"])
p("C68","Data definition does what it says","CREATE/DROP/USE DATABASE, CREATE/DROP TABLE and CREATE/DROP INDEX change the set of databases, tables (with exactly the declared attributes, primary key, UNIQUE, NOT NULL and REFERENCES) and indexes as the statement says; a statement that reports an error has no effect; dropping a table also drops its indexes and is refused, or drops the references, if another table refers to it; no sequence of statements leaves anything dangling or crashes.","every sequence of data definition statements, any number of databases, tables, attributes, constraints and indexes","Tables, attributes and indexes refer to one another by address; whether an address is still valid depends on the whole history of statements.",["src/parse/Sema.cpp: Sema::operator()(CreateTableStmt&), (DropTableStmt&), (CreateIndexStmt&), (DropIndexStmt&), (CreateDatabaseStmt&), (DropDatabaseStmt&), (UseDatabaseStmt&)","src/catalog/DatabaseCommand.cpp: CreateTable::execute, DropTable::execute, CreateIndex::execute, DropIndex::execute","src/catalog/Schema.cpp: ConcreteTable::schema","include/mutable/catalog/Schema.hpp: Database, ConcreteTable","src/catalog/Catalog.cpp: add_database, drop_database"])
p("C69","Estimated cardinalities","The estimated cardinality of a set of sources does not depend on the join order that is considered first; the Cartesian product estimator never estimates fewer rows than there are; with injected cardinalities the estimate for every set of sources listed in the file is the one listed, in whatever order entries and relations are given; the SPN estimator asks its network for exactly the rows a filter selects, and estimates the size of a join exactly if the values are uniformly distributed.","every query plan, database, plan enumeration order, injection file, filter and join condition","Estimates are computed once per set of sources from whichever pair of parts is enumerated first; tests check few sets in one order, and small cardinalities that neither overflow nor are reduced by filters.",["src/catalog/CardinalityEstimator.cpp: CartesianProductEstimator, InjectionCardinalityEstimator, SpnEstimator, FilterTranslator","include/mutable/catalog/CardinalityEstimator.hpp","include/mutable/IR/PlanTable.hpp: update","src/IR/Optimizer.cpp: optimize_source_plans, optimize_plan"])
p("C70","Sum-product networks know the data they learned","Whatever groups of attributes and clusters of rows are chosen during learning, a network of discrete leaves answers a single condition with exactly the fraction of the rows that meet it, several conditions with a probability no greater than the fraction for any of them, and estimates no fewer distinct values than there are; a continuous leaf is off by at most the fraction of the values in one bin, and its lower and upper bounds are bounds; all of this remains true after any history of insertions and deletions.","every table with or without NULLs, every structure of the network, every condition, every history of updates","The result is a sum of products over a tree whose form depends on correlations in the data; tests compare a few queries on small tables with a tolerance, and updates accumulate errors over histories.",["src/util/Spn.cpp: Spn::learn_node, create_product_min_slice, create_product_rdc, create_sum, Sum::evaluate, Product::evaluate, DiscreteLeaf::evaluate, ContinuousLeaf::evaluate, update, estimate_number_distinct_values","src/util/Spn.hpp: Spn"])
p("C71","Linear spaces, grid search, distinct numbers","A linear space over an integral type from lo to hi yields num_steps()+1 evenly spaced points inside [lo,hi], in order, beginning at one bound and ending at the other, and all different if the interval holds enough integers; over double, the points stay inside the bounds, in order, and reach both ends; a grid search calls its function for every point of the grid exactly once, in lexicographic order, and num_points() says how often; generate_uniform_distinct_numbers(min,max,count) returns count different numbers of [min,max] whatever the order in which they are shuffled.","every integral type, every interval, every number of steps, every number of spaces, every count","The points come from floating-point arithmetic in two rounding modes: whether two of them coincide or the last one is missed depends on the single bits of every combination of bounds and steps; tests sample a dozen small ones.",["src/util/GridSearch.hpp: LinearSpace, at, sequence, GridSearch::search, num_points, make_args","src/util/datagen.hpp: generate_uniform_distinct_numbers"])
p("C72","Generated columns","The generators of data write exactly the rows they are asked to write: setting the NULL bits of a range of rows changes the bits of these rows and no others; primary keys are the row numbers; filling rows with values uses each value equally often up to one, whatever the shuffles; a request for distinct numbers yields that many different numbers of the range, whatever is drawn; correlated columns have exactly the requested numbers of distinct and of common values.","every number of attributes, every range of rows, every previous contents, every list of values, every behaviour of the random generator and the shuffles","Ranges of rows start and end at any bit of a byte, and random draws collide arbitrarily; tests fill whole columns from row 0 with one seed.",["src/storage/store_manip.cpp: set_all_null, set_all_not_null, generate_primary_keys, generate_distinct_numbers, generate_numeric_column, generate_correlated_numeric_columns","src/storage/store_manip.hpp: fill_uniform"])
p("C73","Generic quicksort","The quicksort of the utility library terminates on every range of elements whose comparisons form a total order within the limits of the type, without failing one of its assertions, leaves the range a sorted permutation of what it was, and touches nothing outside the range; its partitioning splits every range at any pivot into elements not greater and elements not smaller; its verifier of partitions says yes exactly for partitions; the pivot is a median of three.","every element type with lawful comparisons, every range of every length, every content (duplicates included)","the loop advances one or both ends per round depending on data, the recursion depends on the pivots, and termination is about every input",["src/util/algorithms.hpp: verify_partition, partition_predicated_naive, qsort"])
p("C74","Unsharable shared pointers","In every program over pointers that can be shared and, when exclusive, turned into a unique pointer: an object some pointer refers to is alive; an object no pointer refers to was destroyed exactly once; an object held by a unique pointer is held by nothing else; use_count is the number of pointers to the object; unsharing fails exactly when another pointer refers to the object and otherwise hands it over without destroying it; assignments affect the assigned pointers only.","every number of variables, every sequence of creations, copies, moves, resets, adoptions and unsharings","double frees, leaks and use after free depend on the history of all owners",["include/mutable/util/unsharable_shared_ptr.hpp: unsharable_shared_ptr, exclusive_shared_to_unique, make_unsharable_shared"])
p("C75","SQL text of a query graph","The SQL text generated for a query graph can be read again by the scanner and the parser and is the statement with the same projections, sources (with nested queries), grouping and ordering keys, limit and offset, whose condition holds in three-valued logic for exactly the rows for which every filter of a source and every join condition holds; behind a grouping, an aggregate is referred to by the very name under which the inner query projects it; anonymous queries get names that differ from each other.","every query graph (any number of sources, joins, keys, clauses, any nesting of queries and expressions), every interpretation of the predicates","precedence, parentheses, white space and names have to be right for every nesting of expressions and queries; tests compare the text of a few graphs",["src/IR/QueryGraph2SQL.cpp: QueryGraph2SQL::translate, insert_projection, translate_projection, make_unique_alias, operator()"])
p("C76","Command lines","Options can be registered exactly if no name is used twice; a command line is read as the sequence of options with their arguments, positional arguments and ignored unknown options it consists of, up to --, and callbacks are called with the right values in that order; if the argument of an option is missing or malformed the process exits after everything before it and nothing behind it took effect; integral options accept exactly the numbers of their type's range, lists are split at the commas; the help lists each option once, in aligned columns.","every set of options, every command line, every argument text","names, arguments that look like options, boundaries of number ranges and empty list elements combine arbitrarily",["include/mutable/util/ArgParser.hpp: ArgParser::add","src/util/ArgParser.cpp: ArgParser::parse_args, ArgParser::print_args, OptionImpl::parse, help_parse"])
p("C77","Replacing text and escaping HTML","Replacing all occurrences of a text that is not empty terminates for every text and replacement, also if the replacement contains the text, and replaces exactly the occurrences found from left to right that neither overlap nor arise from the replacement; escaping for HTML replaces exactly the three special characters, once each, yields no tags, shows the reader the original text, and is injective.","every text, pattern and replacement","occurrences overlap, span the borders of replacements and arise from them; entities contain the character that is escaped",["include/mutable/util/fn.hpp: replace_all","src/util/fn.cpp: html_escape"])
p("C78","Dates, date times and decimals as text","A date constant the lexer and the semantic analysis accept denotes the year, month and day it is written with; the value printed for any date or date time is read back as the same value and is a constant the lexer accepts; dates compare like year, month and day, also before Christ; decimals are printed exactly, with as many decimal places as their type has.","every date value, date constant, date time and decimal","2^32 dates, negative years and padding; a sign in the wrong place shows only for negative fractions",["src/IR/Tuple.cpp: Value::print","src/backend/Interpreter.hpp: Interpreter::eval(Constant) for TK_DATE, TK_DATE_TIME","src/backend/StackMachine.cpp: Print_date, Print_datetime","src/parse/Sema.cpp: operator()(Constant) for TK_DATE","include/mutable/util/fn.hpp: put_tm, get_tm"])
with open('/verif/properties.jsonl','w') as f:
    for x in P: f.write(json.dumps(x)+"\n")
