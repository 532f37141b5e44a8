# Formal model of mutable-org/mutable in Lean 4

## 1. Trusted base

* Lean 4.33.0's kernel (`lake build` elaborates; only the kernel accepts).
* Axioms: at most `propext`, `Classical.choice`, `Quot.sound` (per theorem in `AXIOMS.md`, generated with `#print axioms` by `tools/axioms.py`).
  No own axioms, no `native_decide`/`bv_decide`.
* The reading of the C++ source: every definition in `*/Model.lean`-style files cites file and lines in `/repo`.
  The code has not been built or run; the tie between code and model is the citation.
* C++ semantics used without being modelled: no memory exhaustion, `std::` containers and algorithms behave as the
  standard specifies (`std::vector` = list, `std::sort` = a sorted permutation, `std::unordered_map` = finite map,
  `std::priority_queue::top` = some minimal element), `M_insist` has no effect when its condition holds; where the
  condition can fail the model says so explicitly.
* Floating point costs/weights are modelled by an arbitrary linear order (or ordered additive monoid); rounding, NaN and
  infinities are not modelled unless stated.

## 2. Layout

`lean/Verif/<Component>/...`: model files (definitions with citations), lemma files, and a `Props.lean` file per component
with the property theorems and, beside each, an `example` that shows its hypotheses are met by a concrete case.

## 3. Plan per property

| id | model | proof idea |
|----|-------|------------|
| C01, C02 | `SmallBitset` = `BitVec 64`, every operation as written (bit tricks included) | extensionality over bit indices; iteration by well-founded recursion on the numeric value |
| C03 | `least_subset`, `next_subset` on `BitVec 64` | next_subset is the successor in the order of subsets: subtraction with borrow through the mask |
| C04 | `GospersHack::operator++` on `BitVec 64`, `_pdep_u64` | block decomposition of the number; least larger number of equal popcount |
| C05, C06 | worklist loops of `AdjacencyMatrix` over `BitVec 64` | invariant: discovered set is closed under processed vertices; spec = inductive path relation |
| C07 | nested in-place loops until no change | monotonicity + soundness/completeness invariants, termination measure = number of unset bits |
| C08, C09 | FIFO queue loop with exclusion sets | each connected set has a unique derivation by layers; permutation with the specification list |
| C10 | LIFO worklist | invariant on (C, X, T), unique derivation |
| C11 | Prim per component with a priority queue abstracted as "some minimal element" | exchange argument |
| C12 | BFS layers | induction over layers |
| C13-C16 | plan table as a function from sets to entries, `update` as written, every enumerator as the sequence of its `update` calls | DP invariant: cost(S) = optimum for all sets already complete; optimum specified over inductive join trees |
| C17 | inductive Boolean expressions, `CNFGenerator` as written | structural induction, Kleene logic |
| C18-C20 | transition system: per-thread program counters, the counters of `reader_writer_mutex_internal`, wait sets of the two condition variables | inductive invariant; liveness via absence of stuck states; counterexample traces |
| C21, C22 | table as array of (probe_length, entry) with triangular probing | invariant + refinement to a multiset; triangular numbers modulo 2^k are a permutation |
| C23 | heap of nodes with xor-ed addresses | representation predicate for a segment |
| C24, C25 | free list sorted by address with sizes and deallocation marks | ghost map of live chunks; partition of mapped regions |
| C26 | list of offsets with mark bit | invariant |
| C27, C28 | sorted list, `std::lower_bound` as binary search, exponential search around a prediction | monotone predicates over a sorted list |
| C29, C30, C31 | direct transcription | DP invariant / induction / BitVec arithmetic |
| C32 | queue state machine | invariant over histories; counterexample for liveness |
| C33 | layout computation of the factories and address computation of the stores | arithmetic on offsets and strides |
| C34 | stack machine instructions and expression compiler | structural induction |
| C35 | operators as list functions following the push-based pipeline | induction over input lists, permutation |
| C36-C38 | character-level state machines | induction on the input |
| C39 | table of (value, counter) + lock from C18 | invariant |
| C40 | search loop with open list abstracted as "pop a minimal f-value" | standard A* invariant |
| C41, C42 | list functions | induction |
| C43 | the generated partitioning/quicksort loop over an abstract memory of rows, both comparison functions as generated | invariant of the partition loops; order theory of the multi-key comparison |
| C44, C45 | strings as bytes in memory with (length, guarantees_terminating_nul), generated comparison/concatenation/LIKE loops | loop invariants against a reference `LIKE`/lexicographic order |
| C46 | open-addressing and chained tables as arrays of (reference count, entry); generated insert/find/rehash; operators above | invariant: probe chains have no holes; refinement to a multimap |
| C47 | hash functions on `BitVec 64`, key comparison/insertion on bytes, byte layout of entries | injectivity of xorshift-multiply; agreement of hash with key equality |
| C48 | typed Wasm AST with traps, SQL AST with types, `ExprCompiler` as a compiler between them | structural induction: generated value/NULL bits represent the SQL value |
| C49 | `INSERT` as semantic check, machine program filling a tuple, writer over the scan states of the data layout, and full scan through the loader | induction over values, tuples and leaves of the layout; encode/decode round trip; C33 separation of leaves, C34 correctness of expressions |
| C50 | databases with tables, rows and index entries; statements as steps; the planner's test of a condition, extraction of bounds, keys of constants, seeks by callback, in compiled code or on the host, and the loops that fetch tuple ids in batches | invariant over all careful histories (valid index = key/row pairs of the table, C27 histories); binary search by C27/C28; slices of the sorted array are filters; extraction of bounds by induction over the clauses |
| C51 | clauses of the CNF of WHERE (C17) put into a map keyed by clause equality, spread over sources and joins; adjacency matrix; splitting of filters by weight; recursive construction of the join tree from the plan table of any enumerator of C13-C16; operators as functions on lists of tuples | invariant of the graph under construction (conjunction of filters and joins = conjunction of the clauses so far, conditions local to their sources); induction over the recorded join tree; permutation of nested loops |
| C52 | rows as lists of named values, names of projected columns, projection of both back ends, the writer of windows as a fold over packs of rows with a predicate bit, the printing and callback programs of `read_result_set` run on a small stack machine | names determine values (`NoClash`) so that one function from names to values describes every row of the result set; induction over the columns for the generated programs, over the packs for the windows; the value of every expression itself is C34/C48 |
| C53 | the entries computed by `compute_aggregate_info`, the state machines of hash-based grouping, ordered grouping (with globals and batches) and aggregation with lanes, exact floating-point numbers with infinities and NaN | every entry of a state equals a closed form of the rows seen so far (fold of neutral element, wrapped sum, mean, count); induction over rows; lanes by recombination; values compared with the specification used for the interpreter (C35) |
| C54 | resolution of ORDER BY names, the columns projected in addition, projection/sort/limit/second projection in both back ends over rows as name-value lists; sorting algorithm a parameter with a specification | the row after the projection holds, under every name, the value of the item; the value of a resolved expression there is the value of the written expression on the row below (induction over expressions); sorting permutes pairs of keys and rows, so it permutes the rows below; limit by a closed form of the counter; defects as counterexamples for all sorting algorithms |
| C55 | nested-loops join, merge phase of the sort-merge join, build/probe/emit phases of the group-join over abstract rows with key columns; sort from C43, aggregates from C53 | nested loops: induction; merge: induction on the number of rows left, exact under unique left keys; soundness and order for all inputs; group-join: invariant of the table per phase (each entry is the state after the rows of its key), then transfer from one side to all pairs (same members, length and sum times the size of the other side) |
| C56 | the minimizer over plan trees (schemas as identifier lists, exceptions and assertions as failure), the interpreter's positional access (pipeline layout vs. declared schema), the compiled back end's access by name; expressions are functions of a row with the list of identifiers they look up | one invariant per required set, by induction over the plan: minimization succeeds, the new schema lies between requirement and old schema, the layout contains it, rows agree on it, scans read the live attributes; the top of the plan separately |
| C57 | constraints of schema entries as computed by constructors, `add_child` and the minimizer (`add_constraints`, `operator&`); `can_be_null`; a reference semantics of plans that looks at no schema; execution that loses NULLs of NOT NULL entries and takes one partner for UNIQUE build keys | invariant over plan trees (entries promise no more than their sources; soundness of computed entries against the rows), preserved by any number of minimizations; then induction over execution |
| C58 | the pattern matcher (with both permutations of binary patterns, shared node tuple, Cartesian products of children entries), the plan table with one entry per condition, post-order numbering, `cover`, `has_plan`, `extract_plan`, generic in labels, conditions and costs; coverings as an inductive relation | invariant of the table during the matching of one operator (`matchP_sound`, `matchP_complete` by induction on patterns with the queue as continuation), then induction over the plan; optimality by monotonicity of `+` |
| C59 | `Sortedness` (implied_by, project_and_rename), the sortedness part of the pre- and post-conditions of all Wasm operators, and the order in which each operator passes on its rows; sorting and the order of hash-based groups are parameters | induction over plans: every announced order is true (`claims`), for plans whose projections and group keys keep a prefix of the sort order; the checks of the code do not guarantee that: counterexamples of admitted plans with wrong results. Partial because the full property is false |
| C60 | `Sema` for SELECT statements: designators, constants, calls, operators, nested queries, all clauses, stack of contexts; a nested query is a function from the stack of contexts to its analysis, the enumeration order of the hash table of sources a parameter | lookup functions characterised by a declarative notion of scope; induction over expressions, then clause by clause; counterexamples for crashes and for the order of `SELECT *`. Partial: no crash only for statements that call names and do not select or order by NULL |
| C61 | the same model; separate value semantics of analyzed expressions over a group of rows (`ev`) | induction over expressions: not vectorial ⇒ one value per group; no aggregates in WHERE and GROUP BY. Partial: correlated nested queries and aggregates inside vectorial expressions are excluded, counterexamples show that the code accepts them wrongly |
| C62 | `arithmetic_join` (with the constant log₂10 as an exact rational) and the typing of operators | case distinction, arithmetic on precisions for all precisions. Partial: false for decimals of different scale and for integer with decimal (counterexamples) |
| C63 | the code that `compile_data_layout_sequential`/`_point_access` emits (`inits`, `loads`/`stores`, `jumps`): pointers and masks per sibling group, executed on a byte memory | specification: `Kids.addrs` (address of a leaf for tuple t, by recursion over the layout tree). Invariant: every pointer/mask of a group stands for the bit address of the current tuple; induction over leaves, levels, groups and iterations. Stores: frame conditions on bits |
| C64 | the scan loop over C63's code with L lanes; `supports_simd`, `get_num_simd_lanes`, the choice of L | lane j of the batch at t has the addresses of tuple t+j if L divides the block size; induction over batches. Partial: false with double pumping (default), packed booleans, more than 32 attributes with NULLs, gaps between numbers (counterexamples as theorems) |
| C65 | `Buffer` (create, setup, consume, grow, resume, teardown) over C63's stores and C64's scan; point stores, swap proxy | invariant over consumed rows (tuple id, pointers, rows held, capacity = block · 2^j, contiguous memory), induction over rows and sessions; swaps by separation of tuples, permutation by `Equiv.swap`. Partial: finite buffers lose rows when re-entered non-empty and deliver rejected rows (counterexamples as theorems) |
| C66 | `PartialPlanGenerator`: the enumeration loops over candidate and decision stacks, the JSON writer, the static variable across queries | the loops equal a recursion over forests (`cuts`), sound and unique by induction over the forest; the file by a JSON reader and a prefix reader as specification. Partial: later files of one process are not JSON (theorem) |
| C67 | `GraphBuilder` for nested queries: `process_selection` with deferred clauses and additional grouping keys, the data sources for nested queries of WHERE, HAVING and SELECT, the lookup of `$res`, acceptance by `Sema` | the code equals SQL (a denotational specification with an environment for free variables and errors) for nested queries that are whole SELECT items without free variables, for every statement around them, up to the order of columns; theorems for all statements that the rest does not work |
| C68 | analysis and execution of data definition statements on a catalogue with addresses: databases, tables, attributes with constraints and references, indexes | refinement of finite maps keyed by names, by invariants over histories; for histories that drop no referenced table, no name twice in one statement, and create no `rmi` index on a type without one: no crash, the replies and schemas are those of the specification, rejected statements have no effect; theorems for what goes wrong otherwise |
| C69 | the three cardinality estimators on `size_t`, the model part of `PlanTable::update`, the file of injected cardinalities with its identifiers, the translation of filters for SPNs; the networks themselves are parameters | invariant over sequences of plan table updates (the model of a set of sources is a function of the set); induction over plans for the upper bound; identifiers are injective on names without `$`; double counting for joins of uniform columns; partial, because of overflow, aggregations of empty inputs, incomplete files, and the deviations of the SPN estimator |
| C70 | learning as a function of the data and of an arbitrary tree of decisions; inference over rational numbers; updates of leaves and networks; continuous leaves with bins | bins count the values of a column: an invariant of learning, insertion and deletion; mutual induction over the tree for exactness, bounds, distinct values and insertions; the answer of a continuous leaf and the fraction both lie between the fractions at two neighbouring bounds; partial, because updates go wrong for NULL, clusters and the lower bound |
| C71 | doubles as rationals with IEEE rounding to 53 bits (nearest-even and towards zero); integral types with their conversions; the odometer of `search` on arrays of counters | rounding is monotone and its error bounded; exact criterion for when the rounded product reaches the next half integer, hence strictly increasing points; the odometer counts in a mixed radix; partial, because 64-bit bounds, `2^32` steps and doubles violate it |
| C72 | memory as bytes or cells; the bit masks as 32-bit words; shuffles and draws as arbitrary functions (a permutation, within the bounds) | bits by cases over the byte of an address; induction over the passes of the filling loop; invariant: drawn numbers stay below the counter; inclusion–exclusion for the common values; partial, because the masks are wrong for six of eight alignments and an assertion is wrong for rows beyond the first |
| C73 | a range as a function from positions to elements; comparisons and limits of the type as arbitrary functions with stated laws; assertions as an outcome | invariant of the partitioning loop (what is left of begin is ≤ pivot, right of end ≥ pivot, the rest a permutation), strong induction on the length for the sort; termination as a fuel bound linear in the length |
| C74 | a store with variables of both pointer types, control blocks with a stored counter and a deleter, and a count of destructor runs; programs as lists of statements | a conservation law: destructor runs + blocks holding the object + unique pointers holding it + temporaries = 1 for every created object, and counter = number of references; each statement as a sequence of elementary updates that keep it |
| C75 | the translation as functions from graphs to texts; the meant statement as a tree of the parser; conditions in Kleene's logic | each part of the text consists of the tokens of the grammar of C37 (the printing lemmas of C37), then the round trip theorems of C36 and C37; induction over nested graphs |
| C76 | registration into lists and a map, the loop over the arguments with its effects, the number functions of the library as text functions | a grammar of command lines; soundness, completeness and failure of the loop by induction over the arguments; an invariant of registration; numbers as a relation between texts and integers |
| C77 | the loop with `find` and `replace` on positions, with fuel | a relation between texts for replacing from left to right; the loop by induction on the rest behind the position; characters as a map |
| C78 | the 32 bit encoding of dates, formatting with `setw` and `internal`, reading with `sscanf` and `>>`, the check of date constants | encoding by arithmetic on bit vectors; reading after printing by lemmas on padded digits; texts against the specification of the lexer. The theorem on negative decimals is a finding |

## 4. What is modelled and what is not

Modelled (one directory of `lean/Verif` per component; every definition cites file and lines):

| directory | code | not modelled there |
|---|---|---|
| Bitset | `SmallBitset`, `least_subset`/`next_subset`, `GospersHack`, `SubsetEnumerator` (ADT.hpp) | `_pdep_u64` is taken by its specification |
| Graph | `AdjacencyMatrix` (.hpp/.cpp), `MinCutAGaT` | printing |
| PlanEnum, Greedy | all enumerators of PlanEnumerator.cpp, `PlanTable::update` | hash-table representation of plan tables (a finite map); cardinality estimators (abstract); cost functions (abstract, with stated laws) |
| HSearch | `ai::search` (A*, beam variants), `SubproblemsArray` bottom-up/top-down expansions, zero and sum heuristics | other state representations and heuristics, GOO/scaled heuristics, floating-point rounding |
| CNF, SQL | `CNF.cpp`, the Boolean fragment of `Expr` | - |
| RWLock, Pool, Sched, MVCC | `reader_writer_lock.hpp`, `Pool.hpp`, `SerialScheduler.cpp`, multi-versioning of `Schema.cpp` | weak memory (mutexes and atomics are sequentially consistent) |
| HashMap, XorList, ListAlloc, LinAlloc, Index, Fn, Util, Schema | the containers, allocators, indexes, string and integer helpers, `Schema` operations | `mmap`, floating point of linear models (over the rationals) |
| Layout | `DataLayoutFactory.cpp`, `DataLayout`, linearisation used by scans, `RowStore`, `PaxStore`, `ColumnStore` | `PaxStore` with one row per block |
| StackMachine, Interp | `StackMachineBuilder`, `StackMachine` instructions, `Pipeline` operators | floating point; physical storage below scans |
| Lexer, Parser, DSV | `Lexer.cpp`, `Parser.cpp`, `ASTPrinter`/`ASTDumper` text, `DSVReader.cpp` | diagnostics text; conversion of float and date text |
| Insert | `Sema` of `INSERT`, `InsertRecords::execute`, `Tuple`, machine stores and casts, `StoreWriter::append`, compiled stores and loads of data layouts | floating-point columns; loads and stores as opcode sequences |
| IndexScan | catalogue of indexes, bulk loading, `IndexScan` of the WebAssembly backend (planner's test, bounds, seeks, fetching), host callbacks | floating-point and string keys; allocation of the buffer |
| QGraph | FROM/WHERE/HAVING part of `GraphBuilder`, `compute_adjacency_matrix`, `optimize_filter`, `optimize_source_plans`, `construct_join_order` | nested queries (see NestedQ), unification and decorrelation; annotations with estimates; physical operators |
| Deliver | `ProjectionOperator` (names), `Projection::execute`, `write_result_set`, `Buffer::consume` (what is stored when), `read_result_set`; the projection, printing and callback pipelines of the interpreter | bytes of the result set (C33, C49), machine code of expressions (C34, C48), formatting of single values |
| WasmAgg | `compute_aggregate_info`, the aggregate code of `HashBasedGrouping`, `OrderedGrouping`, `Aggregation`; types and nullability of aggregates (`Sema`, `FnApplicationExpr`) | rounding and overflow of floating-point numbers; hash table abstracted to a map (C46, C47); argument expressions given by a function (C38); unsupported case of two lanes with a running average treated like any other number of lanes |
| Tail | ORDER BY in `Sema`, `compute_projections_required_for_order_by` and the upper end of `Optimizer::optimize`, `Limit` of both back ends; projections of `Deliver` | resolution against grouping keys and sources a parameter; sorting a parameter (C35, C45); queries without sources |
| WasmJoin | `NestedLoopsJoin` (two children), `SortMergeJoin`, `HashBasedGroupJoin` of `src/backend/WasmOperator.cpp` | costs, pre-conditions (except the check of the keys of the group-join), generation of loads and stores; hash table as an association list (C46, C47); key columns of one type; NestedLoopsJoin with more than two children (its code generation does not terminate, finding 29) |
| Minimize | `SchemaMinimizer`, `Operator::minimize_schema` (`src/IR/Operator.cpp:331-582`), set operations of `Schema`; which schema every operator of both back ends addresses attributes with | types and constraints of entries; expressions (functions with their required identifiers; C34, C48); joins with more than two children; order of rows left open by hash tables and `std::sort` is a parameter |
| Constraints | constructors and `add_child` of all operators as far as constraints are concerned (`Operator.cpp:226-316`, `Operator.hpp:146-530`), `SchemaMinimizer` with `add_constraints` (`Operator.cpp:331-566`), `Schema::operator\|=`, `operator&`, `Expr::can_be_null`, unique hash join (`WasmOperator.cpp:4929-4965`, `:5136-5150`) | `REFERENCES_UNIQUE`, `IS_HIDDEN`; that dropping items keeps the others (C56); joins with more than two children; in debug builds a lost NULL is an assertion of the generated code |
| PhysOpt | `PhysicalOptimizer.hpp:43-122` (patterns), `:302-381` (optimizer), `:407-489` (physical operators), `:494-671` (matcher), `PhysicalPlanTable.hpp` (both), `assign_post_order_ids` and the post-order visitor (`Operator.hpp:81`, `:186-193`, `:594-606`), `InterpreterOperator.hpp/.cpp`, `SimpleHashJoin::cost` for fixed strategies | contents of conditions (parameters: equality and implication), the functions `pre_condition`, `post_condition`, `cost` of Wasm operators (parameters), ownership of matches, references to children entries, floating-point rounding (only a total order with monotone `+` is assumed) |
| SortCond | `Condition.hpp:31-84`, `:145-200` (Sortedness), `Condition.cpp:7-17`, in `WasmOperator.cpp`: conditions `:1246-1281`, `:1453-1475`, `:2229-2240`, `:2377-2401`, `:2518-2530`, `:2963-3007`, `:3893-3910`, `:4726-4746`, `:4787-4793`, `:4821-4836`, `:4969-4986`, `:5205-5280` | `Predicated`, `SIMD` conditions, evaluation of expressions (a row has a value for every identifier), the generated code (C43, C46, C53, C55 treat it), SMJ only with unique parent keys (C57) |
| Sema | `Sema.cpp:143-1335` (expressions and clauses of SELECT statements), `:1791-1813`, `Sema.hpp:20-75`, `AST.hpp` (`is_constant`, `contains_free_variables`), `Type.cpp:24-60`, `Type.hpp:160-176`, `:547-554` | texts of diagnostics and warnings, LIMIT, unique ids of bindings, labels of unnamed results beyond equality, rewriting of duplicate aliases, DDL and DML statements (only that INSERT analyzes its values in the stage FROM) |
| WasmLayout | `WasmUtil.cpp:552-1735`, `:1936-2469` (loads, stores, point loads), `:3335-3341`, `WasmUtil.hpp:1314-1327`, `DataLayout.cpp:29-94`, `:137-165`, `:172-263`, `WasmOperator.cpp:1228-1340` | 32/64-bit wrap-around of pointers and tuple ids, `Var` versus `Global`, addresses of entries (`tuple_addr_schema`), SIMD stores (point stores: WasmBuffer) |
| WasmBuffer | `WasmUtil.cpp:2492-2966` (Buffer), `:1942-2477` (point stores), `:2973-3090` (swap), `WasmOperator.hpp:594-603`, `:750-760` | SIMD stores, loads of buffers by ID (covered by C63's point loads), allocation by other code while a buffer grows (the code asserts it does not happen), 32-bit addresses |
| PartialPlan | `IR/PartialPlanGenerator.cpp:9-150`, `mutable.cpp:133-156`, `ADT.hpp:165` | computing the plan table (C17–C20), opening the file, escaping in JSON (the code does none) |
| NestedQ | QueryGraph.cpp:382-540, :1587-1866 as far as nested queries are concerned; `contains_free_variables` etc.; Sema.cpp:951-1010, :1121; WasmUtil.cpp:450-503; StackMachine.cpp:515-520 | what FROM and GROUP BY compute, given as rows and a function (C51, C53); CNF conversion (C17); nested queries in nested queries; the order in which hash sets are iterated; the implementations of joins |
| DDL | Sema.cpp:1419-1789, DatabaseCommand.cpp:226-345, Schema.cpp:59-99, Schema.hpp:617-1055 (tables, databases, indexes), Catalog.cpp:58-75 | several sessions; layouts and stores of tables; multi-versioning tables (C29); bulk-loading indexes (C50); analysis of conditions of CHECK (a number of errors); functions; hash maps of names |
| CardEst | `src/catalog/CardinalityEstimator.cpp:63-790`, `PlanTable.hpp:121-137`, estimates in `Optimizer.cpp:188-460` | learning and evaluating sum-product networks (numbers of distinct values and likelihoods are parameters), `float` rounding, parsing of JSON, costs |
| SumProd | `src/util/Spn.cpp`, `src/util/Spn.hpp`: leaves, inference, updates, estimates of distinct values, the loops of the learning algorithm | which columns and rows are separated (`RDC.cpp`, `Kmeans.cpp`; any choice is covered), `float` rounding, EXPECTATION, trees with continuous leaves (these are modelled by themselves), NULL in updates, `SpnWrapper.cpp` |
| Grid | `src/util/GridSearch.hpp:45-205`; `src/util/datagen.hpp:14-30` for integral types | `float`, subnormal and infinite bounds; printing; `std::shuffle` (any permutation) |
| StoreManip | `src/storage/store_manip.cpp`, `src/storage/store_manip.hpp` for integral types | floating-point columns, the dispatch on types in `generate_column_data` and `generate_correlated_column_data`, overflow of `size_t`; signed overflow wraps |
| QSort | src/util/algorithms.hpp: `verify_partition`, `partition_predicated_naive`, `qsort`, all of it, with its assertions | iterators as positions; `std::numeric_limits` as two elements with stated laws |
| Unshare | include/mutable/util/unsharable_shared_ptr.hpp on top of the reference counting of `std::shared_ptr` | the counting of the standard library is modelled, not verified; pointers to base classes, weak pointers and threads are not modelled |
| G2S | src/IR/QueryGraph2SQL.cpp, include/mutable/util/fn.hpp (`replace_all`) | a graph is what the translation reads of it; names of nested query expressions are printed without their number; the pool of strings and the output stream are not modelled |
| Args | include/mutable/util/ArgParser.hpp, src/util/ArgParser.cpp | floating-point options are not modelled; `stoi`, `stol`, `stoul` are modelled after the C standard for base 10 in the C locale; callbacks are recorded, not run |
| Html | include/mutable/util/fn.hpp (`replace_all`), src/util/fn.cpp (`html_escape`) | `std::string::find` and `replace` are modelled after the C++ standard |
| Calendar | src/IR/Tuple.cpp 20-55 (dates, decimals), src/backend/Interpreter.hpp 266-285, src/parse/Sema.cpp 409-474, include/mutable/util/fn.hpp 477-530 | `timegm`/`gmtime_r` (seconds to fields and back) and overflow of `int` in `sscanf` are not modelled; floats are not printed |
| WasmSort, WasmStr, WasmHT, WasmHash, WasmExpr | algorithms, strings, hash tables, keys, expressions of the WebAssembly backend | the V8 engine and Binaryen's optimiser; SIMD; memory layout of result sets; floating-point instructions (parameters) |

Not modelled at all: `Sema` for INSERT, UPDATE, DELETE and IMPORT beyond types, the choice of columns and clusters in sum-product networks (`RDC.cpp`, `Kmeans.cpp`) and `SpnWrapper.cpp`, the shell and argument parsing,
diagnostics, the catalogue's factories.

Common simplifications: unbounded memory unless the property is about memory; `M_insist`/`M_unreachable` violations are
explicit failures (`none`) in the models; undefined behaviour is modelled as an arbitrary value where it can be reached.

## 5. Findings

Places where the code violates the property as stated.  "Proved" names the theorem with the counterexample.

1. DPccp is not optimal: the breadth-first order of `for_each_CSG_undirected` visits a pair before one side is final (`C14_not_optimal`).
2. `reader_writer_mutex`: lost wake-up between `upgrade()` and `lock_write()` (`C20_lost_wakeup`); 16-bit counters (`C18_counter_overflow`); `upgrade_lock::upgrade()` keeps the read lock on failure although documented otherwise.
3. `RecursiveModelIndex::predict` clamps to `num_entries` inclusive and reads past the end (`C28_misses_existing_key`); `finalize()` twice appends models.
4. `SerialScheduler`: `push` dereferences `rend()` (`C32_order_depends_on_undefined_behaviour`); deadlock with multi-command transactions (`C32_deadlock`); aborted transactions are not undone (`C42_aborted_rows_visible_and_nested_unfiltered`).
5. `RefCountingHashMap::begin()` on an empty first slot (`C21_begin_of_empty_map`).
6. `ceil_to_pow_2`, `log2_floor` for 8/16-bit types (`C31_*_narrow`); `unescape` reads past a trailing escape character (`C30_trailing_escape`).
7. The empty `CNF` is neutral for `||` and `!` (`C17_empty_is_not_TRUE`).
8. `transitive_closure_undirected` is right for symmetric matrices only (`C07_undirected`).
9. `list_allocator` wraps huge requests (`C24_huge_request_wraps`); list iterators at an insertion point break (`C23_iterator_at_insertion_point_breaks`); pool counters wrap (`C39_count_overflow`).
10. `GospersHack` with k = 0 diverges; its portable branch counts 32 bits (`C04_zero_diverges`, `C04_portable_wrong`).
11. Data layouts: PAX with a byte budget can overlap, rows without reordering are misaligned, `DECIMAL(1)` has 4 bits, `PaxStore` admits more rows than its layout (`C33_*`).
12. Stack machine: NULL concatenation, NULL divisor, `%` on decimals, scaling overflow, more than 256 constants (`C34_*_counterexample`).
13. Interpreter: `Tuple::clone` clears NULL bits, so ORDER BY and joins turn NULLs of the copied tuples into values and a NULL build key matches the word beneath it (`C35_sort_null_counterexample`, `C35_join_null_counterexample`, `C35_hash_join_null_counterexample`); string keys are compared by address, so GROUP BY of a string puts every row in a group of its own and a hash join on strings finds nothing (`C35_string_groups_counterexample`, `C35_string_join_counterexample`); hash join loses rows below filters, AVG counts NULLs, SUM of nothing is 0, LIMIT 0, LIMIT+OFFSET overflow (`C35_*_counterexample`).
14. Lexer: dates unchecked, hexadecimal floats without digits, NUL truncates, backslash at the end (`C36_*`).
15. Parser/printer: IMPORT without ESCAPE/QUOTE, nested queries lost, NULL lost, `DECIMAL(p, 0)` rejected, error tokens accepted, `a NOT b`, sizes truncated (`C37_*`).
16. DSV: eight defects (`C38_*`).
17. Heuristic search: missing braces let a state's cost grow (`C40_beam_raises_cost`). Greedy enumerators fail on unconnected graphs and infinite costs (`C16_unconnected_fails`, `C16_infinite_fails`).
18. Multi-versioning: nested queries unfiltered, aliases not found (`C42_*`).
19. Wasm sort: predicated comparison overflows and compares garbage of NULLs; nullable strings (`C43_*`).
20. Wasm strings and LIKE: (`C44_varchar_literal`, `C44_nonascii`, `C44_cached_direction`, `C44_concat_char`, `C45_*`).
21. Wasm hash tables: rehash of the chained table loses keys (`C46_chained_growth`); zeros, NaN, dirty strings, 256 columns, INT joined with DECIMAL (`C47_*`).
22. Wasm expressions: `a / NULL` traps, predication evaluates projections of other rows, narrow integers, `AND`/`OR` evaluate both sides, `%` on floats (`C48_*`).
23. INSERT: `NULL` goes to the wrong column of a multi-versioned table, `DEFAULT` and `NULL` keep the value of the row before, `DEFAULT` for a `NOT NULL` column stores nothing and garbage is read, values out of range are reduced, a full store leaves a prefix (`C49_*`).
24. Index scans: IMPORT, and an INSERT that fails half-way, leave stale indexes in use; `x < 5 AND y > 3` with an index on `x` only is answered with `3 < x < 5` (release) or aborts (debug); constants are not scaled for DECIMAL keys; constants out of the range of the key type wrap around (release) or abort (debug), `x >= -128` on INT(1) aborts; floating-point constants are read as bits; unsatisfiable ranges abort, or run past the end of the index with INTERPRETATION; an alias aborts in the debug build; EXPOSED_MEMORY with a recursive model index always fails (`C50_*`). By reading only: for string keys the callback names are misspelled (`IDNEX`, WasmOperator.cpp:1510), the callbacks are declared with 32-bit results but called with 64-bit ones.
25. FROM and WHERE: WHERE without FROM is ignored (`SELECT 1 WHERE FALSE` yields a row, `C51_where_without_from_ignored`); a Cartesian product (sources not connected by clauses over two sources) gets no plan from the default enumerator and aborts or, without assertions, silently reads only the first source (`C51_unconnected_fails`); a clause over three sources raises an exception (`C51_ternary_clause_fails`).
26. Delivery of results by the compiled back end: with a finite result-set window and predication, a rejected row that meets a buffer with one free slot is delivered (`C52_window_predication`); below a callback exactly one unaliased constant among other columns shifts the values of the row (`C52_callback_constant_first`) or is NULL from the second row on (`C52_callback_constant_cleared`); a projection takes a column of the row below if it has the *alias* as name, so `SELECT x AS y, y AS x ... GROUP BY x, y` does not swap (`C52_alias_shadows`); of two items with the same alias the second shows the value of the first (`C52_same_alias`). The interpreter is right in all these cases.
27. Aggregates of the compiled back end: with predication and an argument that cannot be NULL, an aggregate without grouping is not NULL when no row qualifies but MAX/MIN/0 of its type (`C53_no_qualifying_row`); a running average (64-bit argument) whose first row is rejected is NaN for ever (`C53_running_average_nan`, `C53_ordered_average_nan`); MIN of +∞ and MAX of −∞ are the largest finite numbers except with hash-based grouping (`C53_min_infinity`, `C53_max_infinity`); AVG of a DECIMAL is not scaled (`C53_decimal_average`).  Not proved, seen while reading: `compute_aggregate_info` dereferences an empty optional for a running AVG (WasmOperator.cpp:922); `GroupingOperator` tests the size of a moved-from vector (Operator.cpp:266).
28. SELECT/ORDER BY/LIMIT: `LIMIT 0` is ignored (`C54_limit_zero_defect`); limit + offset overflows (`C54_limit_overflow_defect`); a scalar function in ORDER BY of a column that is not selected is projected as a whole, while its argument is looked up (`C54_function_compiled_defect`, nested also in the interpreter `C54_function_interpreter_defect`; of an alias in both `C54_function_alias_defect`); a column ORDER BY uses twice is projected twice, and the interpreter throws (`C54_twice_defect`); `SELECT x, x … ORDER BY y` makes the interpreter throw (`C54_select_twice_defect`).  Not proved, seen while reading: making duplicate aliases unique in `Sema` changes a copy (Sema.cpp:1141-1155); a query without FROM ignores WHERE, ORDER BY and LIMIT (Optimizer.cpp:193).
29. Joins of compiled code: the sort-merge join on several columns loses pairs, because it advances the right input only if the right key is at most the left one in *every* component (`C55_composite_keys_lose_pairs`), and it relies on uniqueness of the left keys, which INSERT does not enforce (`C55_duplicate_keys_lose_pairs`). The group-join compares grouping keys and build keys as sets but stores the values in the order of the join predicate: `GROUP BY` in another order swaps the columns (`C55_group_join_swaps_keys`), repeated grouping keys are accepted and split groups (`C55_group_join_duplicate_keys`). Its probe phase ignores predication: rejected rows are counted (`C55_group_join_counts_rejected`). By reading only: the code generation of `NestedLoopsJoin` with more than two children recurses without end, since the pipelines of the middle buffers refer to `buffers.back()` when it is their own buffer.
30. Dropping unused columns: a filter or sort keeps the tuples of its child but declares the columns required above, in the order of the requirement. If the child is a projection, grouping or aggregation (a filtered derived table), the tuples have other columns in front; groupings and aggregations of the interpreter nevertheless compile their expressions against the declared schema: `SELECT A.y, COUNT(*) FROM (SELECT x, y FROM T) AS A WHERE A.x > 0 GROUP BY A.y` groups by `x` (`C56_group_counterexample`), and joins copy too few entries and read behind the end of the copy (`C56_join_counterexample`). The same identifier twice below ORDER BY raises an exception (`C56_duplicate_counterexample`). Minimizing again, after physical optimization, violates an assertion if all aggregates were dropped the first time, e.g. `SELECT 1 FROM (SELECT COUNT(*) AS n FROM T) AS A` (`C56_twice_counterexample`).
31. Constraints in plans: `can_be_null` of `MIN/MAX/SUM/AVG` looks at the argument only, so `SELECT SUM(x) FROM T` with `x NOT NULL` shows a value instead of NULL if `T` is empty (`C57_sum_counterexample`). Minimization adds the constraints of an input column that has the same *name* as a projected item or key: `SELECT MAX(v) AS k FROM T GROUP BY k` shows values instead of NULLs (`C57_alias_counterexample`), `SELECT T.j, S.y FROM (SELECT v AS k, k AS j FROM T) AS T, S WHERE T.k = S.x` loses rows in a unique hash join (`C57_derived_counterexample`). A grouping by one key is not recognized as unique because the size of a moved vector is asked (`C57_single_key`).
32. Physical optimizer: a NaN cost hides all other plans with the same condition and `get_plan_entry` dereferences an unset iterator (`C58_nan_cost_hides_plans_counterexample`; `SortMergeJoin::cost` is NaN for an estimated cardinality of 0); operators not yet matched are not `nullptr` in the second permutation (`C58_stale_nodes_counterexample`; no current operator looks at them); `--hash-join-ordering-strategy` has no effect because the children of a match are listed in the order of the match (`C58_hash_join_ordering_option_has_no_effect`).
33. Sortedness: a projection on a non-leading sort key announces "sorted by that key" and a following ORDER BY is dropped (`C59_bug_projection_drops_leading_key`); `OrderedGrouping` is accepted for any subset of the sort keys, so groups are split (`C59_bug_grouping_by_non_prefix`: `SELECT b, COUNT(*) FROM (SELECT a, b FROM T ORDER BY a, b) AS S GROUP BY b`; with cost 1.0·n it is preferred over hash-based grouping with 1.5·n); `GROUP BY b, a` on rows sorted by a, b announces "sorted by b, a" (`C59_bug_grouping_reorders_keys`); `implied_by` compares positions that attributes without direction shift (`C59_bug_implied_by_positions`); a merge join that sorts one side demands some sortedness of the side it sorts itself (`C59_merge_join_overly_strict`).
34. Semantic analysis, crashes: a call of something that is not a name (`SELECT 42(1)`) dereferences a null pointer (`C60_bug_call_crashes`); `SELECT x FROM (SELECT NULL AS x) AS Q` and `SELECT NULL AS x FROM T ORDER BY x` cast the type of NULL to a primitive type (`C60_bug_null_column_crashes`, `C60_bug_order_by_null_crashes`); every function call among the values of INSERT is unreachable code (`C60_bug_call_in_insert_crashes`). The column order of `SELECT *` over several sources is that of a hash table (`C60_bug_star_order`).
35. Semantic analysis, grouping: `SELECT SUM(a) + b FROM T` (`C61_bug_mixed_expression`), `SELECT SUM(a) FROM T ORDER BY b` (`C61_bug_order_by_column_of_aggregate`), a nested query in HAVING that refers to a column that is no key (`C61_bug_correlated_having`), `SELECT (SELECT ISNULL(1) FROM S) FROM T` (`C61_bug_nested_many_rows`) and `SUM(SUM(a))` (`C61_bug_nested_aggregate`) are accepted; `SELECT T.a FROM T GROUP BY T.a` is rejected (`C61_qualified_key_rejected`).
36. Types: DECIMAL(5,0) + DECIMAL(5,5) has type DECIMAL(5,5), whose values are below 1 (`C62_bug_decimal_scale`); INT(4) + DECIMAL(3,2) has type DECIMAL(9,2), into which 2000000000 does not fit (`C62_bug_integer_decimal`).
37. Compiled data layouts (read off while modelling C63, not proved as theorems): layouts with leaves directly below the root call `levels.back()` on an empty stack; the point access uses up the expression `tuple_id` in the first sibling group, so only layouts with one group of leaves work; the PAX factory with one row per block creates leaves with a stride in a node of one tuple, against the assertion of `add_leaf`.
38. SIMD scans (C64): with double pumping (default on) the number of lanes doubles, but only divisibility by the single number is checked: phantom rows at the end (`C64_bug_double_pumping_phantom_rows`), wrong rows at block boundaries (`C64_bug_double_pumping_blocks`; also the default layout PAX4M has 838860 = 4·odd INTs per block); booleans with single-bit stride are admitted but not advanced correctly (`C64_bug_packed_booleans`); the mask of NULL bits has 32 bits (`C64_bug_null_mask`); gaps between numbers are not excluded (`C64_bug_number_stride`).
39. A global finite buffer that is re-entered while not empty (its producer is executed again, e.g. below another finite buffer: `--soft-pipeline-breaker AfterScan,AfterFilter` with a number of tuples, or a windowed result set above such a breaker) does not initialise its pointers, because `inits` is only executed for size 0 (WasmUtil.cpp:2924-2928): rows are written near address 0 and stale memory is delivered (`C65_bug_finite_second_session`).
40. With predicated selection, a finite buffer with one free place delivers a row whose predicate is false (WasmUtil.cpp:2953-2958, `C65_bug_finite_predicated`).
41. The partial-plans file of every query but the first in a process starts with `[,` and is not JSON: `static bool is_first` is never reset while the file is rewritten per query (PartialPlanGenerator.cpp:124, mutable.cpp:133-156, `C66_bug_later_files`).
42. No statement with a nested query in WHERE can be executed: back ends look for a column `$res`, which only nested queries in SELECT and HAVING get (`C67_bug_where_never_works`).
43. No statement with a nested query in HAVING can be executed: the whole condition becomes a filter below the join with the nested query (`C67_bug_having_never_works`).
44. A nested query inside a SELECT item (`1 + (SELECT …)`) never becomes a data source; execution fails (`C67_bug_inside_expression_never_works`).
45. Items of SELECT that are nested queries are delivered after all others (`C67_bug_column_order`).
46. Conditions of a nested query in SELECT on columns of the enclosing query are forgotten; with an equality the nested query yields one row per value, so that rows of the enclosing query are multiplied (`C67_bug_correlation_forgotten`, `C67_bug_correlated_select`).
47. In a nested query with an aggregate, an equality whose sides both refer to the enclosing query fails an assertion (`C67_bug_both_sides_free`).
48. `(SELECT ISNULL(1) FROM B)` is admitted as a scalar; it multiplies or removes the rows of the enclosing query (`C67_bug_several_rows`).
49. DROP TABLE of a table that another table refers to is accepted; any later use of the other table follows a dangling pointer, Schema.cpp:92 (`C68_bug_drop_referenced`).
50. `DROP TABLE a, a` and `DROP INDEX i, i` report an error and have an effect (`C68_bug_drop_twice`).
51. `CREATE INDEX … USING rmi` on an attribute of type CHAR: neither a command nor an error, which fails an assertion (SerialScheduler.cpp:150, `C68_bug_rmi`).
52. CHECK constraints are analysed and forgotten (`C68_bug_check`); PRIMARY KEY does not imply NOT NULL (`C68_bug_primary_key`); a table cannot refer to itself (`C68_bug_self_reference`).
53. Estimates are products of `size_t` that wrap around: joining two tables of 2^32 rows is estimated to give none (`C69_bug_overflow`); an aggregation over no rows, and a query without sources, have one row and are estimated to have none (`C69_bug_aggregate`, `C69_bug_no_sources`).
54. `InjectionCardinalityEstimator::estimate_join_all` without an entry multiplies the first source twice, CardinalityEstimator.cpp:364-368 (`C69_bug_join_all_first_twice`); with an incomplete file the estimates depend on which join is enumerated first (`C69_bug_incomplete_file`); identifiers collide on `$` and `#` (`C69_bug_dollar`, `C69_bug_hash`).
55. `SpnEstimator`: the filter translator ignores on which side the constant is, negation, and all but the first condition on an attribute, and takes `x < y` for a comparison with the previous constant (`C69_bug_constant_left`, `_negation`, `_second_condition`, `_two_attributes`); `<>` and OR abort (`C69_bug_unsupported`).
56. `SpnEstimator::estimate_join` divides by zero if a side is estimated to have fewer rows than distinct values, and if the product of maximum frequencies, computed in an `int`, is a multiple of 2^32 (`C69_bug_division_by_zero`, `C69_bug_int_product`); `estimate_join_all` looks at the first condition only (`C69_bug_join_all_conditions`); groupings ignore filters (`C69_bug_grouping_exceeds`).
57. `Spn.cpp`: the switch statements for continuous leaves have no `break`: the approximation and the upper bound are the lower bound (`C70_bug_eval_type`, `C70_bug_upper_bound`); EQUAL reads and decrements an iterator in unsequenced operands (:406).
58. Updates of networks: deleting the least value of a continuous leaf adds one (`C70_bug_delete_lower_bound`); the bounds of a leaf learned from NULLs stay 0 (`C70_bug_continuous_null`); the probability of NULL does not change (`C70_bug_null_stale`), nor does the number of distinct values (`C70_bug_distinct_stale`); a sum below a sum counts an inserted row twice, so that probabilities no longer add up to 1 (`C70_bug_nested_sums`); a deletion increments the numbers of rows of sums (`C70_bug_delete_adds`); deleting a value greater than all in a discrete leaf dereferences `end ()` (:333), deleting the last value divides by zero.
59. `SpnWrapper.cpp` hashes the address of a string instead of its characters, and leaves columns of decimals, Booleans and dates uninitialised (seen while reading, not modelled).
60. `LinearSpace` computes in `double`: for 64-bit types, `2^60` and `2^60+1` are the same point, so `generate_uniform_distinct_numbers` returns duplicates, and the last point of a space over `int64_t` is 2046 below its bound (`C71_bug_wide_*`).
61. `LinearSpace::sequence` with `2^32-1` steps and `generate_uniform_distinct_numbers` with `count = 0` do not terminate; counts above `2^32` are truncated (`C71_bug_sequence_diverges`, `C71_bug_count_*`).
62. `LinearSpace<double>(0,1,n)` need not reach 1: the step is rounded towards zero (`C71_bug_double_end*`; the space of selectivities of the cost model is an instance).
63. `GridSearch::num_points` multiplies in `unsigned`: a grid of `2^32` points has 0 of them (`C71_bug_num_points`).
64. `set_all_null` and `set_all_not_null` use the mask for the complementary number of bits: wrong for six of eight alignments of the first and the last row, respectively (`C72_bug_set_all_null`, `C72_bug_set_all_not_null`); rows within one byte are rejected (`C72_bug_same_byte`).
65. `fill_uniform` and `generate_numeric_column` fail their final assertion whenever the first row is not row 0 (`C72_bug_fill_assertion`), as in the training of the cost models; without values they do not terminate (`C72_bug_fill_nothing`).
66. `generate_distinct_numbers`: the assertion wraps around and accepts ranges that are too small, and rejects some that are wide enough (`C72_bug_distinct_*`).
67. `generate_correlated_column_data` treats floating-point columns as integers, and `CostModel.cpp:242` passes the bounds of the range of rows in the wrong order (read, not modelled).
68. `partition_predicated_naive` never returns if neither end advances: an element comparable to nothing (a NaN) keeps `begin < end` for ever (`C73_bug_nan_diverges`).
69. `verify_partition` starts from `lowest()` and `max()`, which do not bound the infinities: sorting three times minus infinity fails the assertion of a debug build (`C73_bug_infinity`).
70. An `unsharable_shared_ptr` made from a null pointer has a control block; if it was copied, unsharing throws "not exclusive" although there is nothing to unshare (`C74_bug_null`). Also (read, not modelled): the templated constructor `unsharable_shared_ptr<T>(Y*)` deletes the object as a `T` at the address of the `Y`, which is wrong if `T` is not the first base of `Y`.
71. `QueryGraph2SQL` fails an assertion for a table without an alias (`C75_bug_no_alias`), gives different aggregates the same name (`SUM(a.b)`, `SUM(a_b)`: `C75_bug_same_name`), writes the alias of an unaliased projection `a + b` as `_a_+_b_` (`C75_bug_operator_name`), writes nested query expressions as `$q_._res` (`C75_bug_nested_name`), takes every function in a condition for an attribute of a grouping (`C75_bug_function_in_condition`), and writes an offset without a limit as `LIMIT 0` (`C75_bug_offset_without_limit`).
72. `ArgParser` accepts trailing garbage in numbers (`12abc` is 12: `C76_bug_trailing`), negative numbers for unsigned options (`-1` is 2^64 - 1: `C76_bug_negative`), takes unknown short options (`C76_bug_unknown_short`) and the arguments of unknown options (`C76_bug_unknown_argument`) for positional arguments.
73. `replace_all` with an empty pattern does not terminate (`C77_bug_empty`). Also (read, not modelled): a moved-from `dyn_array` (`include/mutable/util/ADT.hpp`) keeps its size but has no data, and its copy constructor constructs elements over elements that were already constructed without destroying them.
74. `Value::print()` of a negative decimal with a fraction puts the minus sign behind the point (−1.50 is printed as `-1.-50`, −0.05 as `0.-5`; `C78_bug_negative_decimal`). 29 February is accepted in every year (`C78_bug_leap_year`). Dates in DSV files are not checked: month 16 runs into the year (`C78_bug_month_overflow`), and year 0 is accepted and printed with five digits (`C78_bug_year_zero`). Also (read, not modelled): the datetime 1969-12-31 23:59:59 fails an assertion, since -1 is taken for an error of `timegm`.

Found by reading, not proved: `is_equi` accepts a negated `!=`;
ORDER BY NULL violates an assertion in the interpreter; `INT(x)` has no case in `Sema`; `Constant::is_integer` tests
`TK_HEX_FLOAT` instead of `TK_HEX_INT` (AST.hpp:231); `arithmetic_join` divides the bytes of an INT by 8 (Type.cpp:51).
