# Formal model of candy-kingdom (Lean 4)

## 1. Trusted base

* Lean 4.33.0 kernel. Axioms used by theorems: at most `propext`, `Classical.choice`,
  `Quot.sound` (checked with `#print axioms`). No axiom, `sorry`, `native_decide`, `bv_decide`,
  `implemented_by` or `unsafe` is used.
* The reading of the C++ source: every definition in `lean/Verif/Model/*` cites the file and
  lines it models. The code was never compiled or run.
* The specification (`lean/Verif/Spec.lean`): literals, clauses, assignments, satisfaction,
  entailment. It is meant to be read in two minutes.

### What the model keeps and what it simplifies (global conventions)

* `Lit` in the model is a pair (variable, sign). `Verif/Model/LitBits.lean` models the actual
  32-bit encoding with `BitVec 32` and proves that the two agree in the supported range.
* `std::vector<T>` indexed by variables is a function on `Nat` or a `List` with explicit
  bounds; where the property is about bounds, the model returns a distinct `none`/`ub` outcome.
* Clause pointers are clause identifiers (`Nat`) into a store. In-place reordering of clause
  literals (`swap`) is an update of the store.
* Heuristic choices (branching order, activity, restart trigger, termination callback, random
  numbers) are universally quantified oracles/parameters. Floating point is not modelled;
  centralities (C70) are computed with rational numbers.
* Mathlib is used for finite sums and cardinalities in C70 and C71 only.
* Threads are modelled as interleavings of single reads and writes with sequentially consistent memory (C58); that their data races are undefined behaviour in C++ is not modelled. Clause memory shared by solvers (switched off in `main`, available through the interface) is a separate transition system (C64). Wall-clock time, memory limits and I/O errors are not modelled.

## 2. Layout

* `Verif/Spec.lean`               specification vocabulary: literals, clauses, models, entailment
* `Verif/SpecDimacs.lean`         which texts represent which formulas
* `Verif/SpecMd5.lean`            MD5 as described by RFC 1321, with test vectors of the RFC
* `Verif/SpecRup.lean`            unit propagation, RUP, RAT and checking a certificate
* `Verif/SpecOptions.lean`        what command line arguments mean
* `Verif/SpecShared.lean`         schedules of solvers that share clause memory
* `Verif/SpecBuilder.lean`        which solver the options ask for
* `Verif/SpecInputDeps.lean`      on which inputs a gate depends, and in which round it is due
* `Verif/SpecRandomization.lean`  what strategies of randomisation promise
* `Verif/SpecPaged.lean`          what a paged memory holds, and where
* `Verif/SpecBetweenness.lean`    paths, shortest paths and betweenness centrality of a graph
* `Verif/SpecDistance.lean`       distances, eccentricities, diameter, radius, periphery and center of a graph
* `Verif/SpecDistances.lean`      numbers, sums and averages of distances in a directed graph
* `Verif/SpecEdges.lean`          numbers of edges and of mutual edges in a directed graph
* `Verif/SpecTriangles.lean`      neighbours, triangles, wedges and clustering coefficients in a graph
* `Verif/SpecPageRank.lean`       the equations of PageRank, the values after a number of rounds
* `Verif/SpecScc.lean`            paths in a directed graph, strongly connected components and their sizes
* `Verif/SpecAiger.lean`          and-inverter circuits in the format AIGER: values, format, functions
* `Verif/Model/*.lean`            the model, function by function, with citations
* `Verif/Proofs/*.lean`           helper lemmas
* `Verif/Props/*.lean`            the property theorems, with non-vacuity examples and, where
                                  the code violates a property, a machine-checked witness
* `MANIFEST.json`                 which theorems state which property
* `seeded/LOG.jsonl`              wrong programs the theorems were tested against

## 3. Plan per property

| Id | Model | Proof idea |
|----|-------|------------|
| C01 | `BitVec 32` literal encoding, all operators | bit-vector laws by arithmetic (`omega`), injectivity |
| C02 | `lbool` as `UInt8`/`Fin 256` patterns with the table constants | case analysis over the reachable bit patterns (finite table) |
| C03 | `readClause` = sort, max, unique, tautology test, push | permutation/sortedness lemmas, fold induction over clause list |
| C04 | printer and tokenizer on `List Char` | round trip by induction on clauses and digits |
| C05 | `readInteger` on characters with `strtol` contract | decimal value lemma; overflow witness for `abs(plit)-1` |
| C06 | stream buffer with refill, chunked | simulation between the buffered reader and the plain list |
| C07 | `checkResult` | direct |
| C08 | result object as list with growth | fold over history |
| C09 | renaming with association map | injectivity of the map, transport of models |
| C10 | `Trail` operations | inductive invariant over operations |
| C11 | `propagate` with binary and long watch lists | invariant: reason clauses are implied and unit at the time |
| C12 | same | two-watched-literal invariant through propagate/backtrack/learn |
| C13 | `analyze`, `minimization`, `litRedundant`, binary minimisation | resolution invariant over the first-UIP loop |
| C14 | same + `handle_conflict` | counting invariant for `pathC`, position of second literal |
| C15 | same | marks invariant |
| C16 | `analyzeFinal` | implication-graph walk |
| C17 | `computeLBD` on stamps | fold invariant; out-of-bounds witness |
| C18 | `reduce` | filter/partition lemma |
| C19 | `search`/`solve` as transition system | all clauses created are implied; level-0 conflict |
| C20 | same | watch invariant + all variables assigned; partial where elimination is on |
| C21 | same | C16 + emptiness of the conflict |
| C22 | term callback as oracle | invariant holds at every step |
| C23 | IPASIR-level machine | refinement |
| C24 | `subsumes`, `subsume` | signature lemma, model-set equality |
| C25 | `eliminate`, reconstruction | Davis-Putnam argument; witnesses for the incremental defects |
| C26 | `merge` on sorted lists | induction on both lists |
| C27 | `reduce(var)` | RUP argument |
| C28 | `DRATChecker` | RUP/RAT soundness |
| C29 | certificate log in the solver machine | RUP-implied invariant |
| C30 | IPASIR wrapper | state machine; models over the three kinds of histories for which C20 is proved |
| C31 | `Stamp` with counter in `[min,max]` | refinement to a set |
| C32 | `bqueue` | sliding-window invariant; pop defect witness |
| C33 | `Heap` on lists with index table | heap invariant |
| C34 | pages of clause records | list filter |
| C35 | VSIDS, LRB and implicit-learning bookkeeping on top of the heap contract | invariant |
| C36 | gate encodings | semantics by cases, induction on inputs |
| C37 | `BlockList` | list reasoning |
| C38 | pattern check | semantics |
| C39 | the two-phase depth-first traversal with its stack | invariant: backtracked, on the stack, or not reached |
| C40 | simulation vectors per lane; the non-recursive and the recursive clause order, the latter with gate filters | fold over gates; induction over the depth of recursion |
| C41 | the partition with its hashes and compression in arbitrary rounds | invariant: entries are a function of the history of a variable |
| C42 | the two maps of implications, the work queue, the two walks | the maps represent a cycle through a list; a step replaces a path by an edge; induction over the queue, then over calls |
| C43 | the strategy with its assumption literals and index maps, the loop of the solver; heuristics are arbitrary, except for the garbage collector heuristic | ghost list of encoded items aligned with the assumption literals; the loop reduces to one call, so that every history for which C20 is proved gives a theorem (C19, C20) |
| C44 | purification, both loops with the calls of the solver (plain usage of C20, C21), counter encoding, translation, pruning and projection | invariant of the loop: the current set hits every purified clause and every earlier cardinality clause follows; the set shrinks with every SAT answer |
| C45 | MD5 with its buffer and all 64 steps on `BitVec 32`, both hashes | MD5 as in RFC 1321 (`SpecMd5`); invariant: complete blocks processed, rest stored; unique decoding of the hashed text; closed form of the degrees |
| C46 | restart policy over `bqueue` | state machine |
| C47 | search loop with fuel; all loops of `solve` with fuel | lexicographic measure: numbers of literals per decision level, read as digits in base n+1, grow with every iteration; the other loops by measures on clause databases; for both propagators |
| C48 | 16-bit length/weight | `BitVec 16` witness and bounded-length theorem |
| C49 | the vectors of trail, watch lists, clause store and stamps as lists of fixed length with checked accesses; search, main loop, reduction, values of eliminated variables on them; occurrence lists, subsumption, asymmetric variable reduction and variable elimination on vectors (`Model/ArraySimplify.lean`) | simulation by the model of the search; invariants bound variables, clause references, levels and the length of the trail; witnesses |
| C50 | exit-code logic | case analysis |
| C51 | the analyzer as a function with fuel for the breadth-first search | ghost list of clause positions in the index; invariant |
| C52 | the same; ghost list of outputs in the order of recognition | pairwise independence of later gates; induction over the order |
| C53 | `getPrunedProblem` and `mimimizeModel` with all flags, on the result of the analysis; marks of inputs added to the invariant of the analysis | invariant of the traversal (closed under satisfied inputs, entered gates are reached by a satisfied literal or are not monotonic); outputs of visited gates keep the value of the model, the others are computed in the order of recognition; backward clauses by left-totality and by the uniqueness check |
| C54 | `Solver::clear` (certificate and callbacks counted from the last `clear`) | without elimination the cleared state differs from a new one only in what `solve` overwrites first; equality of whole runs |
| C55 | `StaticPropagate` (watchers in a table, lists of indices), the search loop and the rounds of `solve` with it | invariant: each entry of the table watches two different literals of its clause and is exactly in their two lists; soundness and completeness by induction on the loop; clauses of up to two literals by the proofs for C11/C12 |
| C56 | as C55, then the whole of `solve` with the static propagator: preprocessing, inprocessing, asymmetric reduction, elimination | invariant over rounds, calls and histories; the steps of simplification are those of C24-C27 with another propagator; SAT side as for C20; agreement with C23 |
| C57 | `normalizeRoots`, all of `AIGProblem` (stack of literals, n-ary and binary gates, printing with the vector `negate`), `main` of cnf2aig after reading | AIGER in `SpecAiger`; invariant of the stack: registered literals are gates or inputs, one n-ary gate per visited literal; gates acyclic (C52), so values exist and are unique; outputs used in one sign only, so the circuit's values give a model; number of literals still to register decreases |
| C58 | `runSolverThread`, the part of `main` for several threads, signal handler; every access of `result`, `solver`, `solvers.size()`, `interrupted` is one step | transition system `PfReach`, invariant by induction over steps: every value of `result`, every line printed and the exit status come from a run of some thread; without interruption `result` changes only once. Results of threads by C19, C20, C56. Witness schedules for the findings |
| C59 | advice entries, initialisation with conjectures, advice for literals and signs, budgets, half-life, xorshift generator; embedded in `Branch`, so the search of C35 is the search with implicit learning | invariant over all calls (`Rsil.Reach`, `Rsil.Calls`): entries come from conjectures, budgets account for uses, the mask is `2^(n/H) - 1`; disjointness of the conjectures from C41. Witnesses for half-life and `clear` |
| C60 | `Graph` of teexgraph (numbering of nodes, edges, `makeUndirected`), the table of centralities (its size and index; the values are part of the arbitrary order), `process_reduce` in the main loop of `solve` | invariant of the construction: edges are the pairs that share a clause; generic invariant of the whole solver (`AllK`): a property of clauses that is kept by permuting, dropping literals and resolving holds of all clauses after search, reduction and simplification; instances: nonempty, and variables of clauses with two or more literals are in the table. Reasons above level 0 are such clauses. Witnesses for new variables and `clear` |
| C61 | the certificate lines written by the existing model of the solver; `SpecRup.lean` defines unit propagation as an inductive predicate, RUP, RAT and checking of a certificate with deletions of single copies | invariant along search, `materialize`, `reduceDB` and `init`: all stored clauses that are not deleted are present in the checker, and every literal assigned at level 0 or propagated is derived by unit propagation from the present clauses and the decisions; every resolution step of conflict analysis and minimisation is covered by following the reasons backwards along the trail. Witness (24 clauses) for the failure after variable elimination |
| C62 | `strstr`, `strtol` with conversion to 32 bits, `strncpy`, `parse` of the five kinds of options, `parseOptions` with its array `argv` changed in place and the uninitialised variable as a parameter, all options of CLIOptions.cc; `double` is an arbitrary type with arbitrary `strtod` | `SpecOptions.lean` says what arguments mean; round trip: writing arguments and parsing them gives the values and file names, by induction over the arguments; a pattern `-name=` fits only one name |
| C63 | The methods of `CandyBuilder`, `createSolver`, `getRSILMode`, `createRSARSolver` with the outcome of gate analysis and conjectures as parameter, the selection in `main` and in `runSolverThread`; the option values read from the parsed command line (C62), and the global option variables that threads share (C58), including those that gate analysis overwrites. Spec (`SpecBuilder.lean`): `Fulfils` says what kind of solver the options ask for. By cases over the options; for threads by an invariant over all schedules. Partial: the modes `vanishing` and `implicationbudgeted` are swapped, the advice size is ignored or drops the choice, unsuitable problems end in a null pointer (all proved). |
| C64 | `ClauseAllocator` with a global allocator, its pages, lock, list of facts, readiness flags, list of old pages; `createClause`, `removeClause`, `reorganize`, `setGlobalClauseAllocator` of `ClauseDatabase`. Every section under a lock and every access outside is one step of a thread; any number of threads. A clause allocated but not constructed is a cell of its own kind, page numbers are never used again, so freed memory is recognised | invariant over all steps of all schedules: pointers that a working thread holds lead into pages that are still allocated, cells under construction are known to their thread, each clause of the problem is in every thread's list; witness schedules for the three races |
| C65 | `countInputDependencies`, `getDirectlyNestedGates`, the sets of `InputDepCountRefinementHeuristic`, its marks in a round of the refinement strategy of C43, interleaved with arbitrary marks of other heuristics. Null pointers and self-insertion of a set are undefined behaviour. | Loop invariant over the topological order (C39, C52): the set of a gate holds the inputs that its counted gates depend on. Invariant over rounds: what was due is gone, later sets are unchanged. That no variable is in two conjectures is a hypothesis (needed: `InputDeps.C65_twice_fails`; without hash collisions it holds for conjectures from simulation, C41). |
| C66 | the strategies of `Randomization.cc` on vectors of 32 words, with the generator as it is; 32-bit arithmetic, division by zero and indices out of range are undefined behaviour. Chances are counted over all values of the bits that are combined | induction over the fields and over the history of calls: closed form for every bit as a disjunction or conjunction of numbers at distinct positions of the sequence |
| C67 | `ensureInitialized`, `runImpl` with the models of C39, C40, C41 and C66; uninitialised memory is arbitrary; the floating-point heuristic and the clock are oracles. Conjecture filters and counts | invariant over steps, runs and sequences of runs, composed from the theorems of C40 and C41 |
| C68 | `MiterDetector.cc` on the model of the traversal (C39) with gates found by the analysis (C51); hash sets are lists in arbitrary order | the border at the time of backtracking equals a declarative border, from the order of calls; the tests are characterised for permutations; the test for exclusive ors by the literals of the clauses |
| C69 | `filterWithRSARHeuristics` and `removeLiteral` with literals and budgets; heuristics are arbitrary functions | invariant of the loop from the last literal to the first: everything behind the index is unmarked; permutation of pairs of literal and budget |
| C70 | `Graph::betweennessCentrality` (breadth-first search with counts of shortest paths, accumulation of dependencies, normalisation, sampling), over rational numbers; `none` for NaN | invariant of the search: distances, numbers and last steps of shortest paths are right; the recursion of Brandes for sums of pair dependencies, proved from the sets of shortest paths (`SpecBetweenness`); transport along the numbering of variables. Witnesses for NaN and for the scope `LWCC`. Not modelled: rounding, overflow of counts |
| C71 | `Graph::computeWCC` for undirected graphs, without counts of edges | invariants of the queue (marked nodes outside of the queue have marked neighbours) and of the loop over nodes (marks are closed and connected; components have two nodes, so their number stays below the number of nodes) |
| C72 | the loop of `processClauseDatabase` with its condition and the counters of the three techniques; `solve` with these loops | measure: variables not eliminated, then literals of the clauses in the occurrence database; every counted change makes it smaller, elimination without count changes nothing; refinement to `process` and `solve` `Model/StaticProcessLoop.lean` is the same for the static propagator |
| C73 | `Model/PagedMemory.lean`: pages, the vector of pages with its array and capacity, the iterator with its cached ends, `sort`, and the loop of `Subsumption::subsume` over such a memory. Stepping with an iterator into an array of pages that was replaced is undefined. | The loop is shown equal to a visit page by page (`forEach_eq`); allocation extends the sequence of objects and keeps addresses; subsumption over any pages consists of the same sound steps as over one page, and is equal to `subsumeAll` while everything fits on one page, which justifies that simplification of `Model/Simplify.lean`. The negation for a new page is proved for every page size. |
| C74 | `Model/Bounding.lean`: the search for the eccentricity of a node, the pruning of leaves, `extremaBounding` with its bounds, candidates and choice of nodes for all five measures, and the computations that search from every node; an access at node `-1` and a division by zero are `none` | distances are specified by shortest paths (`SpecDistance.lean`). Invariant of the main loop: the bounds enclose the eccentricities, dropped nodes have equal bounds or cannot change the result, and every round drops the node it searched from, so that n rounds are enough; a pruned leaf has the distances of the leaf that was kept. False for stars, for some numberings of graphs with several components, and for the plain computations with less than 100 nodes |
| C75 | `Model/Scc.lean`: the two searches without recursion, with their stacks, parents and positions, the counters per component with the size of their vectors, and the construction of a graph from named edges | components are specified by paths in both directions (`SpecScc.lean`). Invariant of the first search: an edge of a finished node leads to a node finished earlier, or to one from which all nodes finished between can be reached; it gives that the reversed search through nodes without component marks exactly one component. Edges of a component are counted by the invariant counter + stack = edges at marked nodes. False if every node is a component of its own: the vectors are one element too short |
| C76 | `Model/Distance.lean`: the breadth-first search with the statement that differs between the functions as parameter, the variant with early return, the distribution and the average for a sample size of one, and the first round for smaller samples | distances are lengths of shortest paths (`SpecDistance.lean`), numbers and sums are over finite sets (`SpecDistances.lean`). Invariant of the search: distances of reached nodes are exact, the queue is sorted and spans two distances, edges of finished nodes lead to reached nodes. A ghost list of the reached nodes gives the values that are added up. The average is proved if from every node of the scope exactly the nodes of the scope can be reached, it is false otherwise, for samples and for small scopes |
| C77 | `Model/EdgeList.lean`: lists of edges with their flags, sorting and removal of repetitions, the loop of `makeUndirected` that appends to the lists it reads, the binary search, the loops of `reciprocity` with calls that may sort the list they read | induction over calls with the invariant that lists marked as sorted are strictly increasing and, in an undirected graph, symmetric. The loop of `makeUndirected` is proved equal to the simpler model used for C60, C70 and C71 (`C77_variable_graph`). The reciprocity is proved for sorted lists, and is false otherwise |
| C78 | `Model/Closeness.lean`: the search of C76 with a vector of sums, the loop over nodes, the results for both scopes, with and without computed components, for a sample size of one. Quotients are rational numbers | the vector is the sum of distances over the nodes visited by the loop (induction over the loop), distances are symmetric. Proved if the nodes of the largest component are the first nodes, as in connected graphs; false otherwise |
| C79 | `Model/Clustering.lean`: the merged list of neighbours, the loops over pairs with queries that may sort the graph, the sums over nodes and the quotients. Loops at nodes are found in the lists of edges | numbers are cardinalities of finite sets (`SpecTriangles.lean`). The lists of neighbours are strictly increasing, so pairs of positions are pairs of nodes; every triangle is counted at its least, middle and greatest node (three bijections). The invariant that both lists of edges together have all neighbours is proved for all sequences of calls. Proved for scopes that no edge leaves, and for nodes of undirected graphs; false otherwise |
| C80 | `Model/PageRank.lean`: the loops over nodes and neighbours, the second loop that overwrites the values, the hundred rounds. `double` are rational numbers | the equations are in `SpecPageRank.lean`. Sums over lists of edges are sums over nodes with multiplicities; the sum of the parts that a node passes on is one, so a round keeps the sum and reduces the distance of two vectors by the damping factor. The sum is one if every node has an outgoing edge; it is false otherwise |
| C81 | `Model/EccCentrality.lean`: the test of the scope, the call of `eccentricitiesBD` (model of C74), the results for nodes outside of the largest component with the vector `pruned` that it leaves, and with an empty vector if components were not computed | eccentricities of the component by C74. Nodes outside of it reach only nodes that were not pruned, so their distances are those of the graph. The exceptions of C74 remain, and it is false if components were not computed before |
| C82 | `density` for all nodes and the out-degrees (Model/Density.lean); `selfEdges(FULL) > 0` is a search for an edge from a node to itself; `double` are rationals; densities of the largest components and in-degrees are not modelled | counting edges as pairs of nodes with the invariant of C77; sorted edges and two nodes are required, witnesses show why |

## 4. Findings (places where the code as read violates a property)

Each proved finding has a theorem with a concrete witness; the weaker statement that does hold is the
`_partial` theorem of the same property.

| Property | What goes wrong | Theorem |
|----------|-----------------|---------|
| C05 | the range check `2*abs(number)` of `readInteger` overflows for numbers from 2^62; integers above 2^30 pass the check but no literal can hold them; a token that is no number makes control run off the end of a non-void function | `C05_full_statement_fails`, `C05_no_number` |
| C06 | refilling the read buffer: a number at a chunk boundary may be read twice, a line longer than the buffer reads `buffer[-1]`, a last token without newline is parsed together with stale memory | `C06_full_statement_fails`, `C06_long_line`, `C06_last_token` |
| C07 | `checkResult` reads out of bounds for a violated clause with a variable beyond the model | `C07_full_statement_fails` |
| C08 | `value(v)` of a variable above the largest one set is an access out of bounds | `C08_full_statement_fails` |
| C20 | long clauses marked as deleted stay in the watch lists while the clause database is processed and can propagate; with default options a model can violate the formula | `C20_full_statement_fails` |
| C20, C23, C30 | restoring an eliminated variable (because a new clause or an assumption mentions it) brings back its clauses only; variables eliminated after it and occurring in these clauses stay eliminated, so a second call answers SAT for unsatisfiable clauses or assumptions, with default options, also through the IPASIR interface | `C20_incremental_fails`, `C30_incremental_fails` |
| C20, C23 | preprocessing of a later call also works on clauses that an earlier call removed but did not collect; such a clause can remove the clause that replaced it, so clauses are lost: without elimination and inprocessing the model of the third call violates a unit clause (with the reduction schedule of a run with few conflicts), and if the third call reduces the database, the fourth call answers SAT for clauses containing both `4` and `-4` | `C20_stale_model_fails`, `C20_stale_fails` |
| C12, C20, C23, C55, C56 | inprocessing (off by default): clauses created by it are attached after their false literals were propagated, and the trail is not reset before the search goes on; a clause with only false literals is never looked at, and the solver answers SAT for an unsatisfiable formula | `C12_inprocessing_fails`, `C20_inprocessing_fails`, `C23_inprocessing_fails`; with the static propagator `C55_inprocessing_fails`, `C56_inprocessing_fails` |
| C28 | a proof line with 65536 literals is stored as the empty clause: a tautology "proves" unsatisfiability; literals of new variables are accesses out of bounds; contradictory unit clauses of the problem are not noticed | `C28_full_statement_fails`, `C28_new_variable`, `C28_contradictory_units_rejected` |
| C17 | the stamp array of `computeLBD` has one entry per variable, but repeated assumptions open more decision levels than there are variables: access out of bounds | `C17_bounds_fail`, `C49_repeated_assumptions_fail` |
| C49 | default options, one call: preprocessing assigns a variable that was eliminated before; at the end of the call its value is pushed again and written behind the end of the trail | `C49_trail_overflow` |
| C30 | `assume` of a variable no clause mentions, `failed` of such a variable, and a new variable after an elimination are accesses out of bounds; `val` of an unknown variable reports both literals false | `C30_unknown_assumption_undefined`, `C30_failed_unknown_undefined`, `C30_new_variable_undefined`, `C30_unknown_value_inconsistent` |
| C32 | `bqueue::pop` breaks the window; the 32-bit sum wraps; capacity 0 is an access out of bounds | `C32_pop_fails`, `C32_average_overflow`, `C32_capacity_zero` |
| C35 | with `opt_vsids_extra_bump` every conflict reads out of bounds | `C35_extra_bump_fails` |
| C48 | clause length and weight are 16-bit fields: 65536 literals become 0, weight 65535 means deleted | `C48_full_statement_fails` |
| C37 | the number of blocked clauses is a 16-bit counter: a literal in 65536 blocked clauses is reported as not blocked | `C37_wraps` |
| C38 | the pattern check for `2^n` clauses tests neither their lengths nor that they differ: it accepts clauses that leave the output undefined | `C38_fails` |
| C40 | gates evaluated by their backward clauses may read variables that are not inputs: accesses outside the array, and lanes that are no evaluation of the circuit; a gate filter disables all simulation; the recursive order emits a root that is also an input twice | `C40_outside_fails`, `C40_fails`, `C40_filter_fails`, `C40_recursive_once_fails` |
| C50 | with `test_model` or `test_proof` the exit status of a verified answer is 0 | `C50_exit_status_fails` |
| C51 | an empty clause is in no part of the result: the analysis of an unsatisfiable problem may return nothing | `C51_fails` |
| C42 | a class with the same variable twice is not represented by a cycle; of a backbone conjectured with both signs one is kept (neither is made by the simulation) | `EquivImpls.C42_finding_variable_twice`, `Backbones.C42_finding_both_signs` |
| C43 | the garbage collector heuristic removes all conjectures before the first call, the loop can never run twice: abstraction refinement is a plain call; assumptions set by the user are dropped. Were the conjectures used, a wrong conjecture would give the answer UNSAT | `C43_finding_is_plain_solve`, `C43_finding_loop_runs_once`, `C43_finding_approximation_unsat` |
| C44 | the search for a minimum has no effect: the assumptions and the last cardinality clause of the first loop stay in force, so every later call is UNSAT; the result may have more literals than necessary | `C44_finding_minimum_no_effect`, `C44_finding_not_minimum` |
| C53 | with holistic checks a gate may be accepted because of clauses outside of it; pruning drops those clauses, and the pruned minimised model cannot be completed for some values of the don't-cares | `C53_holistic_fails` |
| C54 | `clear` does not reset variable elimination: when the next problem mentions a variable eliminated before, the clauses of the old problem are added to it; default options, UNSAT for a satisfiable problem | `C54_clear_fails` |
| C45 | `process` with an empty piece discards the stored bytes (not reached by the hashes) | `C45_finding_empty_piece` |
| C45 | `gbd_hash` hashes internal literal numbers, not DIMACS; the first positive literal has number 0, so with empty clauses different problems have the same text | `C45_finding_gbd_not_dimacs`, `C45_finding_gbd_empty_clause` |
| C45 | `degree_hash` depends on the order of unit clauses and subtracts a clause once per unit clause it contains; counters wrap around | `C45_finding_degree_order`, `C45_finding_degree_underflow` |
| C57 | cnf2aig prints variables without an offset: variable 1 of the DIMACS file becomes the constant false. For the formula with the clause `1` the circuit can never be true | `C57_fails_constant` |
| C57 | `printAIG` accesses `negate` behind its end as soon as the circuit has a variable of its own (a clause with two literals, or three clauses) | `C57_fails_negate`, `C57_fails_negate_all` |
| C57 | `createAnds` copies clauses into a vector that is too short if a gate is reached through its negated output | `C57_fails_strip` |
| C58 | Threads, no interruption: `main` may see `result` before `solver` is written; it prints `s SATISFIABLE`, exits with 10 and prints no model although the option is set | `C58_no_model_fails` |
| C58 | Threads, interruption: an interrupted thread overwrites the answer of another one. `s SATISFIABLE` with exit status 0; `s INDETERMINATE` although a thread has stored an answer; reading the model of a solver without model | `C58_exit_fails`, `C58_lost_fails`, `C58_crash_fails` |
| C58 | All threads but the first use inprocessing; by the defect of C20 the portfolio answers SATISFIABLE for an unsatisfiable formula | `C58_inprocessing_fails` |
| C59 | The half-life of vanishing implicit learning is documented in decisions; every decision of the embedded heuristic counts twice | `C59_half_life_fails` |
| C59 | `clear` keeps the advice of the previous formula; with a smaller formula the search then reads the trail out of bounds | `C59_clear_fails` |
| C60 | `VSIDSC` does not remake its graph when variables are added after the first `solve` (unless `opt_vsidsc_dbsize_recalc` is set; it is off by default); the next conflict reads the table of centralities out of bounds | `C60_new_variables_fail` |
| C60 | `clear` keeps graph and table of the previous formula, with the same effect | `C60_clear_fails` |
| C61 | Preprocessing (on by default) writes the deletion of a clause but leaves clauses with more than two literals in the list from which propagation is set up. Learnt clauses may then depend on deleted clauses, and the certificate of an UNSAT answer contains a line that is neither RUP nor RAT for any literal | `C61_preprocessing_fails` |
| C62 | The range of a number option is tested with `tmp > end && tmp < begin` and never enforced; texts that are no numbers count as 0; numbers are cut to 32 bits | `C62_range_ignored`, `C62_any_number` |
| C62 | A text of 256 or more characters leaves a string option without terminating NUL | `C62_string_fails` |
| C62 | `argc -= (i - j)` uses an uninitialised variable (the loop declares its own `i`): `argc` is indeterminate, and `main` may take a null pointer for a file name | `C62_argc_fails` |
| C63 | The implicit learning modes `vanishing` and `implicationbudgeted` are swapped: each makes the solver of the other | `Builder.C63_modes_fail` |
| C63 | An advice size above 3 (which the command line accepts, C62) silently gives the default solver: implicit learning and static propagation are both dropped | `Builder.C63_size_fails` |
| C63 | The threads of a portfolio ignore the advice size and use 3 | `Builder.C63_thread_size_fails` |
| C63 | Abstraction refinement: if the problem is unsuitable, a null pointer is used. With the default of `rsar-heur-idc` every run ends with a null pointer or an uncaught exception, since the pointer to the text is compared with 0 | `Builder.C63_rsar_fails` |
| C64 | Shared clause memory: `everybody_ready` and `reallocate` are two sections. A thread that collects the old clauses in between works with freed memory afterwards | `Shared.C64_replace_race` |
| C64 | Shared clause memory: collecting the clauses and `set_ready(true)` are two sections. If another thread replaces the pages twice in between, the old pages are freed although the first thread uses them | `Shared.C64_flag_race` |
| C64 | Shared clause memory: a clause is allocated under the lock but constructed outside; another thread reads a clause without a header | `Shared.C64_torn_race` |
| C64 | A solver that joins the shared memory and has unit clauses of its own drops them: only the shared unit clauses are collected | `Shared.C64_join_drops_units` |
| C65 | A gate output that is a backbone and in a class is marked only as a backbone; the equivalence survives all rounds | `InputDeps.C65_twice_fails` |
| C65 | "For X > N, all remaining variables are marked for removal": variables that are not outputs of gates never are | `InputDeps.C65_inputs_fail` |
| C65 | `probe` before the first round reads outside of the vector | `InputDeps.C65_probe_fails` |
| C66 | Randomisation "biased to true" makes variables false with chance 1 - 2^-n, and vice versa: a set bit is read as false by propagation | `C66_polarity_fails`, `C66_values` |
| C66 | `alternateRandomizations` never uses the second strategy, because calls are not counted. The default simulator is thus always biased to one value | `C66_alternate_fails`, `C66_alternate_witness` |
| C66 | A cyclic bias of 0 acts like a bias of 1 (it occurs with the default parameters in every sixth call) | `C66_zero_fails` |
| C66 | The cyclic bias is computed in 32 bits and wraps around; `maxBias = 2^32 - 1` and `period = 0` divide by zero | `C66_wrap_fails`, `C66_max_fails`, `C66_period_fails` |
| C68 | `isBinaryXORGate`, documented for arbitrary gates, accepts a conjunction of two disjunctions with four inputs; harmless, as gates with two inputs are selected before. The test for binary exclusive ors in the detector is redundant | `C68_xor_fails`, `C68_exact` |
| C70 | If no variable lies between two others (for example one clause, or disjoint cliques) the maximum is zero and all centralities are 0/0 = NaN; they are then used as activities and factors | `C70_nan`, `C70_nan_fails` |
| C70 | If the sample size times the number of variables is below one (possible at once, or by decay of the sample size) no search is made and all centralities are NaN | `C70_sample_empty_fails` |
| C70 | With the scope `LWCC` the searches start at the nodes 0 .. size - 1 of the graph and not at the nodes of the largest component; the only central variable can thus be missed | `C70_largest_fails` |
| C71 | `computeWCC` writes behind its vectors if every node only has a loop. The solver cannot make such graphs, as clauses have no repeated variables | `C71_isolated_fails` |
| C20 | the wrong SAT answer after inprocessing also occurs with the loop as it is in the code, not only with given rounds | `C20_inprocessing_loop_fails` |
| C73 | the loop over the subsumption clauses keeps iterators into the vector of pages while `create` may append a page (Memory.h:240). If the vector is full it moves the pages, and the next step of the iterator reads a freed array. Proved for every page size; with the default sizes it needs 4194302 clauses. With one page the iterator is invalidated too, but its next step only compares pointers | `C73_new_page_fails` |
| C49, C17 | inprocessing with asymmetric variable reduction makes a clause and then falsifies a literal it will watch; with assumptions (all different) a conflict happens at a level equal to the number of variables, and `computeLBD` writes behind its stamps | `C49_inprocessing_fails` |
| C74 | all leaves but one of a node are pruned; in a star the remaining graph is one edge, and the diameter is reported as 1 instead of 2, with wrong eccentricities, periphery and center | `C74_star_fails` |
| C74 | `extremaBounding` takes node 0 as the first one unless a node of the component has more neighbours, also if node 0 is in another component. The search then finds nothing, and the next one starts at node -1, an access outside of the vectors; for every such graph and every measure | `C74_start_fails` |
| C74 | `diameterAPSP` and `radiusAPSP` compute `i % (n / 100)`, a division by zero for every graph with less than 100 nodes | `C74_brute_fails` |
| C56 | the wrong SAT answer after inprocessing with the static propagator also occurs with the loop as it is in the code | `C56_inprocessing_loop_fails` |
| C75 | the vectors with one element per component are indexed from 1 but have only as many elements as there are nodes. For every directed graph without cycles of two or more nodes, the last component is counted behind the end of the vectors; with one more element the results are right for all graphs (`C75_components_larger`) | `C75_acyclic_fails` |
| C76 | the distribution of distances and the average distance with a sample size other than one start the search at the node with the index `n`, which does not exist; for other scopes than all nodes the component of this node is read | `C76_sample_fails` |
| C76 | the average distance for a scope of less than two nodes, for instance the largest component before it was computed, reads behind the end of a vector of one element if the graph has two or more nodes | `C76_average_small_fails` |
| C76 | for the largest strongly connected component, distances to nodes outside of the component are added, but the sum is divided by the number of pairs inside: for 0 ⇄ 1 → 2 → 3 the average distance is 5, while the largest distance in the graph is 3 | `C76_average_scc_fails` |
| C76 | for all nodes of a graph that is not connected, pairs without path count as distance 0: for two disjoint edges the average is 1/3 | `C76_average_full_fails` |
| C77 | the reciprocity of a graph that was not sorted before: the first query sorts the lists and removes parallel edges while the loop reads them, so elements behind the end of a list are read | `C77_reciprocity_reads_behind` |
| C77 | without parallel edges the same happens with wrong results: for the edges 0 → 2, 0 → 1, 2 → 0 the reciprocity is 1 instead of 2/3 | `C77_reciprocity_wrong` |
| C77 | sorting covers only the first `n` lists. Edges that are added for numbers of nodes that were not given out in order are not found by the binary search | `C77_edge_sparse_fails` |
| C78 | closeness centrality for the largest component visits the indices below the size of the component, not its nodes: for an edge 0 - 1 and a path 2 - 3 - 4 the closeness of node 2 is infinite, and that of node 3 is 3 instead of 3/2 | `C78_largest_fails` |
| C78 | for all nodes, nodes outside of the largest component get their average distance instead of its reciprocal | `C78_full_fails` |
| C78 | for all nodes, if components were not computed, the result for every node of every graph is the negated sum of distances | `C78_not_computed_fails` |
| C79 | the clustering coefficient of a node of a directed graph is 0 if it has less than two outgoing edges, although incoming edges count as well: for a directed cycle of three nodes the coefficients of all nodes and their average are 0, that of the graph is 1 | `C79_node_directed_fails` |
| C79 | triangles with two nodes in the largest strongly connected component and one outside are counted twice of three times: for a component of two nodes one triangle is reported | `C79_scope_fails` |
| C79 | the clustering coefficient of a graph without wedges is not a number | `C79_no_wedges_fails` |
| C80 | the value of nodes without outgoing edges is lost in every round, so the values of PageRank of a directed graph do not add up to one: for one edge 0 → 1 they are 0.075 and 0.13875 | `C80_sum_fails` |
| C81 | eccentricity centrality of all nodes, if components were not computed before, reads elements of the empty vector `pruned`; for the largest component all results are -1 | `C81_not_computed_fails` |
| C82 | Parallel edges that were not sorted away are counted by `density`, which then exceeds 1 | `EdgeList.C82_parallel_fails` |
| C82 | The density of a single node with an edge to itself is 0, although its only possible edge exists | `EdgeList.C82_single_fails` |
