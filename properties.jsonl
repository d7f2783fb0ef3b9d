{"id": "C01", "title": "Literal encoding is a bijection and its operators mean what they say", "statement": "For every variable v in the supported range and every sign s, the literal built from (v,s) reports variable v and sign s; negating it keeps the variable and flips the sign; negation is an involution; two literals compare equal iff variable and sign agree; the literal order is the lexicographic order on (variable, sign), so v and not-v are adjacent; the 'undefined' literal differs from every proper literal. The construction never overflows a 32-bit int for v < 2^30.", "quantifier": "every variable index and sign in the 32-bit range", "why_tests_cant": "The range has 2^31 literals; unit tests touch a handful of small variables and cannot see where 32-bit arithmetic stops being exact.", "anchors": ["src/candy/core/SolverTypes.h: Lit, Var, lit_Undef"]}
{"id": "C02", "title": "Three-valued logic operators", "statement": "Lifted-boolean equality, xor-with-sign, conjunction and disjunction implement Kleene's three-valued logic under the equality the class itself exposes (including the extra bit pattern that the table lookups can return), and reading a literal's value as 'variable value xor sign' negates exactly when the sign is set.", "quantifier": "all representable lifted-boolean values and signs", "why_tests_cant": "The table is encoded in magic constants; a test of a few entries does not show that every bit pattern the operators themselves produce behaves consistently when fed back in.", "anchors": ["src/candy/core/SolverTypes.h: lbool"]}
{"id": "C03", "title": "Adding a clause preserves meaning and normalises", "statement": "After reading any sequence of clauses into a problem, an assignment satisfies the stored clauses iff it satisfies every clause given; each stored clause is strictly sorted, without duplicate or complementary literals; the reported number of variables is exactly one more than the largest variable mentioned; an empty clause is kept.", "quantifier": "every finite sequence of clauses, every literal order and repetition, every assignment", "why_tests_cant": "The space of clause lists and assignments is infinite; normalisation bugs show up on particular duplicate/tautology patterns.", "anchors": ["src/candy/core/CNFProblem.cc: CNFProblem::readClause", "src/candy/core/CNFProblem.h: nVars, nClauses"]}
{"id": "C04", "title": "DIMACS output parses back to the same problem", "statement": "Printing a problem in DIMACS format and parsing the text yields the same list of clauses, whatever comment lines and whitespace (spaces, tabs, newlines) surround or separate the tokens.", "quantifier": "every problem whose clauses are normalised, every legal layout of comments and whitespace", "why_tests_cant": "Round trips depend on every digit count, sign and separator; tests only sample layouts.", "anchors": ["src/candy/core/CNFProblem.cc: printDIMACS, readDimacs", "src/candy/utils/StreamBuffer.cc: readInteger, skipWhitespace, skipLine, skipString", "src/candy/core/SolverTypes.h: operator<<"]}
{"id": "C05", "title": "Integer tokens are read exactly or rejected", "statement": "Reading an integer token returns precisely the decimal value written, or raises a parse error when the token is out of the int range; a token accepted as a literal can be represented by the literal type.", "quantifier": "every character sequence and every integer value", "why_tests_cant": "Boundary values and garbage tokens form an unbounded set; failure is silent wrap-around.", "anchors": ["src/candy/utils/StreamBuffer.cc: readInteger", "src/candy/core/CNFProblem.cc: readDimacs", "src/candy/core/SolverTypes.h: Lit"]}
{"id": "C06", "title": "Buffered reading is independent of chunk boundaries", "statement": "The sequence of characters and tokens a parser sees through the stream buffer is the one in the file, independently of how the content falls on refill boundaries, as long as no token is longer than the buffer can hold.", "quantifier": "every file content and every alignment of tokens to refill boundaries", "why_tests_cant": "A refill bug only manifests when a token straddles a boundary deep inside a big file.", "anchors": ["src/candy/utils/StreamBuffer.cc: refill, align, readInteger", "src/candy/utils/StreamBuffer.h"]}
{"id": "C07", "title": "Model checking accepts exactly the satisfying results", "statement": "Checking a result against a problem returns true iff every clause of the problem contains a literal that the result's model makes true; a literal of a variable the model does not mention or leaves undefined is never counted as true.", "quantifier": "every problem and every (partial) model", "why_tests_cant": "The claim ranges over all formulas and partial assignments.", "anchors": ["src/candy/core/CNFProblem.cc: checkResult", "src/candy/core/CandySolverResult.h: satisfies"]}
{"id": "C08", "title": "The result object is a faithful map from variables to values", "statement": "After any sequence of setting model literals, the value reported for a variable is the sign of the last literal set for that variable and 'undefined' if none was set; the literal list contains exactly the assigned variables in increasing order; clearing removes the model and the conflict.", "quantifier": "every history of set/clear calls", "why_tests_cant": "Histories are unbounded; growth of the underlying storage interleaves with overwrites.", "anchors": ["src/candy/core/CandySolverResult.h: setModelValue, setModel, value, satisfies, getModelLiterals, clear"]}
{"id": "C09", "title": "Renaming variables keeps satisfiability", "statement": "Normalising variable names renames variables injectively onto the gapless range 0..n-1, so that the renamed problem is satisfiable iff the original is, with the same number of clauses and the same clause lengths.", "quantifier": "every problem", "why_tests_cant": "Needs a bijection argument over all problems; a test compares a few instances.", "anchors": ["src/candy/core/CNFProblem.cc: normalizeVariableNames"]}
{"id": "C10", "title": "The assignment stack behaves as a stack of decision levels", "statement": "Under any sequence of deciding, propagating, opening a level and backtracking that the solver can perform, a variable has a value iff one of its literals is on the stack, no variable is on the stack twice, levels are non-decreasing along the stack, and backtracking to a level restores exactly the assignment that held when the next level was opened; the stack never outgrows its storage.", "quantifier": "every operation history", "why_tests_cant": "A history-dependent invariant; corruption after a rare backtrack would be invisible to unit tests.", "anchors": ["src/candy/core/Trail.h: decide, propagate, fact, newDecisionLevel, backtrack, set_value, value"]}
{"id": "C11", "title": "Propagation only derives consequences", "statement": "Every literal assigned by unit propagation is implied by the clause set together with the decisions made so far, and a reported conflict clause belongs to the clause set and has every literal false.", "quantifier": "every clause set, every decision sequence, every reachable watch-list state", "why_tests_cant": "Soundness must hold for all clause sets and watch configurations; one bad blocker update makes rare wrong answers.", "anchors": ["src/candy/systems/propagate/Propagate.h: propagate, propagate_binary_clauses, propagate_watched_clauses"]}
{"id": "C12", "title": "Propagation is complete (two-watched-literal invariant)", "statement": "When unit propagation returns without conflict, no clause in the database is falsified or unit under the current assignment; and if it returns a conflict, some clause is falsified. This keeps holding after any number of learnt clauses, backjumps and restarts.", "quantifier": "every reachable solver state", "why_tests_cant": "Missed propagations do not change test verdicts on small inputs, yet make the solver report wrong models.", "anchors": ["src/candy/systems/propagate/Propagate.h: propagate, attachClause, init", "src/candy/core/Trail.h: backtrack", "src/candy/core/Solver.h: search"]}
{"id": "C13", "title": "Learnt clauses are implied by the formula", "statement": "The clause produced by conflict analysis (before and after minimisation) is a logical consequence of the clauses given to the solver.", "quantifier": "every conflict in every reachable state", "why_tests_cant": "A non-implied learnt clause turns a satisfiable instance into UNSAT only on special instances.", "anchors": ["src/candy/systems/learning/ConflictAnalysis.h: analyze, minimization, litRedundant, minimizationWithBinaryResolution, handle_conflict"]}
{"id": "C14", "title": "Learnt clauses are asserting and backjumping is to the right level", "statement": "Conflict analysis at a positive level produces a clause, all of whose literals are false, with exactly one literal of the conflict level, placed first; the backjump level is the highest level among the other literals (0 for a unit clause), a literal of that level is in second position, and after backjumping the first literal is unassigned and every other literal is still false.", "quantifier": "every conflict in every reachable state", "why_tests_cant": "The first-UIP loop's termination and the swap to the second position depend on the whole implication graph.", "anchors": ["src/candy/systems/learning/ConflictAnalysis.h: analyze, handle_conflict", "src/candy/core/Solver.h: search"]}
{"id": "C15", "title": "Clause minimisation only removes redundant literals", "statement": "Recursive and binary minimisation return a subset of the learnt clause that still contains the asserting literal and is still implied.", "quantifier": "every learnt clause and implication graph", "why_tests_cant": "Relies on the marks left by earlier, failed and successful redundancy tests; the interaction space is unbounded.", "anchors": ["src/candy/systems/learning/ConflictAnalysis.h: minimization, litRedundant, minimizationWithBinaryResolution"]}
{"id": "C16", "title": "The reported conflict under assumptions is a correct core", "statement": "When solving under assumptions is refuted because an assumption is false, the reported conflict consists of negations of assumptions, contains the negation of the failing assumption, and the clauses imply the disjunction of the reported literals; in particular the problem together with just the named assumptions is unsatisfiable.", "quantifier": "every problem, every assumption sequence, every run", "why_tests_cant": "A core must be checked against all models; tests only check that some core is returned.", "anchors": ["src/candy/systems/learning/ConflictAnalysis.h: analyzeFinal", "src/candy/core/Solver.h: search", "src/candy/core/CandySolverResult.h: getConflict"]}
{"id": "C17", "title": "LBD counts distinct decision levels", "statement": "The literal-block distance computed for a clause equals the number of distinct decision levels among its literals, with no memory access outside the stamp array.", "quantifier": "every clause and every level assignment", "why_tests_cant": "The stamp reuse over unboundedly many calls and the range of levels are history dependent.", "anchors": ["src/candy/core/Trail.h: computeLBD", "src/candy/mtl/Stamp.h"]}
{"id": "C18", "title": "Clause-database reduction never drops a problem clause", "statement": "Reducing the database deletes only clauses of length greater than two whose weight exceeds the persistence bound, at most half of the candidates (rounded up); all other clauses survive unchanged. In particular a clause of the problem as stored by the default loading (weight 0) is never dropped.", "quantifier": "every clause database, every sequence of weights", "why_tests_cant": "Deletion depends on weights recomputed during search; a deleted problem clause shows up as a wrong model only on rare instances.", "anchors": ["src/candy/systems/ReduceDB.h: reduce", "src/candy/core/clauses/ClauseDatabase.h: removeClause, reorganize"]}
{"id": "C19", "title": "UNSAT answers are sound", "statement": "If solving without assumptions answers UNSAT then the clauses given so far have no satisfying assignment, whatever branching heuristic, restart policy, clause reduction, minimisation and preprocessing steps are interleaved.", "quantifier": "every formula, every sequence of heuristic choices, restarts and simplifications", "why_tests_cant": "Quantifies over all formulas and all runs.", "anchors": ["src/candy/core/Solver.h: search, solve", "src/candy/systems/learning/ConflictAnalysis.h", "src/candy/systems/propagate/Propagate.h"]}
{"id": "C20", "title": "SAT answers come with a model", "statement": "If solving answers SAT then the reported assignment satisfies every clause given so far and every assumption.", "quantifier": "every formula, assumption list and run", "why_tests_cant": "Quantifies over all formulas and runs; unit tests check a few models.", "anchors": ["src/candy/core/Solver.h: search, solve", "src/candy/simplification/VariableElimination.h: propagate_eliminated_variables", "src/candy/core/CandySolverResult.h: setModel"]}
{"id": "C21", "title": "UNSAT under assumptions is sound and does not poison later calls", "statement": "If solving under assumptions answers UNSAT then the clauses plus the assumptions are unsatisfiable; the solver only becomes permanently unsatisfiable when the clauses alone are, so a later call without those assumptions is not affected.", "quantifier": "every sequence of solve calls and assumption sets", "why_tests_cant": "Poisoning shows up only in particular orders of calls.", "anchors": ["src/candy/core/Solver.h: solve, search", "src/candy/core/clauses/ClauseDatabase.h: emptyClause"]}
{"id": "C22", "title": "Interruption is safe", "statement": "If the termination callback fires or a restart/limit ends a search early, the answer is 'unknown' and a later call on the same solver is still sound.", "quantifier": "every point at which the callback may fire", "why_tests_cant": "The set of interruption points is unbounded.", "anchors": ["src/candy/core/Solver.h: solve", "src/candy/ipasir/ipasircandy.cc: solve, set_terminate"]}
{"id": "C23", "title": "Incremental use accumulates clauses and forgets assumptions", "statement": "Clauses added between calls constrain all later calls; assumptions hold for exactly one call; an answer depends only on the clauses added so far and the assumptions of that call.", "quantifier": "every interleaving of adding clauses, assuming and solving", "why_tests_cant": "History-dependent over unbounded sequences.", "anchors": ["src/candy/ipasir/ipasircandy.cc", "src/candy/core/Solver.h: init, solve", "src/candy/core/Trail.h: setAssumptions"]}
{"id": "C24", "title": "Subsumption and strengthening preserve equivalence", "statement": "Removing subsumed clauses and strengthening clauses by self-subsuming resolution yields a clause set with exactly the same models; the signature filter never causes a wrong subsumption verdict.", "quantifier": "every clause set, every order of processing", "why_tests_cant": "Quantifies over all clause sets; the signature test collides for large variable counts only.", "anchors": ["src/candy/simplification/SubsumptionClause.h: subsumes, calc_abstraction", "src/candy/simplification/Subsumption.h: subsume, unit_resolution"]}
{"id": "C25", "title": "Variable elimination preserves satisfiability and models can be extended", "statement": "Replacing the clauses containing a variable by all non-tautological resolvents preserves satisfiability, and a model of the reduced set that leaves the eliminated variables open is extended by the reconstruction step to a model of the original set, for any sequence of eliminations.", "quantifier": "every clause set and every elimination sequence", "why_tests_cant": "Model reconstruction errors are visible only for particular models.", "anchors": ["src/candy/simplification/VariableElimination.h: eliminate, propagate_eliminated_variables, undo_elimination"]}
{"id": "C26", "title": "Resolution of two clauses is exact", "statement": "Merging two sorted clauses on a variable reports a tautology exactly when they clash on another variable, and otherwise yields exactly the union of their literals without the pivot; the size-only variant agrees with it.", "quantifier": "every pair of clauses and pivot", "why_tests_cant": "Unbounded clause pairs.", "anchors": ["src/candy/simplification/VariableElimination.h: merge"]}
{"id": "C27", "title": "Asymmetric reduction only removes redundant literals", "statement": "Strengthening a clause by propagating the negation of some of its literals yields an implied clause that subsumes the old one; the model set is unchanged.", "quantifier": "every clause set and variable", "why_tests_cant": "Depends on propagation over arbitrary clause sets.", "anchors": ["src/candy/simplification/AsymmetricVariableReduction.h: reduce"]}
{"id": "C28", "title": "The proof checker accepts only refutations", "statement": "If the built-in DRAT checker reports that a proof is verified for a problem, the problem is unsatisfiable.", "quantifier": "every problem and every proof file, including adversarial ones", "why_tests_cant": "An unsound checker accepts a particular malformed proof; the space of proofs is infinite.", "anchors": ["src/candy/core/DRATChecker.cc: check_proof, check_clause_add, check_asymm, check_clause_remove"]}
{"id": "C29", "title": "The emitted certificate is a valid derivation", "statement": "Every clause-addition line written to the certificate during search, reduction and preprocessing is implied by the problem clauses, and each deletion line names a clause that was previously part of the database, with the literals printed in DIMACS numbering; an UNSAT answer ends with the empty clause.", "quantifier": "every run of the solver", "why_tests_cant": "Proof lines depend on the entire run.", "anchors": ["src/candy/core/clauses/Certificate.h: added, removed, proof", "src/candy/core/clauses/ClauseDatabase.h: createClause, removeClause, emptyClause"]}
{"id": "C30", "title": "The incremental C interface refines its specification", "statement": "The return code of solve is 10/20/0 exactly for SAT/UNSAT/unknown; after 10, the value of a literal of an assigned variable agrees with the model and values of a literal and its negation are opposite; after an UNSAT answer under assumptions a literal is reported failed iff its variable occurs in the reported core; adding a clause or an assumption invalidates the model.", "quantifier": "every sequence of add/assume/solve/val/failed calls", "why_tests_cant": "An API state machine with unbounded histories.", "anchors": ["src/candy/ipasir/ipasircandy.cc"]}
{"id": "C31", "title": "Stamps behave like a set with constant-time clear", "statement": "After any sequence of set, unset, clear and grow, an index is stamped iff it was set after the last clear and not unset since, for every finite counter width, including counter overflow.", "quantifier": "every operation history and counter type", "why_tests_cant": "Overflow of the stamp counter happens after 2^n clears.", "anchors": ["src/candy/mtl/Stamp.h: Stamp"]}
{"id": "C32", "title": "The bounded queue is a sliding window", "statement": "After pushing any sequence onto a queue of positive capacity (with clears in between) the queue holds the last min(n, capacity) pushed values, its sum is their sum, and it reports itself full exactly when capacity many values were pushed since the last clear.", "quantifier": "every push/clear/pop history and capacity", "why_tests_cant": "Wrap-around patterns depend on history.", "anchors": ["src/candy/mtl/BoundedQueue.h: bqueue"]}
{"id": "C33", "title": "The priority heap returns a best element and loses none", "statement": "Under any sequence of insert, remove-min, update and build with a strict weak order, the heap contains exactly the inserted and not yet removed elements, its index table is consistent, and remove-min returns an element that no other element in the heap precedes.", "quantifier": "every operation history and every priority order", "why_tests_cant": "Unbounded histories; index-table corruption depends on shape.", "anchors": ["src/candy/mtl/Heap.h: Heap"]}
{"id": "C34", "title": "Memory reorganisation keeps every live clause", "statement": "After deleting clauses and reorganising clause memory, the database lists exactly the clauses not marked deleted, each with its literals and weight unchanged.", "quantifier": "every allocation/deletion/reorganisation history", "why_tests_cant": "Depends on page-boundary positions and arbitrary histories.", "anchors": ["src/candy/core/clauses/ClauseAllocator.h", "src/candy/core/clauses/ClauseAllocatorMemory.h", "src/candy/core/clauses/ClauseDatabase.h: reorganize", "src/candy/core/clauses/Clause.h"]}
{"id": "C35", "title": "Branching always finds an unassigned decision variable", "statement": "The branching heuristic returns 'none' only when every decision variable is assigned; otherwise it returns a literal of an unassigned decision variable, in every state reached by conflicts, backjumps and restarts.", "quantifier": "every search history", "why_tests_cant": "A variable lost from the heap is only noticed as a bogus model.", "anchors": ["src/candy/systems/branching/VSIDS.h: reset, process_conflict, pickBranchLit", "src/candy/systems/branching/LRB.h"]}
{"id": "C36", "title": "Gate builder encodings define the gate function", "statement": "The clauses produced for binary and/or/xor gates are satisfied exactly by the assignments in which the output equals the gate function of the inputs; the half encodings exactly by those in which the output implies it.", "quantifier": "every choice of literals, also equal or complementary ones, every assignment", "why_tests_cant": "Literals may coincide in any way; all assignments.", "anchors": ["src/candy/gates/GateBuilder.h"]}
{"id": "C37", "title": "Blocked-set test is exact", "statement": "The blockedness test for a literal answers yes iff every resolvent of the indexed clauses on that literal is a tautology (and hence removing those clauses preserves satisfiability), after any sequence of clause removals from the index.", "quantifier": "every clause set and history of removals", "why_tests_cant": "Quadratic pairwise condition over arbitrary clause sets and histories.", "anchors": ["src/candy/gates/BlockList.h: BlockList"]}
{"id": "C38", "title": "Recognised gates are functional definitions", "statement": "Whatever the values of the other variables, the output of a recognised gate has a value that satisfies the gate's clauses; when the gate is recognised by the pattern or semantic check, exactly one value does, so that its clauses define the output as a function of the inputs.", "quantifier": "every clause set, every candidate output", "why_tests_cant": "Pattern matching over arbitrary clause sets.", "anchors": ["src/candy/gates/GateAnalyzer.cc: patternCheck, isGate, semanticCheck"]}
{"id": "C39", "title": "Gate traversal visits definitions in dependency order", "statement": "The depth-first traversal used for simulation and dependency counting visits each reachable gate exactly once, and after the gates of its inputs when the structure is acyclic.", "quantifier": "every gate structure", "why_tests_cant": "Graphs of arbitrary shape and depth.", "anchors": ["src/candy/gates/GateDFSTraversal.h"]}
{"id": "C40", "title": "Bit-parallel simulation evaluates every lane correctly", "statement": "Propagating simulation vectors through the gates in dependency order makes every lane a consistent evaluation of the circuit; lanes do not interfere.", "quantifier": "every circuit, every input vector, every lane", "why_tests_cant": "2^inputs evaluations.", "anchors": ["src/candy/randomsimulation/Propagation.cc: propagate", "src/candy/randomsimulation/SimulationVector.h"]}
{"id": "C41", "title": "Conjectures agree with all simulations seen", "statement": "Each conjectured equivalence class and backbone literal produced by random simulation is consistent with all simulation vectors processed, up to hash collisions for equivalences and without exception for backbones.", "quantifier": "every sequence of simulation rounds", "why_tests_cant": "Unbounded rounds.", "anchors": ["src/candy/randomsimulation/Partition.cc", "src/candy/randomsimulation/Conjectures.cc"]}
{"id": "C42", "title": "Refinement keeps equivalence conjectures a cycle", "statement": "After removing any set of variables from an equivalence conjecture, the remaining implications form one cycle through exactly the remaining literals (none if fewer than two remain), and only implications involving removed literals are dropped.", "quantifier": "every conjecture and every sequence of removals", "why_tests_cant": "Arbitrary removal patterns.", "anchors": ["src/candy/rsar/ApproximationState.cc: EquivalenceImplications"]}
{"id": "C43", "title": "Abstraction-refinement solving is sound", "statement": "Solving by under-approximation with conjectured equivalences and backbones answers SAT only with a model of the problem and UNSAT only if the problem is unsatisfiable; each deactivated approximation clause has no effect.", "quantifier": "every problem and every (possibly wrong) set of conjectures", "why_tests_cant": "Wrong conjectures are input dependent.", "anchors": ["src/candy/rsar/ARSolver.cc: solve, init", "src/candy/rsar/Refinement.cc"]}
{"id": "C44", "title": "Model minimisation returns a satisfying sub-assignment", "statement": "Without pruning and projection, the minimised model is a set of literals of the given model that still satisfies every clause; unless a call of the solver is interrupted no proper subset of it does; and at most as many calls of the solver as there are variables find a smaller set.", "quantifier": "every problem, every total model of it, every behaviour of the heuristics of the solver used, every interruption", "why_tests_cant": "Ranges over all problems, models and sequences of solver answers.", "anchors": ["src/candy/minimizer/Minimizer.cc: mimimizeModel, purify, iterativeMinimization", "src/candy/minimizer/Minimizer.h: genParCounter, genLessThanConstraint"]}
{"id": "C45", "title": "The benchmark hashes are MD5 digests of the formula's data", "statement": "The hashes computed for benchmark identification are the MD5 digests (RFC 1321) of a text that depends on the formula only; the gbd hash loses no information about the clauses; the degree hash does not change when variables are renamed, polarities flipped, or clauses and literals reordered.", "quantifier": "every formula, every division of the text into pieces, every renaming and permutation", "why_tests_cant": "All formulas, lengths around block boundaries and permutations.", "anchors": ["src/candy/gbd/hash.cpp: gbd_hash, degree_hash", "src/candy/gbd/md5/md5.cpp: process, finish, process_block"]}
{"id": "C46", "title": "Restarts and limits do not lose progress information", "statement": "Restart triggering depends only on the last window of LBD values: it can fire only when the window is full, empties the window when it fires, and never divides by zero.", "quantifier": "every conflict history", "why_tests_cant": "History dependent.", "anchors": ["src/candy/systems/Restart.h", "src/candy/mtl/BoundedQueue.h"]}
{"id": "C47", "title": "Search between restarts terminates", "statement": "With no further restarts, search over a finite variable set performs finitely many decisions and conflicts before it answers SAT or UNSAT.", "quantifier": "every formula and branching policy", "why_tests_cant": "Termination cannot be tested.", "anchors": ["src/candy/core/Solver.h: search"]}
{"id": "C48", "title": "Clause storage represents the clause it was given", "statement": "A clause stored in the database has exactly the literals it was created with (same length, same literals) and a learnt-clause weight never turns into the deleted marker.", "quantifier": "every clause length and weight", "why_tests_cant": "The relevant lengths exceed 65535 literals.", "anchors": ["src/candy/core/clauses/Clause.h: Clause, size, isDeleted"]}
{"id": "C49", "title": "No read or write outside the solver's arrays", "statement": "For input within the supported ranges, no solver operation indexes assignment, trail, stamp, watch or elimination storage out of bounds.", "quantifier": "every API call sequence", "why_tests_cant": "Out-of-bounds accesses need not crash a test.", "anchors": ["src/candy/core/Trail.h", "src/candy/core/Solver.h: init", "src/candy/simplification/VariableElimination.h: is_eliminated"]}
{"id": "C50", "title": "Exit status and printed verdict agree with the result", "statement": "The command-line solver exits with 10 for satisfiable, 20 for unsatisfiable and 0 for unknown, and prints the matching status line.", "quantifier": "every outcome and every combination of checking options", "why_tests_cant": "Option combinations times outcomes.", "anchors": ["src/candy/Main.cc"]}
{"id": "C51", "title": "Gate analysis partitions the clauses", "statement": "The roots, the clauses of the recognised gates and the remainder are together exactly the clauses of the problem, each at exactly one place, and the analysis terminates.", "quantifier": "every problem, every combination of methods, every limit of rounds", "why_tests_cant": "Arbitrary problems and orders of recognition.", "anchors": ["src/candy/gates/GateAnalyzer.cc: analyze, gate_recognition, isGate", "src/candy/gates/GateProblem.h: addGate"]}
{"id": "C52", "title": "Recognised gates form an acyclic circuit", "statement": "The recognised gates are acyclic, every assignment of the variables that are not gate outputs extends to one that satisfies all gate clauses, and it is unique if every gate defines its output.", "quantifier": "every problem and every result of the analysis", "why_tests_cant": "Graphs of arbitrary size.", "anchors": ["src/candy/gates/GateAnalyzer.cc: gate_recognition, isGate", "src/candy/gates/BlockList.h: remove"]}
{"id": "C53", "title": "Models minimised with pruning or projection can be completed", "statement": "The result of minimising a model with gate pruning and/or projection to the inputs is part of the model, and whatever values the variables outside of it get that are not outputs of recognised gates, there are values for the gate outputs with which every clause of the problem is satisfied. The computation of the pruned problem ends.", "quantifier": "every problem, every model of it, every recognition method without holistic checks, every number of rounds, every run of the minimiser's solver, with and without pruning, minimum search and projection", "why_tests_cant": "Circuits of arbitrary shape, all models, all don't-care values.", "anchors": ["src/candy/minimizer/Minimizer.cc: mimimizeModel, purify", "src/candy/gates/GateProblem.h: getPrunedProblem, getRootLiterals, addGate, isNestedMonotonic", "src/candy/gates/GateAnalyzer.cc: analyze, isGate"]}
{"id": "C54", "title": "A cleared solver is as good as new", "statement": "After clear(), the answers of the solver depend only on what is loaded and assumed afterwards: the next calls return the same results as on a newly created solver, so one solver object can be used for many independent problems.", "quantifier": "every sequence of problems, options, earlier calls and heuristic choices", "why_tests_cant": "State left behind by earlier calls shows up only for particular pairs of problems.", "anchors": ["src/candy/core/Solver.h: clear, init, solve", "src/candy/core/clauses/ClauseDatabase.h: clear", "src/candy/core/Trail.h: clear", "src/candy/simplification/VariableElimination.h: is_eliminated, undo_elimination, has_eliminated_variables", "src/candy/gates/GateAnalyzer.cc: semanticCheck"]}
{"id": "C55", "title": "Static unit propagation is sound and complete", "statement": "With the option static-propagate, unit propagation adds only literals that are implied by the clauses and the chosen literals, reports a conflict only for a clause whose literals are all false, leaves no clause falsified or unit when it reports no conflict, and does not change the order of the literals in any clause.", "quantifier": "every state of every search, after any number of calls, conflicts, backjumps, restarts and clause removals, every choice of the heuristics", "why_tests_cant": "A watch that is lost or left on a false literal shows only after particular sequences of backjumps.", "anchors": ["src/candy/systems/propagate/StaticPropagate.h: init, attachClause, propagate_watched_clauses, propagate", "src/candy/core/Solver.h: search, propagateAndMaterializeUnitClauses"]}
{"id": "C56", "title": "The choice of the propagator changes no answer", "statement": "A solver with the option static-propagate reports UNSAT only if the clauses and assumptions are unsatisfiable (with a correct core), SAT only with a model of all clauses and assumptions, and agrees with every definite answer of a solver without the option.", "quantifier": "every history of added clauses, assumptions and calls, every choice of the heuristics, restarts and interruptions", "why_tests_cant": "All formulas and all histories.", "anchors": ["src/candy/systems/propagate/StaticPropagate.h", "src/candy/frontend/CandyBuilder.cc: createSolver", "src/candy/core/Solver.h: solve"]}
{"id": "C57", "title": "The circuit printed by cnf2aig is equivalent to the formula", "statement": "The program cnf2aig prints a circuit in the format AIGER (inputs and gate outputs are positive, pairwise different, every literal used is defined), the circuit computes a function of its inputs, and its output can be true exactly if the formula read is satisfiable.", "quantifier": "every formula, every set of gates that the recognition may find, every answer of the solver used for recognition", "why_tests_cant": "All formulas and all gate structures; satisfiability of both sides has to be compared.", "anchors": ["src/candy/cnf2aig.cc: main", "src/candy/gates/AIGProblem.h: AIGProblem", "src/candy/gates/GateProblem.h: normalizeRoots"]}
{"id": "C58", "title": "A portfolio of threads gives one correct answer", "statement": "With several threads the program prints 's SATISFIABLE' or exits with status 10 only for satisfiable formulas, prints 's UNSATISFIABLE' or exits with status 20 only for unsatisfiable ones, prints exactly one status line that agrees with the exit status, never accesses a missing result, prints with a model line only a model of the formula, and leaves its waiting loop once a thread has answered or the program is interrupted.", "quantifier": "every formula, every number of threads, all options of every thread, every interleaving of the threads and of main, every moment of interruption", "why_tests_cant": "The outcome depends on the interleaving of single reads and writes of shared variables; a test sees one schedule.", "anchors": ["src/candy/Main.cc: runSolverThread", "src/candy/Main.cc: main", "src/candy/Main.cc: interrupted_callback"]}
{"id": "C59", "title": "Implicit learning branches against the conjectures, within its budgets", "statement": "With implicit learning every branching literal is an unassigned decision variable that either contradicts a conjecture (together with a literal of the last decision level it makes a conjectured equivalence false, or it is the negation of a conjectured backbone) or is the choice of the embedded heuristic; without conjectures it always is the latter. With budgets no implication is used more often than its budget. In the vanishing variant the probability of advice halves every half-life decisions and the random numbers never get stuck. The conjectures of random simulation are stored without overflowing the advice entries. After clear() nothing of the previous formula's conjectures is used. Answers are those of a search with arbitrary choices.", "quantifier": "every formula, every set of conjectures, every history of calls and every state of the search, every order induced by the scores, any number of decisions", "why_tests_cant": "Which advice is given depends on the whole history of decisions, budgets and random numbers; a wrong sign or a wrong bound shows only as lost performance or for rare states.", "anchors": ["src/candy/systems/branching/rsil/BranchingHeuristics.h: getAdvice, getSignAdvice, makeRSILDecision, init, clear", "src/candy/systems/branching/rsil/BranchingHeuristics.cc: pickBranchLit", "src/candy/systems/branching/rsil/ImplicitLearningAdvice.h: AdviceEntry, BudgetAdviceEntry, addEquivalenceConjecture, addBackboneConjecture", "src/candy/utils/FastRand.h: fastNextRand"]}
{"id": "C60", "title": "Branching with centralities: the graph is the variable interaction graph and its table is read in bounds", "statement": "The graph built for centrality branching has as nodes exactly the variables that occur together with another variable in a clause, two nodes are neighbours exactly if their variables share a clause, and nodes and edges are counted correctly. Building it always ends. Whenever activities are increased, the table of centralities is read within its bounds, in every call of solve of every history of calls, including after adding clauses and variables and after clear().", "quantifier": "every formula, every history of calls, every state of the search after any number of conflicts, simplifications and reductions, either order of evaluation of arguments", "why_tests_cant": "Reading a vector slightly out of bounds usually goes unnoticed; whether the index is in bounds depends on which clauses were present when the graph was made and on everything learnt since.", "anchors": ["src/candy/systems/branching/VSIDSC.h: varBumpActivity, process_conflict, process_reduce, do_centrality, init_graph, calcCentrality, updateActivities, clear", "src/candy/teexgraph/Graph.cpp: mapNode, addEdge, makeUndirected, sortEdgeList", "src/candy/core/Solver.h: solve"]}
{"id": "C61", "title": "Every line of the certificate can be checked by unit propagation", "statement": "An independent checker that knows only the formula and the certificate accepts it: each clause that is added follows by reverse unit propagation (or is a resolution asymmetric tautology) from the clauses present when the line is written, each deleted clause is present, and after an answer UNSAT without assumptions the certificate ends with the empty clause. This holds for every prefix of the certificate.", "quantifier": "every formula, every history of calls, all choices of the heuristics, restarts and clause reductions, every prefix of the certificate", "why_tests_cant": "Whether a line is checkable depends on all clauses present at that moment, hence on all earlier learning, minimisation and deletion; an implied clause need not be checkable, so correct answers do not show it.", "anchors": ["src/candy/core/clauses/Certificate.h: added, removed, proof", "src/candy/core/clauses/ClauseDatabase.h: createClause, removeClause, strengthenClause, emptyClause, reorganize", "src/candy/systems/learning/ConflictAnalysis.h: handle_conflict", "src/candy/core/Solver.h: init, search, solve, propagateAndMaterializeUnitClauses, processClauseDatabase", "src/candy/systems/ReduceDB.h: reduce", "src/candy/simplification/VariableElimination.h: eliminate"]}
{"id": "C62", "title": "Command line options mean what they say", "statement": "Each argument -name=value, -name or -no-name sets exactly the option of that name to the given value, the last one wins and all other options keep their values. Values that are no numbers or lie outside the range of the option, and unknown flags, end the program with an error. The remaining arguments are passed on in their order, and the formula is read from the first of them, or from standard input if there is none.", "quantifier": "every list of arguments, every list of options with distinct names, in particular the options of candy", "why_tests_cant": "The arguments are arbitrary texts; whether an argument is taken by the wrong option depends on all names together, and reading an uninitialised variable can look right in every test run.", "anchors": ["src/candy/utils/Options.h: parse of DoubleOption, IntOption, Int64Option, StringOption, BoolOption", "src/candy/utils/Options.cc: parseOptions", "src/candy/frontend/CLIOptions.cc", "src/candy/Main.cc: main"]}
{"id": "C63", "title": "The solver that runs is the one the options ask for", "statement": "The program composes its solver from the options: static propagation is used if and only if it is asked for; without further options the branching heuristic is VSIDS, and with exactly one heuristic asked for it is that one, in the mode and with the advice size that were given; an unknown mode ends the program. With several threads, each thread has the heuristic, preprocessing and inprocessing settings that belong to its number, whatever the schedule. If abstraction refinement is asked for, it is used whenever the problem is suitable, and otherwise an ordinary solver is.", "quantifier": "every list of admissible command line arguments, every combination of values of the options, every outcome of the analysis of the problem, every number of threads and every schedule", "why_tests_cant": "The options multiply to an unbounded number of configurations; a wrong solver still gives correct answers, so that no test of answers notices it; with several threads the options are global variables that all threads read while they are being changed.", "anchors": ["src/candy/frontend/CandyBuilder.h: CandyBuilder", "src/candy/frontend/CandyBuilder.cc: createSolver, getRSILMode", "src/candy/frontend/SolverFactory.h: createRSARSolver", "src/candy/Main.cc: main, runSolverThread", "src/candy/frontend/CLIOptions.cc: RSILOptions, RSAROptions", "src/candy/gates/GateAnalyzer.cc: GateAnalyzer"]}
{"id": "C64", "title": "Solvers that share clause memory neither lose nor corrupt clauses", "statement": "Several solvers may be set up to share the memory of their clauses. Whatever the interleaving of their operations, no solver reads memory that was freed or a clause that is not yet constructed; each solver that is working knows every clause of the problem that nobody removed; a clause that one solver exports is known to another one after its next reorganisation; and no solver ever lists a clause that is neither a clause of the problem nor was brought in by some solver.", "quantifier": "every number of threads, every schedule of their steps, every history of joining, creating, using and removing clauses and of reorganisation, every problem", "why_tests_cant": "The failures need particular interleavings of a few instructions of two threads; tests execute a handful of the infinitely many schedules.", "anchors": ["src/candy/core/clauses/ClauseAllocator.h: ClauseAllocator", "src/candy/core/clauses/ClauseAllocatorMemory.h: ClauseAllocatorMemory", "src/candy/core/clauses/ClauseDatabase.h: createClause, removeClause, reorganize, setGlobalClauseAllocator, createGlobalClauseAllocator", "src/candy/core/Solver.h: init, setupGlobalAllocator"]}
{"id": "C65", "title": "Refinement by input counts removes what is due, and only that", "statement": "The refinement heuristic that counts inputs is given a list of limits. For every gate output of the circuit it computes the number of inputs that the output depends on, without undefined behaviour. In the round of a limit it marks only gate outputs whose count exceeds the limit and no earlier limit; after the round, no conjecture is left about a gate output that depends on more inputs than the limit. After the round that follows the last limit, no conjecture about any variable is left.", "quantifier": "every formula, every recognised circuit, every list of limits, all conjectures, every number of refinement rounds, whatever other heuristics mark in between", "why_tests_cant": "Sharing in the circuit, repeated inputs, the cut-off at the first limit and the sets that shrink from round to round interact for circuits of any size; tests compute a few small circuits.", "anchors": ["src/candy/rsar/Heuristics.h: createInputDepCountRefinementHeuristic, RefinementHeuristic", "src/candy/rsar/Heuristics.cc: countInputDependencies, getDirectlyNestedGates, genericMarkRemovals, InputDepCountRefinementHeuristic", "src/candy/rsar/Refinement.cc: SimpleRefinementStrategy::updateApproximationState"]}
{"id": "C66", "title": "Randomisation strategies assign values with the promised chances", "statement": "A strategy of randomisation is called any number of times with the vectors of some variables. Each call is free of undefined behaviour and changes only the vectors of these variables. The simple strategy gives every variable either value with equal chance. A strategy biased to true with bias n makes a variable true with a chance of 1 - 2^-n, one biased to false with a chance of 2^-n; with a cyclic bias, n is (minBias + i * step) mod (maxBias + 1) in the i-th call. Random numbers are not used twice. An alternating strategy delegates to its two strategies in turn, changing after every period calls.", "quantifier": "all parameters, all sequences of calls, all sets of variables, all contents of the vectors", "why_tests_cant": "Chances, overflow and the change between strategies depend on the number of calls and on the parameters, of which tests try a few.", "anchors": ["src/candy/randomsimulation/Randomization.h: Randomization, createSimpleRandomization, createRandomizationBiasedToTrue, createRandomizationCyclicallyBiasedToTrue, alternateRandomizations", "src/candy/randomsimulation/Randomization.cc: SimpleRandomization, RandomizationCyclicallyBiased, AlternatingRandomization"]}
{"id": "C67", "title": "Random simulation returns exactly the conjectures that no simulated evaluation refutes", "statement": "A random simulator is built for the gates of a problem and run any number of times. No run has undefined behaviour. A run with bound n simulates at least n and less than n + 2048 assignments unless it is stopped by the heuristic or the time limit. All assignments simulated are evaluations of the circuit. The conjectured backbones are exactly the literals of gate outputs that were true in all assignments simulated so far; in particular no literal that is true in all evaluations is missed. Literals conjectured to be equivalent had the same value in all of them, and all literals with the same values are conjectured. Filters and counts of conjectures do what they say.", "quantifier": "every formula, every recognised circuit, every strategy of randomisation, every contents of uninitialised memory, every sequence of runs with any bounds, any times of stopping", "why_tests_cant": "The result combines traversal, randomisation, bit-parallel evaluation and hashing over any number of steps; tests compare the conjectures of a few circuits.", "anchors": ["src/candy/randomsimulation/RandomSimulator.h: BitparallelRandomSimulator, BitparallelRandomSimulatorBuilder", "src/candy/randomsimulation/RandomSimulator.cc: ensureInitialized, runImpl, build", "src/candy/randomsimulation/SimulationVector.cc: SimulationVectors::initialize", "src/candy/randomsimulation/Conjectures.cc: getMaxVar, countLiteralEquivalences, createSizeConjectureFilter, createBackboneRemovalConjectureFilter"]}
{"id": "C68", "title": "The miter detector decides exactly what it describes, in any iteration order", "statement": "The detector of miters is asked about the gates recognised in a problem. It always ends, and answers yes exactly if the following holds: the region of gates reached from the roots through gates used in one sign only has a border, that is, gates with an input outside of the region; a gate used in both signs is next to the region; every border gate has exactly two input variables; no literal is an input of two border gates, and with every input literal its negation is an input of a border gate too. The answer does not depend on the order in which the hash set of border gates is iterated. A gate with two input variables that passes the test for binary exclusive ors implies by its clauses that its inputs differ, or that they are equal.", "quantifier": "every problem, every recognised circuit, every iteration order of the set of border gates", "why_tests_cant": "The answer depends on the traversal of a shared graph, on the moment at which gates become visible during the traversal and on the iteration order of hash sets of pointers, which differs from run to run.", "anchors": ["src/candy/gates/MiterDetector.cc: hasPossiblyMiterStructure, MonotonousRegionBorderGateCollector, isBinaryXORGate", "src/candy/gates/GateDFSTraversal.h: traverseDFS"]}
{"id": "C69", "title": "Filtering of branching advice removes exactly the marked variables", "statement": "The advice of implicit learning is filtered with heuristics. The filter never accesses an array out of bounds. It empties the entries of the variables that a heuristic marks, and removes from all other entries exactly the literals whose variables are marked. The remaining literals keep their budgets. If only backbones are to be filtered, all other entries stay as they are.", "quantifier": "all advice, all sizes of entries and budgets, every list of heuristics, whatever they mark", "why_tests_cant": "Literals are removed during the iteration, with the last literal moved to the free place; a literal that is skipped or checked twice shows only for particular positions of marked literals.", "anchors": ["src/candy/systems/branching/rsil/RSARHeuristicsFilter.h: filterWithRSARHeuristics", "src/candy/systems/branching/rsil/ImplicitLearningAdvice.h: removeLiteral"]}
{"id": "C70", "title": "The centralities of VSIDSC are normalised betweenness centralities", "statement": "When the branching heuristic VSIDSC computes centralities, every variable that occurs in a clause together with another variable gets its betweenness centrality in the graph of variables (two variables are neighbours if they occur in a common clause): the sum, over all pairs of other variables, of the fraction of shortest paths that pass through it; divided by the largest such sum. The numbers are between 0 and 1, and 1 is among them. The computation ends and stays inside of its vectors. With the option for the largest component the numbers are those of that component; with sampling the sum is over the drawn start variables.", "quantifier": "every list of clauses without empty clauses and repeated variables, every scope and sample", "why_tests_cant": "Counts of shortest paths are accumulated in reverse order of a breadth-first search; errors only show on graphs with particular numbers of shortest paths, components or orders of variables.", "anchors": ["src/candy/teexgraph/CenGraph.cpp: Graph::betweennessCentrality", "src/candy/systems/branching/VSIDSC.h: init_graph, calcCentrality"]}
{"id": "C71", "title": "Connected components of the graph of variables are exact", "statement": "The computation of weakly connected components for VSIDSC ends and stays inside of its vectors. Two variables get the same component if and only if they are linked by a chain of variables of which neighbours occur in a common clause. The reported size of the largest component is the largest number of variables that are linked.", "quantifier": "every list of clauses without empty clauses and repeated variables in which two variables occur together, either order of evaluation of arguments", "why_tests_cant": "The number of components indexes a vector with as many elements as nodes, and the queue is shared between components; both depend on the shape of arbitrary graphs.", "anchors": ["src/candy/teexgraph/Graph.cpp: Graph::computeWCC, Graph::nodes, Graph::inScope"]}
{"id": "C72", "title": "Pre- and inprocessing end by themselves", "statement": "A call that simplifies clauses, before the search or between restarts, always ends: the rounds of subsumption, reduction and variable elimination are repeated while they change more than a tenth of what the best round changed, and this cannot go on for ever, whatever was added and solved before, whatever the termination callback returns and in whatever order clauses and variables are visited. What the rounds do as a whole is covered by the guarantees for any number of rounds, so that UNSAT answers of such calls are right.", "quantifier": "every history of calls, every state at the head of the main loop of solve, all options, every termination callback, all clause addresses and orders of variables", "why_tests_cant": "Elimination adds clauses and literals that the next round may change again; the measure that gets smaller combines the variables left and the literals in the database.", "anchors": ["src/candy/core/Solver.h: processClauseDatabase, solve", "src/candy/simplification/Subsumption.h: subsume, nTouched", "src/candy/simplification/AsymmetricVariableReduction.h: reduce, nTouched", "src/candy/simplification/VariableElimination.h: eliminate, nTouched"]}
{"id": "C73", "title": "Objects in paged memory", "statement": "A memory of objects hands out a place inside a page for every new object, behind all others, and never moves or changes an object; a loop over it visits every object exactly once in the order of creation, however many pages there are and also if some are empty; sorting leaves the sorted sequence of the same objects. Subsumption, which creates objects while it loops over the memory, is defined and correct for every number of clauses and pages.", "quantifier": "all sequences of allocations, page sizes, object sizes, growth policies of the vector, loop bodies, and all formulas for the use in subsumption", "why_tests_cant": "A page holds two million objects; the behaviour at the boundary of a page while a loop is running depends on the exact number of clauses and on the capacity of the vector, which no unit test reaches.", "anchors": ["src/candy/mtl/Memory.h: MemoryPage, Memory, Memory::const_iterator, Memory::sort", "src/candy/simplification/Subsumption.h: Subsumption::subsume", "src/candy/simplification/SubsumptionClauseDatabase.h: create, init"]}
{"id": "C74", "title": "Eccentricities, diameter, radius, periphery and center of the largest component", "statement": "The computation of extreme distances with upper and lower bounds ends, stays inside of its vectors, and yields what the definitions say for the largest connected component: the eccentricity of every node, the largest and the least eccentricity, and the numbers of nodes that have these. The plain computations, which search from every node, yield the same.", "quantifier": "all undirected graphs without loops and isolated nodes, all five measures", "why_tests_cant": "Nodes are dropped as soon as their bounds meet or cannot matter, in an order that depends on the whole graph, and leaves with the same neighbour are left out beforehand; that no dropped node matters has to hold for every graph.", "anchors": ["src/candy/teexgraph/BDGraph.cpp: Graph::extremaBounding, eccentricity, diameterBD, radiusBD, eccentricitiesBD, peripherySizeBD, centerSizeBD, eccentricitiesAPSP", "src/candy/teexgraph/BDGraph.cpp: pruning", "src/candy/teexgraph/BDGraph.cpp: diameterAPSP, radiusAPSP"]}
{"id": "C75", "title": "Strongly connected components of a directed graph are exact", "statement": "The computation of strongly connected components ends and stays inside of its vectors. Two nodes get the same component if and only if there are paths in both directions; components are numbered from 1 without gaps, their reported numbers of nodes and of edges are right, and the reported largest component has the most nodes.", "quantifier": "all directed graphs, with loops and parallel edges, that are built by adding edges between named nodes", "why_tests_cant": "The order in which the first search finishes nodes has to make the second, reversed search stop at the border of a component for every graph and every order of the edges.", "anchors": ["src/candy/teexgraph/Graph.cpp: Graph::computeSCC, goVisitSCC, goMarkSCC", "src/candy/teexgraph/Graph.cpp: mapNode, addEdge", "src/candy/teexgraph/Graph.h: sccId, sccNodes, sccEdges"]}
{"id": "C76", "title": "Distances, their distribution and their average are exact", "statement": "The distance of two nodes is the length of a shortest path, or -1 if there is no path. The distribution of distances gives for every distance the number of pairs of nodes, and the average distance is the mean over all pairs of different nodes of the scope. The computations end and stay inside of their vectors.", "quantifier": "all directed and undirected graphs, with loops and parallel edges, all pairs of nodes, scopes and sample sizes", "why_tests_cant": "A breadth-first search has to visit nodes in the order of their distances for every graph and every order of the edges, and the index of a counter has to stay below the number of nodes.", "anchors": ["src/candy/teexgraph/Graph.cpp: Graph::distance, alldistances, distances, distanceDistribution, averageDistance, inScope", "src/candy/teexgraph/CenGraph.cpp: Graph::closenessSum, closenesses"]}
{"id": "C77", "title": "Queries of edges, undirected graphs and reciprocity are exact", "statement": "After any sequence of calls, a query tells whether there is an edge between two nodes. Making a graph undirected adds exactly the reversed edges and removes repetitions, so that the number of edges and the average degree are right. The reciprocity is the fraction of the edges for which there is an edge in the other direction.", "quantifier": "all directed graphs with loops and parallel edges, all sequences of calls, all pairs of nodes", "why_tests_cant": "The loop that makes a graph undirected appends to the lists it reads, and queries sort lists that others may be reading; a binary search has to be right for every sorted list and every value.", "anchors": ["src/candy/teexgraph/Graph.cpp: Graph::edge, edgeSlow, sortEdgeList, makeUndirected, addEdge, reciprocity, averageDegree", "src/candy/systems/branching/VSIDSC.h: init_graph"]}
{"id": "C78", "title": "Closeness centrality is the reciprocal of the average distance", "statement": "The closeness centrality of a node is the number of nodes of the scope divided by the sum of the distances between the node and the nodes of its component. The computation ends and stays inside of its vectors.", "quantifier": "all undirected graphs, with loops and parallel edges, both scopes, computed components or none", "why_tests_cant": "Distances from every node are added in one vector over all searches; the sums have to be those of the distances to a node for every graph, component and order of the edges.", "anchors": ["src/candy/teexgraph/CenGraph.cpp: Graph::closeness, closenesses, closenessCentrality", "src/candy/teexgraph/Graph.cpp: Graph::inScope, nodes, nodesInWcc, wccOf"]}
{"id": "C79", "title": "Triangles, wedges and clustering coefficients are exact", "statement": "The number of triangles of a scope is the number of sets of three of its nodes that are pairwise connected by an edge in any direction, the number of wedges is the sum of the numbers of pairs of neighbours of its nodes. The clustering coefficient of a graph is three times the quotient of these numbers, that of a node is the part of the pairs of its neighbours that are neighbours. Loops and parallel edges do not count. The queries made by the computation may sort the edges, without an effect on the result.", "quantifier": "all sequences of calls that add edges, make the graph undirected, sort or query it; all nodes and scopes", "why_tests_cant": "Every triangle has to be counted exactly three times for every numbering of the nodes, and edges are sorted by the first query while the computation runs.", "anchors": ["src/candy/teexgraph/Graph.cpp: Graph::trianglesWedgesAround, triangles, wedges, graphClusteringCoefficient, nodeClusteringCoefficient, localClustering, averageClusteringCoefficient"]}
{"id": "C80", "title": "PageRank values are those of a hundred rounds, add up to one and are close to the solution", "statement": "The PageRank of the nodes is the result of a hundred rounds of the equations of PageRank with the damping factor 0.85, starting with equal values. The values add up to one, each is at least 0.15 divided by the number of nodes, and the distance to the solution of the equations decreases with the power of the damping factor. The computation stays inside of its vectors.", "quantifier": "all directed and undirected graphs, with loops and parallel edges", "why_tests_cant": "The sum and the rate of convergence are properties of all graphs, and values are passed along edges in the order of the lists of edges.", "anchors": ["src/candy/teexgraph/CenGraph.cpp: Graph::pageRankCentrality"]}
{"id": "C81", "title": "Eccentricity centrality is the eccentricity of each node", "statement": "The eccentricity centrality of a node of the scope is its eccentricity, the largest distance to a node of its component, and -1 for nodes outside of the scope. Leaves that were pruned for the largest component do not change the results of other components. The computation stays inside of its vectors.", "quantifier": "all undirected graphs in which every node has a neighbour, both scopes, with components computed before or not", "why_tests_cant": "Results of two algorithms are combined, the second of which reads the state that the first leaves behind, for every graph.", "anchors": ["src/candy/teexgraph/CenGraph.cpp: Graph::eccentricityCentrality", "src/candy/teexgraph/BDGraph.cpp: Graph::eccentricity, eccentricitiesBD, extremaBounding, pruning"]}
{"id": "C82", "title": "Density and degrees of graphs", "statement": "The density of a graph is the number of its edges divided by the number of possible edges (pairs of different nodes, or all pairs if some node has an edge to itself), it lies between 0 and 1, the degree centrality of a node is the number of nodes to which it has an edge, and the degrees sum up to the number of edges.", "quantifier": "all graphs", "why_tests_cant": "It ranges over all graphs, with or without parallel edges and edges from a node to itself.", "anchors": ["src/candy/teexgraph/Graph.cpp: density, selfEdges, outdegreeDistribution", "src/candy/teexgraph/CenGraph.cpp: degreeCentrality, outdegreeCentrality"]}
