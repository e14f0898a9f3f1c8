#!/usr/bin/env python3
"""Writes /verif/properties.jsonl.  Run after editing the table below."""
import json
P = []
def add(title, statement, quantifier, why, anchors):
    P.append(dict(id="C%02d" % (len(P)+1), title=title, statement=statement,
                  quantifier=quantifier, why_tests_cant=why, anchors=anchors))

add("Literal encoding is faithful",
    "For every variable id below 2^30, every sign and every watch flag, a Literal built from them returns exactly that variable, sign and flag; negation keeps the variable, flips the sign, clears the flag and is an involution; the integer form (toInt/toLit, encodeLit/decodeLit) round-trips; two literals have the same index() iff they agree on variable and sign; trueValue/falseValue of a literal are the two distinct assigned values and are swapped by negation.",
    "all 32-bit literal representations, all variables < 2^30, both signs, both flag values",
    "2^32 representations and all pairs of them; a test samples a handful of variables",
    ["clasp/literal.h: Literal, toInt, toLit, encodeLit, decodeLit, trueValue, falseValue, valSign"])
add("Packed constraint scores and infos keep their fields apart",
    "Activity, lbd and the bumped flag of a learnt constraint share one 32-bit word with the type, aux and tag fields, yet writing any one of them leaves every other field unchanged; activity and lbd saturate at their maxima instead of wrapping into a neighbouring field; reducing a score never increases activity and clears the bumped flag.",
    "all 32-bit words, all written values",
    "an interference bug appears only for particular bit patterns near saturation",
    ["clasp/constraint.h: ConstraintScore, ConstraintInfo"])
add("Preferred-value slots are independent",
    "For a variable's preference record, setting the user / saved / preferred / default value replaces that slot only; the sign proposed for branching is the one of the highest-priority non-empty slot (user over saved over preferred over default).",
    "all 8-bit records and all values for every slot",
    "the priority is implemented by a bit trick (lowest set bit) whose correctness is a statement about all 256 records",
    ["clasp/solver_types.h: ValueSet"])
add("Reasons are stored without loss",
    "An antecedent made from one literal, from two literals, or from a constraint reference reports its kind correctly and gives back exactly the literals (or the reference) it was made from, for all literal ids below 2^31.",
    "all pairs of literals and all 4-aligned addresses",
    "space of 2^62 pairs; tests use tiny variable numbers that never reach the upper bits of the packing",
    ["clasp/constraint.h: Antecedent"])
add("The indexed priority queue is a priority queue",
    "After any sequence of push, pop, remove, update, increase and decrease on the queue, where a key's priority changes only if that key is updated (or, for a change in one direction, increased/decreased) right away, or all priorities change in an order-preserving way, top() is a minimal element with respect to the comparison, the set of queued keys is exactly the set obtained from the operations, and membership queries answer accordingly.",
    "all comparison functions that are strict weak orders, all key sets, all operation sequences of any length",
    "the heap shape depends on the whole operation history; tests cover short histories",
    ["clasp/util/indexed_priority_queue.h: indexed_priority_queue"])
add("left_right_sequence behaves as two independent sequences",
    "For every sequence of push_left, push_right, pop_left, pop_right, erase_left, erase_right, shrink and clear operations, the left part and the right part read back exactly as two separate sequences would, also across reallocation, and the two never overlap in memory.",
    "all element values, all operation sequences, all inline capacities",
    "overlap and copy errors show only at particular size/capacity combinations reached by long histories",
    ["clasp/util/left_right_sequence.h: left_right_sequence"])
add("Restart schedules produce the documented sequences",
    "The Luby schedule with unit u and no limit yields u times the Luby sequence 1,1,2,1,1,2,4,...; with a limit it restarts with a doubled inner length; the other schedules restart their index after len steps with len growing by one; and jumping ahead with advanceTo(n) leaves the schedule in the same state as n calls of next().",
    "all indices n, all units, all limits",
    "equality of infinite sequences; the closed form and the jump are only spot-checked by tests",
    ["src/solver_strategies.cpp: lubyR, ScheduleStrategy::next, ScheduleStrategy::advanceTo"])
add("Broadcast queue: every consumer gets every later item once and in order",
    "In the multi-producer multi-consumer broadcast queue, under every interleaving of the atomic steps of publish and consume calls each of the m registered consumers receives the published items from the first on, once each, in one common order; a consumer is told that nothing is there only if it has taken every item whose publish call has returned; an item is handed to the release function only after every consumer has received it, and, with the destructor, exactly once; no dead node is ever accessed although nodes are recycled.",
    "all numbers of consumers, all interleavings of atomic steps, all item sequences",
    "the number of interleavings is unbounded; a stress test samples few",
    ["clasp/util/multi_queue.h: MultiQueue"])
add("Backtracking restores the assignment exactly",
    "After assigning any literals on any number of new decision levels and then undoing back to level d, the assignment (values, levels, reasons of assigned variables, trail order, propagation-queue position) is the one that held at the end of level d; values assigned on levels <= d are untouched and everything above is free again.",
    "all starting assignments, all sequences of decisions and forced literals, all target levels",
    "holds for histories of arbitrary length; a test fixes one history",
    ["clasp/solver_types.h: Assignment", "src/solver.cpp: Solver::assume, Solver::undoUntil, Solver::undoUntilImpl, Solver::undoLevel"])
add("Two-literal watching misses no unit clause and no conflict",
    "For every clause in the solver, when propagation of the trail has finished without conflict, the clause is satisfied, or has two non-false watched literals, so no clause is unit or falsified unnoticed; and every literal a clause forces is a literal of that clause all of whose other literals are false.",
    "all clauses of any length, all assignments, all orders of propagation, also after backtracking",
    "a missed implication needs a particular interleaving of watch moves and backtracking",
    ["src/solver.cpp: ClauseHead::propagate, Solver::unitPropagate", "src/clause.cpp: Clause::updateWatch"])
add("Short clauses propagate exactly their unit consequences",
    "With any set of added binary and ternary clauses, propagating a literal p over the short-implication graph forces exactly the literals implied by those clauses and the current assignment: every binary clause containing ~p forces its other literal, every ternary clause containing ~p with a second false literal forces the third; nothing else is forced; each reported reason together with the forced literal is one of the added clauses.",
    "all sets of short clauses (problem and learnt), all assignments, all literals",
    "quantifies over all clause sets and add orders",
    ["src/shared_context.cpp: ShortImplicationsGraph::add, ShortImplicationsGraph::Propagate, ShortImplicationsGraph::removeTrue, ReverseArc"])
add("Adding a clause never changes the problem",
    "Preparing a clause for the solver (dropping duplicate and top-level false literals, detecting tautologies and clauses true at the top level, choosing watches) yields a clause that has the same models as the given one in the context of the top-level assignment, and the reported status (open, unit, asserting, satisfied, subsumed, unsatisfiable) is correct for the current assignment.",
    "all literal sequences, all assignments and decision levels",
    "all inputs including duplicates, complementary and assigned literals in every combination",
    ["src/clause.cpp: ClauseCreator::prepare, ClauseCreator::status, ClauseCreator::watchOrder"])
add("Learnt conflict clauses are implied and asserting",
    "For every conflict, the clause produced by conflict analysis is a logical consequence of the constraints, is false under the current assignment, has exactly one literal from the conflict level, and after undoing to the reported level it is unit and asserts that literal.",
    "all problems, all trails with well-formed reasons, all conflicts on any level above the root",
    "ranges over all implication graphs",
    ["src/solver.cpp: Solver::analyzeConflict, Solver::resolveConflict"])
add("Conflict clause minimization is sound",
    "Literals removed from a learnt clause by local or recursive minimization are implied to be redundant: the shortened clause is still a consequence of the constraints, still contains the asserting literal, and is a subset of the original clause.",
    "all implication graphs, all learnt clauses, all minimization strategies (local, recursive, recursive with marks)",
    "the memo of visited/poison literals is history dependent",
    ["src/solver.cpp: Solver::simplifyConflictClause, Solver::ccMinimize, Solver::ccRemovable"])
add("Search verdicts are right for every strategy",
    "Whatever decision heuristic, restart policy, clause deletion and learning mode is used: if search reports a model, the reported total assignment satisfies all constraints and all assumptions; if it reports unsatisfiable, no assignment satisfies the constraints together with the assumptions.",
    "all clause sets, all choice sequences, all restart and deletion schedules",
    "the space of runs is unbounded",
    ["src/solver.cpp: Solver::search, Solver::resolveConflict, Solver::backtrack, Solver::propagate", "src/solve_algorithms.cpp: BasicSolve::solve"])
add("Enumeration by backtracking reports every model exactly once",
    "Enumerating with the backtracking strategy (no projection) until exhaustion reports every model of the problem (under the assumptions) exactly once, independently of the order of decisions and of clauses learnt in between.",
    "all problems, all decision heuristics, all learnt clauses",
    "completeness and non-repetition are statements about whole runs",
    ["src/model_enumerators.cpp: BacktrackFinder::doCommitModel, BacktrackFinder::doUpdate", "src/solver.cpp: Solver::backtrack, Solver::setBacktrackLevel"])
add("Enumeration by recording reports every (projected) model exactly once",
    "Enumerating with solution recording until exhaustion reports, for every projection set, each projected model exactly once; without projection the recorded decision nogood excludes exactly the models extending the current decisions.",
    "all problems, all projection sets, all decision orders",
    "statement about all runs and all projection sets",
    ["src/model_enumerators.cpp: RecordFinder::addProjectNogood, RecordFinder::addDecisionNogood, RecordFinder::doUpdate"])
add("Cautious and brave reasoning compute intersection and union",
    "When consequence enumeration finishes, the reported brave consequences are exactly the candidate literals true in at least one model and the reported cautious consequences exactly those true in all models; every intermediate answer is a lower (brave) or upper (cautious) bound.",
    "all problems, all candidate sets, all orders in which models are found",
    "statement about all orders of models",
    ["src/cb_enumerator.cpp: CBConsequences::addCurrent, CBFinder::doUpdate, QueryFinder"])
add("Optimization finds the lexicographic optimum",
    "With the branch-and-bound minimize constraint, for every step strategy each improving model is lexicographically strictly better than the last one, models excluded by the bound are never better than the incumbent, and when search is exhausted the last reported cost vector is the lexicographic minimum over all models.",
    "all weight vectors over any number of levels (negative lower-level weights included), all step strategies, all model sequences",
    "statement about all problems and bound histories",
    ["src/minimize_constraint.cpp: SharedMinimizeData::imp, DefaultMinimize::propagateImpl, DefaultMinimize::integrateBound, DefaultMinimize::updateBounds, SharedMinimizeData::setOptimum"])
add("Merging minimize statements preserves cost",
    "The normal form built from minimize statements (merging duplicate and complementary literals, removing assigned ones, turning priorities into levels, factoring out constants) assigns to every total assignment the same cost on every priority level as the statements that were added.",
    "all multisets of weighted literals with any priorities, all assignments",
    "all combinations of duplicates, complements, signs and priorities",
    ["src/minimize_constraint.cpp: MinimizeBuilder::prepareLevels, MinimizeBuilder::mergeLevels, MinimizeBuilder::createShared"])
add("Weight constraint normal form is equivalent",
    "Normalizing sum(w_i*l_i) >= bound (negative weights, duplicate and complementary literals, top-level assigned literals, coefficient reduction, division to a cardinality constraint) produces a constraint satisfied by exactly the same assignments extending the top-level assignment, provided no intermediate value leaves the 32-bit range; otherwise an error is raised.",
    "all literal/weight lists, all bounds, all top-level assignments",
    "all combinations, including extreme weights, which tests do not sample",
    ["src/weight_constraint.cpp: WeightLitsRep::create, WeightLitsRep::propagate"])
add("Weight constraint propagation is sound, complete and explainable",
    "For W == (sum(w_i*l_i) >= bound): every literal the constraint forces is implied by the processed literals; once all assigned literals are processed all four inference rules (forward true/false, backward true/false) have been applied; the reason given for a forced literal implies it; after backtracking the constraint is in the state it had before.",
    "all weights, bounds, orders of assignment and backtracking",
    "depends on the order of assignments and undo steps",
    ["src/weight_constraint.cpp: WeightConstraint::propagate, WeightConstraint::reason, WeightConstraint::undoLevel, WeightConstraint::updateConstraint"])
add("SAT preprocessing preserves satisfiability and models can be extended",
    "Subsumption, self-subsuming resolution, variable elimination by clause distribution and blocked clause elimination keep the problem equisatisfiable; every model of the simplified problem is extended by extendModel to a model of all original clauses, for every order in which variables were eliminated.",
    "all clause sets, all elimination orders, all models",
    "all clause sets and elimination orders",
    ["src/satelite.cpp: SatElite::subsumes, SatElite::bceVe, SatElite::addResolvent, SatElite::doExtendModel", "src/shared_context.cpp: SatPreprocessor::extendModel"])
add("Splitting the search space loses and duplicates nothing",
    "When a solver splits its search, the guiding path given away and the path it keeps are disjoint and together cover exactly the assignments of the path before the split; the split is refused when it would cut off literals that were flipped during enumeration or imported ones.",
    "all root paths and decision stacks, any number of successive splits",
    "sequence of arbitrary splits between many solvers",
    ["src/solver.cpp: Solver::splittable, Solver::split, Solver::copyGuidingPath, Solver::pushRootLevel"])
add("Failed-assumption cores are unsatisfiable",
    "If a problem has no model under the given assumptions, the reported core is a subset of the assumptions that is inconsistent with the constraints.",
    "all problems, all assumption lists, all implication graphs",
    "all implication graphs",
    ["src/solver.cpp: Solver::resolveToCore", "src/solve_algorithms.cpp: SolveAlgorithm::detach"])
add("Translating extended rules preserves stable models",
    "Replacing a choice rule or a cardinality/weight rule by normal rules (with or without auxiliary atoms) gives a program whose stable models, restricted to the original atoms, are exactly those of the original program, one for one.",
    "all programs, all rules, all weights and bounds, both translation strategies",
    "all rules of all sizes; semantics is a fixpoint",
    ["src/logic_program_types.cpp: RuleTransform::Impl::transform, transformSelect, transformSplit, transformChoice"])
add("Rule simplification preserves the meaning of a rule",
    "Simplifying a rule when it is added (removing duplicate body literals, detecting contradictory bodies, removing false/true goals, merging equal goals of aggregates, clamping weights, turning aggregates into normal bodies) does not change the stable models of the program.",
    "all rules, all programs containing them",
    "all combinations of duplicate and contradictory literals and bounds",
    ["src/logic_program.cpp: LogicProgram::simplifyNormal, simplifySum, pushHead"])
add("Components of the positive dependency graph are right",
    "The component computation puts two atoms into the same non-trivial component iff they reach each other through positive dependencies, marks all other atoms as trivially connected, and terminates on every graph.",
    "all finite dependency graphs",
    "all graphs; the iterative algorithm with reused ids has subtle states",
    ["src/logic_program_types.cpp: SccChecker"])
add("Unfounded-set propagation is sound and complete on total assignments",
    "Every set of atoms falsified by the unfounded-set checker is unfounded with respect to the current assignment and the loop clause used as reason is implied by the stable-model semantics; when the checker reports no unfounded set on a total assignment that satisfies the completion, the assignment is a stable model.",
    "all programs (normal, choice, weight bodies), all assignments",
    "all programs and partial assignments",
    ["src/unfounded_check.cpp: DefaultUnfoundedCheck::findUfs, findSource, isValidSource, computeReason, addIfReason"])
add("Completion clauses capture exactly the supported models",
    "The clauses created for atoms and bodies of a program are satisfied exactly by those assignments that are supported models of the program with body variables set to the truth of their bodies; for tight programs these are exactly the stable models.",
    "all normal and choice programs, all assignments",
    "all programs",
    ["src/logic_program_types.cpp: PrgAtom::addConstraints, PrgBody::addConstraints"])
add("Clause deletion only removes unlocked learnt constraints",
    "Reducing the learnt database never removes a constraint that is currently the reason of a literal nor one protected by its glue value, never touches problem constraints, removes at most the requested number, and keeps the remaining constraints in the database.",
    "all databases, all reduction algorithms, all limits",
    "all databases and scores",
    ["src/solver.cpp: Solver::reduceLearnts, reduceLinear, reduceSort, reduceSortInPlace"])
add("Exit codes and results agree",
    "The exit code and the result reported for a finished, interrupted or failed solve are determined by the search outcome as documented: satisfiable/unsatisfiable/optimum bits reflect models found and exhaustion, and interruption never yields a claim of exhaustion.",
    "all combinations of model counts, exhaustion, optimization and signals",
    "combination of independent flags in all orders",
    ["src/clasp_app.cpp: ClaspAppBase::exitCode, ClaspAppBase::run", "src/clasp_facade.cpp: ClaspFacade::SolveStrategy", "clasp/clasp_facade.h: SolveResult"])
add("Reference-counted shared literals are freed exactly once",
    "Under every interleaving of share and release by any number of owners, a shared clause is deallocated exactly when the last owner releases it, and never accessed or freed afterwards.",
    "all interleavings, any number of owners",
    "unbounded interleavings",
    ["src/clause.cpp: SharedLiterals::share, SharedLiterals::release, SharedLiterals::unique"])
add("DIMACS and OPB input means what the format says",
    "For every syntactically correct input the clauses and linear constraints handed to the solver have exactly the models the format assigns to the text, including negated literals, equality constraints, negative coefficients and product terms.",
    "all clause lists / constraint lists representable in the formats",
    "all inputs",
    ["src/parser.cpp: DimacsReader, OpbReader", "src/program_builder.cpp: SatBuilder, PBBuilder"])
add("Equality constraints mean equality",
    "Creating an equality constraint W == (sum(w_i*l_i) = bound) restricts the problem to exactly those assignments in which W is true if and only if the weights of the true literals add up to the bound.",
    "all literal/weight lists, all bounds, all literals W, all top-level assignments",
    "all weights and bounds, in particular those for which the weights share a divisor",
    ["src/weight_constraint.cpp: WeightConstraint::create (create_eq_bound)", "src/program_builder.cpp: PBBuilder::addConstraint"])

add("Loop formulas propagate exactly what their clauses imply",
    "The compact constraint created for an unfounded set (one object standing for the clauses {a, B1, ..., Bm} for all atoms a of the loop) behaves like these clauses: every literal it forces and every conflict it reports is implied, with the reason it returns, by these clauses and the top-level facts; the literals of a reason were true before; when propagation has come to an end no clause is violated and none is unit without its literal being true; simplification keeps the models and leaves no dangling watch; and the object is locked as long as it is the reason of some literal.",
    "all bodies and atoms, all interleavings of assignments, decisions, notifications in any order, backtracking, opening and simplification",
    "all interleavings; the lazily updated active atom makes errors depend on rare orders of notifications",
    ["src/clause.cpp: LoopFormula::propagate, otherIsSat, reason, locked, isOpen, simplify, detach", "src/unfounded_check.cpp: DefaultUnfoundedCheck::createLoopFormula"])

add("The bound of an optimization is propagated exactly",
    "During branch-and-bound optimization the solver's cost is at all times the weighted sum of the true literals it was told about; every literal set and every conflict raised because of the current bound is justified: all assignments that contain the stated reason but not the literal cost more than the bound (comparing levels lexicographically), and the reason was true before; when propagation has come to an end no unassigned literal would exceed the bound, so a total assignment that is accepted costs no more than the bound; and if a new bound is refused for the current guiding path, then every assignment compatible with the path costs more.",
    "all minimize statements over any number of priority levels (also with negative weights), all interleavings of assignments, decisions, notifications, conflicts, backjumps, implied literals, root level changes and sequences of bounds",
    "sparse multi-level weights, saved positions and cached comparison levels make errors depend on rare interleavings of backjumps and bounds",
    ["src/minimize_constraint.cpp: DefaultMinimize::propagate, propagateImpl, computeImplicationSet, undoLevel, reason, relaxBound, integrateBound", "clasp/minimize_constraint.h: SharedMinimizeData::add, sub, imp", "src/solver.cpp: Solver::force, ImpliedList::assign"])

add("Core-guided optimization finds the optimum and reports correct lower bounds",
    "Optimization by unsatisfiable cores (algorithms oll, one, k and pmr, with or without succinct constraints, disjoint preprocessing, stratification and core trimming, over any number of priority levels) never reports a lower bound above the cost of the best model of the current level; a model is accepted exactly if it is lexicographically better than the last one; the search only ends when there is no model at all or the last accepted model is optimal; the constraints added on the way never exclude an optimal model, and at the end they leave exactly the optimal models; a model found while all assumptions hold costs as much as the lower bound and completes its level. This is for a search without a bound given by the user.",
    "all problems, all minimize statements (also with negative weights), all options, all sequences of cores, models, trimming steps and top-level facts the solver may deliver",
    "the encodings of cores refer to each other and to weights that are split and reduced; errors show only for certain sequences of overlapping cores",
    ["src/minimize_constraint.cpp: UncoreMinimize::integrate, initLevel, pushPath, valid, handleModel, handleUnsat, addNext, addCore, addOll, addOllCon, addK, addPmr, addPmrCon, closeCore, fixLevel, resetTrim", "clasp/minimize_constraint.h: UncoreMinimize"])

add("A theory propagator is told about changes and backtracking faithfully",
    "A propagator registered with clasp is told about each watched literal that becomes true on the level on which it became true, never twice, and before check() is called, a decision is made or a model is accepted; when a level is removed undo() is called with exactly the literals reported on that level, and (by default) not at all if there were none; check() has been called on exactly the current assignment whenever a model is accepted (and, if checks on fixpoints are enabled, whenever a decision is made); if undo mode Always is set undo() is also called for each level on which check() was called; Control::propagate() returns true only if the level on which it was called is still there; no internal requirement of the adaptor is violated, also if the propagator adds clauses, causes backjumps or changes watches inside its callbacks.",
    "all interleavings of assignments, decisions, lookahead tests, conflicts, backjumps, callbacks, added and removed watches, check and undo modes",
    "the undo stack mixes trail offsets and check marks; errors need a certain order of checks, changes, conflicts and backjumps inside callbacks",
    ["src/clingo.cpp: ClingoPropagator::registerUndo, registerUndoCheck, propagate, undoLevel, propagateFixpoint, isModel, init, Control::propagate, Control::addWatch, Control::removeWatch", "clasp/clingo.h: ClingoPropagatorCheck_t, ClingoPropagatorUndo_t, ClingoPropagatorInit::enableClingoPropagatorUndo", "src/solver.cpp: Solver::undoLevel, undoUntilImpl, propagateUntil"])

add("Watches registered for a theory propagator reach the solvers they are meant for",
    "When a solver is attached, the set of literals the propagator watches in it is exactly what the calls addWatch and removeWatch (for all solvers or for this one), made in any order over all solving steps so far, ask for, although changes are sorted, filtered and all but the last change of a literal are skipped; with history enabled this also holds for solvers attached later; a variable is frozen (exempt from preprocessing) if and only if one of its literals is to be watched by some solver or was frozen explicitly, so that no eliminated variable is ever watched.",
    "all sequences of calls over any number of steps, all solvers with ids below 64, all orders of attaching solvers",
    "the order of changes matters only for certain combinations of global and per-solver calls over several steps",
    ["src/clingo.cpp: ClingoPropagatorInit::prepare, unfreeze, init, addWatch, removeWatch, freezeLit, Change::operator<, solverMask, apply, History::add", "clasp/clingo.h: ClingoPropagatorInit"])

add("The graph of an acyclicity constraint stores exactly the given edges",
    "Whatever edges are added over any number of solving steps, between new nodes, old nodes or both: if the graph is updated before edges are added to it, no internal requirement fails; once finalized, the edges listed as leaving a node and the edges listed as entering a node are exactly the given ones with their conditions; every condition is protected from elimination; and an edge keeps its identifier as long as the generation of the graph does not change.",
    "all sequences of addEdge, finalize and update, all nodes and conditions, any number of steps",
    "offsets of old nodes are reused or rebuilt depending on which nodes the new edges touch; errors need certain combinations over several steps",
    ["src/dependency_graph.cpp: ExtDepGraph::addEdge, frozen, update, finalize", "clasp/dependency_graph.h: ExtDepGraph::fwdBegin, fwdNext, invBegin, invNext, CmpArc", "src/logic_program.cpp: LogicProgram::addAcycConstraint"])

add("Acyclicity constraints admit exactly the assignments whose true edges contain no cycle",
    "In every strategy and at every moment of the search: a conflict reported for an acyclicity constraint, a clause it adds and a reason it returns hold in every assignment without a cycle of true edges that is consistent with level 0; reasons contain only literals assigned earlier; every search for cycles ends; whenever propagation is complete the true edges contain no cycle, and, unless only forward search is configured, an edge that would close a cycle of true edges is already false, on the level on which the others became true; edges may be added in later solving steps.",
    "all graphs with arbitrary conditions (also shared ones), all strategies, all orders of assignments, decisions, conflicts, backjumps, restarts, interrupts and added edges",
    "tags, parents and watches are reused between searches and steps; a missed cycle needs a certain order of assignments, interrupts or growth of the graph",
    ["src/dependency_graph.cpp: AcyclicityCheck::init, propagateFixpoint, dfsForward, dfsBackward, startSearch, addClauseLit, reason, reset, ExtDepGraph::attach", "clasp/dependency_graph.h: AcyclicityCheck", "src/solver.cpp: Solver::setStopConflict, clearStopConflict, cancelPropagation, getWatch"])

add("Activity-based decisions pick a free variable with the highest activity",
    "Whenever the solver needs a decision while some variable is free, the heuristics Vsids and Domain (as far as it inherits from it) return a free variable, and no free variable has a higher level, or the same level and a higher activity; neither the priority queue nor the heuristic ever accesses something that does not exist, whatever activities change, whatever is assigned, unassigned, simplified, added or removed in between; a random decision also ends with a free variable.",
    "all sequences of calls to the heuristic allowed by the solver, over any number of solving steps, any activities in any linear order (scaling must keep the order)",
    "the indexed heap must stay consistent with changing keys, lazy removal and lazy re-insertion; an error needs a long history",
    ["src/heuristics.cpp: ClaspVsids_t::startInit, endInit, updateVar, simplify, normalize, updateVarActivity, newConstraint, updateReason, bump, undoUntil, doSelect", "clasp/util/indexed_priority_queue.h: indexed_priority_queue", "src/solver.cpp: Solver::decideNextBranch", "clasp/solver_strategies.h: DecisionHeuristic::select"])

add("The sign of a decision follows the preferences of the variable",
    "The value given to a decision variable is the one asked for by the user if there is one, else the saved one, else the preferred one, else the one indicated by the sign score of the heuristic, else the default one, whatever preferences were set, saved, cleared and reset before.",
    "all sequences of changes of preferences, all scores, all defaults",
    "four preferences share a byte and are set, cleared and tested with masks; errors show only for certain combinations",
    ["clasp/solver_types.h: ValueSet", "src/heuristics.cpp: DecisionHeuristic::selectLiteral, ClaspBerkmin::selectLiteral", "clasp/solver.h: Solver::setPref, defaultLit"])

add("Move-to-front decisions pick a free variable",
    "Whenever the solver needs a decision while some variable is free, the heuristic Vmtf returns a free variable after finitely many steps, whatever was learnt, assigned, unassigned, simplified, added or removed before, over any number of solving steps; the variable moved to the front last is chosen if it is free, unless the next candidate has a clearly higher activity.",
    "all sequences of calls to the heuristic allowed by the solver, over any number of solving steps",
    "the linked list has no separate mark for membership; errors need lists with one element or removal of the current front",
    ["src/heuristics.cpp: ClaspVmtf::startInit, addToList, removeFromList, moveToFront, endInit, updateVar, simplify, newConstraint, undoUntil, doSelect", "clasp/heuristics.h: ClaspVmtf::VarInfo::inList"])

add("Heuristic modifications are in effect exactly while their conditions hold",
    "With the domain heuristic, whenever a decision is to be made, level, factor and sign of each unassigned variable are those of a modification given for it whose condition holds and whose priority is highest among the given modifications whose conditions hold, and the initial ones if there is none; whatever modifications were applied and taken back before by propagation and backtracking, in however many steps modifications were given, and although entries of the table for the same variable and condition are merged.",
    "all tables of modifications (level, sign, factor, true, false) with arbitrary priorities and conditions, all orders of assignments, decisions, notifications and backtracking, any number of steps",
    "values in effect and values to be restored are exchanged in place and chained through undo lists over levels; errors need several modifications of one variable on several levels",
    ["src/heuristics.cpp: DomainHeuristic::initScores, addDomAction, propagate, applyAction, pushUndo, undoLevel", "src/shared_context.cpp: DomainTable::simplify", "clasp/shared_context.h: DomainTable"])

add("The minimality check of disjunctive programs is exact",
    "For each component of a disjunctive program that is not head-cycle-free, the test of an assignment succeeds exactly if no nonempty set of atoms of the component that are not false is unfounded; a set returned by it is unfounded, so that its atoms are false in all answer sets that agree with the assignment, and the reason given for that is false now and valid in all answer sets; a total assignment that satisfies the rules is reported exactly if it is an answer set. This holds in all states of the component, whatever the two solvers have learnt and simplified since it was built. The test is available for every program whose aggregates are not recursive through such a component.",
    "all programs with disjunctions, choices, normal rules and aggregates, all partial and total assignments, all sequences of facts, simplifications and tests",
    "a second solver works on an encoding with up to three variables per atom and assumptions taken from the first one; an error in one clause shows only for particular cycles, assignments and times of simplification",
    ["src/dependency_graph.cpp: PrgDepGraph::addSccs, addNonHcf, simplify, NonHcfComponent, ComponentMap::addVars, addAtomConstraints, addBodyConstraints, mapGeneratorAssignment, mapTesterModel, simplify", "src/unfounded_check.cpp: DefaultUnfoundedCheck::findNonHcfUfs, computeReason, addIfReason, addDeltaReason, isExternal", "src/logic_program.cpp: LogicProgram::prepareComponents"])

add("Shifting disjunctions by components preserves the answer sets",
    "When the disjunctions of a program are replaced by normal rules and by disjunctions within one component, the answer sets of the program stay the same up to auxiliary atoms; the redundant rules added for stronger propagation do not matter; exactly the components with a remaining disjunction are recorded as not head-cycle-free, and auxiliary atoms get the component they are in.",
    "all programs with disjunctions, any number of supports, facts and false atoms among their heads, arbitrary positive cycles",
    "shifting is wrong for atoms that depend on each other; auxiliary atoms can create cycles after components were computed; errors need particular cycles through several rules",
    ["src/logic_program.cpp: LogicProgram::finalizeDisjunctions, getEqAtomLit, DlpTr", "src/logic_program_types.cpp: RuleTransform::Impl::transformDisjunction", "clasp/logic_program_types.h: NonHcfSet"])

add("Lookahead is sound, loses no candidate and misses no failing literal",
    "With lookahead enabled, every literal it adds is true in all models that agree with the assignment so far, a literal it rejects is false in all of them, and it reports a conflict only if there is none; above level 0 it adds nothing itself. Whatever was assigned, decided, taken back, stopped or appended before, a candidate whose variable is free is still in the candidate list. If a run succeeds, is not cut short by requests of other threads and adds nothing, then no free candidate fails when tested.",
    "all sequences of appended candidates, assignments, decisions, backtracking and runs of lookahead, all behaviours of propagation, stops by other threads at any time",
    "candidates are moved between two linked lists while levels come and go, tests are skipped if a literal followed from an earlier test, and implied literals are kept between tests; errors need particular orders of levels, stops and tests",
    ["src/lookahead.cpp: Lookahead::append, propagateLevel, test, checkImps, undoLevel, splice, ScoreLook::scoreLits, clearDeps", "clasp/lookahead.h: VarScore, Lookahead", "src/solver.cpp: Solver::test, undoUntil"])

add("Parallel search is reported as exhausted only if everything was searched",
    "When parallel solving ends with the report that the search space is exhausted, every part of the search space was searched by some thread, whatever the mode (competition or splitting), the way of enumerating models, the number and scheduling of the threads, global restarts, interrupts, and threads that run out of memory. With splitting and without restarts and failures no part is searched twice.",
    "all numbers of threads up to 64, all interleavings of their steps, all ways of splitting, all times of models, restarts, interrupts and failures",
    "the report depends on flags and a queue accessed by up to 64 threads; errors need a particular order of steps of several threads",
    ["src/parallel_solve.cpp: SharedData::requestWork, enterWait, waitSync, leaveAlgorithm, ParallelSolve::beginSolve, solveParallel, requestWork, terminate, waitOnSync, initQueue, commitUnsat, commitModel, handleMessages, requestRestart, exception, ParallelHandler::solveGP, handleSplitMessage", "clasp/mt/parallel_solve.h: ParallelSolve, ParallelHandler", "src/model_enumerators.cpp: ModelEnumerator::BacktrackFinder::doUpdate"])

add("The Berkmin heuristic decides as described",
    "Whenever a variable is free, the Berkmin heuristic returns a free variable. If the most recent conflict nogood that is not satisfied is within the number of nogoods to be looked at, the variable is one of its free variables with the highest activity, and among those with the best static score, however many decisions were made since the last backtracking; other decisions from nogoods are made the same way from a nogood that is not satisfied. Otherwise, with activities, no free variable has a higher activity, if no activity changed since the last backtracking; without activities, no free problem variable has a better static score. (Activities older than 31 decays, which the code documents as random noise, excluded.)",
    "all sequences of initialization, assignments, backtracking, learnt nogoods, score changes, added and removed variables and decisions, all parameters (huang, maximal number of nogoods, loop and other nogoods)",
    "the search for nogoods continues where the last decision left off and the order of variables is kept in a cache of changing size, while scores decay lazily; errors need particular sequences of decisions and backtracking",
    ["src/heuristics.cpp: ClaspBerkmin::startInit, endInit, updateVar, undoUntil, hasTopUnsat, doSelect, selectRange, getMostActiveFreeVar, getTopMoms, Order::resetDecay", "clasp/heuristics.h: ClaspBerkmin, HScore, Order", "src/clause.cpp: Clause::isOpen"])

add("Short clauses learnt by threads are neither lost nor torn",
    "When several threads add learnt binary and ternary clauses to the implication lists they share while others go through these lists, no access is undefined, every addition adds its clause exactly once, and a thread that goes through a list sees each clause whole, at least as often as it was added before it began and at most as often as it was added before it ended; hence the test whether a clause is already there is right up to additions made meanwhile. Whenever some thread is adding a clause, there is one that ends its addition if it is run, whatever the others do.",
    "all numbers of threads, all interleavings of accesses to shared words, all sequences of additions and traversals, all block sizes of at least two words",
    "words are written without synchronization into blocks others are reading, under a lock that is part of the size and stays locked when a block is full; errors need particular interleavings",
    ["src/shared_context.cpp: ShortImplicationsGraph::ImplicationList::addLearnt, hasLearnt, Block::addUnlock, tryLock", "clasp/shared_context.h: ShortImplicationsGraph::Block, ImplicationList::forEach"])

add("Dynamic restarts follow the averages of the conflicts",
    "A simple moving average is the mean of the last values within its window since it was cleared (of all values without a window), an exponential one stays between the smallest and the largest of them and each new value moves it by the configured fraction; both report validity exactly when the window is filled. With simple averages a dynamic restart is due exactly if the current run has as many conflicts as the window and the mean over the last of them, times the ratio, is above the slow mean, both taken over lbds or both over levels, whether averages are kept over restarts and blocks or not. No restart is due before a run has as many conflicts as the window. The ratio never falls below the configured one. Levels replace lbds exactly if, at a restart due for adjustment, a bound on lbds is given and the slow mean of lbds is above it. Restarts are blocked exactly at the conflicts with more assigned variables than the scaled average, not before the configured number of conflicts and never twice within the configured distance.",
    "all window sizes, ratios, kinds of averages and keep options, all sequences of conflicts, restarts, blocks, resets",
    "the mean is maintained incrementally in a ring buffer that is cleared, kept or filled with other values at restarts and blocks; errors need particular lengths of runs relative to the window",
    ["clasp/util/misc_types.h: MovingAvg", "clasp/solver_strategies.h: DynamicLimit, BlockLimit", "src/solver_strategies.cpp: DynamicLimit::resetAdjust, resetRun, block, reset, update, restart", "src/solver.cpp: Solver::search"])

add("Limits on conflicts and restarts are kept",
    "With a limit on conflicts or restarts, over all calls needed for one solve (one per model), every search is started with a positive number of allowed conflicts that is at most what is left of the limit; the limit on conflicts is reported as reached only after that many conflicts, and the conflicts never exceed it except by those of single searches beyond what they were allowed (a soft limit); there are never more restarts than the limit, and it is reported exactly when there were that many. With a fixed schedule on all conflicts a restart is made exactly when the conflicts counted since the last one reach the value of the schedule plus what blocking added. With local restarts, a search compares its limit with the conflicts of the current branch: those since conflicts last took it below the level it is on.",
    "all schedules for restarts, deletion and growth with positive values, local and dynamic restarts, all answers of the searches, any number of calls",
    "four limits are decreased together and renewed at different times; an error shows only if two of them meet, or after many restarts",
    ["src/solve_algorithms.cpp: BasicSolve::solve, BasicSolve::State::solve", "clasp/solve_algorithms.h: SolveLimits", "src/solver.cpp: Solver::search, restartReached, updateBranch"])

with open("/verif/properties.jsonl", "w") as f:
    for p in P:
        f.write(json.dumps(p) + "\n")
print(len(P), "properties")
