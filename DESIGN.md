# Formal model of clasp: design

## Layout

* `properties.jsonl` – the properties (C01, C02, ...), written by `tools/props.py`.
* `lean/Verif/<Component>/` – per component: the model (definitions, each citing file and lines of /repo), helper lemmas
  (files that say "No code is modelled in this file" or end in `Lem`, `Inv`, `Step`, ...), and property theorems with their
  specification and concrete cases (`*Props.lean`).
* `MANIFEST.json` – property → status, theorem names, notes; written by `tools/manifest.py`.
* `AXIOMS.md` – the axioms each theorem of the manifest depends on; written by `tools/axioms.py`.
* `seeded/LOG.jsonl` – record of wrong-program experiments (`tools/mutate.py` edits a copy of the model and rebuilds it).

Conventions. A definition either cites the C++ it models, or says that it is a *Specification* (vocabulary of the statements), an
*Example* (data of a concrete case), or a *Proof device*. Property theorems are called `Cnn_...`. `_partial` marks a theorem that
proves only part of its property; the part that is missing is listed below. Names ending in `_witness`, `_lost`, `_race`, `_corner` are
theorems that show a concrete run of the code in which the English claim fails.

## Trusted base

* Lean 4 kernel. Axioms used: at most `propext`, `Classical.choice`, `Quot.sound` (list per theorem in `AXIOMS.md`).
  No axioms are added; no `sorry`, `native_decide` or `bv_decide`.
* The correspondence between the Lean definitions and the C++ text was established by reading; the C++ was neither compiled nor run.
* C++ semantics: unsigned arithmetic is modular (modelled with `BitVec`, or with explicit reduction, where it matters), signed overflow is
  undefined behaviour (a distinct outcome where a property talks about it; otherwise numbers are unbounded and this is said in
  the file), containers behave as lists, standard algorithms satisfy their specification.
* Memory allocation succeeds; atomic operations of the concurrent components are sequentially consistent.
* libpotassco (stream primitives, rule builder) is not part of /repo; what is used of it is modelled after its documentation and stated as an
  assumption in the files that need it.

## What is modelled, what is not

| component of /repo | modelled in | not modelled |
|---|---|---|
| clasp/literal.h, packed words | Basic | |
| util: indexed_priority_queue, left_right_sequence, multi_queue | Util, Conc | other containers |
| solver_strategies: lubyR, ScheduleStrategy, DynamicLimit, BlockLimit; MovingAvg | Strat | configuration parsing |
| solver.cpp: assignment, levels, propagation, conflict analysis, minimization, root level, split, core, reduction | Core | heuristics (choices are unrestricted), statistics, on-the-fly subsumption, `ccRepMode`, tag literal / conditional knowledge, post propagator scheduling |
| lookahead.cpp: candidates, tests, top-level implications | Core/Look | scores, UnitHeuristic, limit of temporary lookahead |
| clause.cpp: creation, two-watched-literal clauses | Core | contracted clauses, shared-literal clauses (their reference counts: C33); loop formulas: C36, in Asp |
| shared_context.cpp: short implication graph; SatPreprocessor | Core, Sat, Conc | static lists of short clauses as one list (learnt blocks under threads: Conc/Imp); variable info; distribution policy |
| enumerators: model_enumerators.cpp, cb_enumerator.cpp | Core, Enum | domain recording, projection with backtracking, sharing of consequences |
| minimize_constraint.cpp: builder, bounds shared by solvers, propagation of DefaultMinimize, UncoreMinimize | Opt | decision heuristic of DefaultMinimize, core shrinking by resolution |
| weight_constraint.cpp: normal form, creation, propagation | Weight | simplify, integrateRoot |
| solve_algorithms.cpp, clasp_facade.cpp, clasp_app.cpp: results and exit codes, limits of the search loop | Facade, Strat | asynchronous handles, statistics, output |
| parallel_solve.cpp: splitting, path queue, reference accounting of distributed clauses; message protocol, termination, global restarts, competition mode (C50) | Core/Split, Conc | tentative models, asynchronous generator, errors other than bad_alloc |
| logic_program*.cpp: rule simplification, rule translation, completion, SCCs, shifting of disjunctions | Asp | equivalence preprocessing, incremental steps, output |
| unfounded_check.cpp; dependency_graph.cpp: graph, components that are not head-cycle-free | Asp | schedule of partial minimality checks |
| satelite.cpp | Sat | scheduling, limits (all sequences of operations are covered) |
| parser.cpp, program_builder.cpp: DIMACS, OPB/WBO | Input | aspif/smodels reader, comment extensions (`parseExt`) |
| clingo.cpp: ClingoPropagator, ClingoPropagatorInit | Ext | clauses of propagators, locks, heuristic adaptor |
| dependency_graph.cpp: ExtDepGraph | Ext | overflow of node ids |
| dependency_graph.cpp: AcyclicityCheck | Ext | minimization of added clauses (`finalizeConflictClause`), removal of the checker, switching the strategy |
| heuristics.cpp: Vsids, Vmtf, Berkmin, Domain (modifications), choice of signs | Heu | default and init modifications of Domain, activities (any changes are covered), configuration |
| shared_context.cpp: DomainTable::simplify | Heu/DomTab | entries of type init, applyDefault |

## Per property

**C01** literal.h. Literals are 32-bit words; the specification uses plain variable numbers and signs. Bit-level lemmas for all words.

**C02** `ConstraintScore`, `ConstraintInfo`. A word means a record of fields, read by division and remainder; every operation is a record
update. Corners: `bumpLbd(0)` makes `lbd()` read as the maximum (C02_bump_zero_corner); `setActivity` on an info without lbd stores 127
and clears the bumped bit.

**C03** `ValueSet`: all 256 records by kernel computation over the complete (finite) domain.

**C04** `Antecedent` as a 64-bit word: arithmetic on the packed word for all identifiers.

**C05** `indexed_priority_queue`: heap and index arrays as functions; invariant by induction over all histories and all strict weak
orders, including changes of priorities between operations as the API requires.

**C06** `left_right_sequence` at the level of bytes: refinement to two lists for all histories. Buffers stay below 2^31 bytes (`cap_`
is a 31-bit field and would be truncated).

**C07** Restart schedules. `lubyR` against the recursive definition of the sequence, `ScheduleStrategy` against the sequence of lengths.
Exact square root in `advanceTo`; growth parameters are not modelled. Corner: `lubyR(2^32-2) = lubyR(2^32-1) = 0`.

**C08** `MultiQueue`: transition system with one step per atomic operation, any number of threads; invariant over all interleavings. The
`continue` in the do-while loop of the consumer re-evaluates the loop condition, as in the code.

**C09** Assignment, trail, levels, three undo modes; all histories of decisions, forced literals, undo and queue operations.

**C10, C11** Propagation with watches and the implication graph. C10 is stated for every state reachable by the calls of
`Core/Search.lean`: after propagation without conflict no clause (problem clause, learnt clause that was kept, recorded nogood, short
clause) is unit or false. Not modelled: contracted and shared-literal clause representations, `removeTrue`. The documentation of
`watchOrder` (higher values for true literals on lower levels) does not agree with the code; C12_prepare_watches states what the code
does.

**C12** `prepare`, `status`. Precondition: duplicates need simplification or at most two literals; `{a, a, b}` without simplification becomes
the unit clause `a` (C12_prepare_duplicates). `integrate` with two literals reads a default-constructed third element of its buffer,
without effect.

**C13, C14** `analyzeConflict`, `ccMinimize`, `ccRemovable`, `simplifyConflictClause` (inverse arcs as an oracle with a stated assumption).

**C15, C16, C17** Search of one solver: a transition system whose steps are the calls a solve algorithm makes; choices (decisions,
restarts, deletion, forced literals of other constraints) are not restricted. Other constraints are a set `E` of accepted assignments and act
through sound forced literals and implied clauses. The steps that change assumptions or add problem clauses require that no models were
reported yet; for solvers that change their assumptions after reporting models see C24.

**C18** Brave/cautious consequences, default algorithm: proved. Query algorithm for cautious consequences: proved as long as the literal
selected next is still free when it is assumed to be false (`_partial`); otherwise *the code violates the claim* (C18_query_lost):
`popQuery` re-asserts implied literals without propagating them, `selectOpen` picks a literal that is still free, and `pushRoot(~q)`
(solver.cpp:489-497) propagates first. (a) If `q` becomes true, `pushRoot` returns false without conflict, the result is ignored
(solve_algorithms.cpp:480-485), and the next model removes `q` from the candidates although it is a consequence. (b) If `q` becomes false on the
root level, the next `popQuery` removes a user assumption. (c) A stop conflict in `doCommitUnsat` leads to no commit; the query is asked again.
Missing: several solvers.

**C19** Optimization: bounds shared by any number of solvers, all step strategies (`Opt/Bound.lean`); search is an oracle, `updateBounds` is
atomic. Proved without initial bound, or with one and the linear strategy only, while the 32-bit step does not become 0. *The code violates
the claim otherwise*: (a) user bound with hierarchical optimization gives a wrong optimum; (b) does not terminate if the user bound is
below the optimum; (c) a user bound below the lower bound on a less important level gives a false "unsatisfiable"; (d) truncation of
the step to 32 bits (lines 541, 547) gives step size 0. Not modelled: overflow of `U - L` and of `++opt()[lev]` at the end of the range, a
thread reading a stale upper together with a newer lower bound.

**C20** `MinimizeBuilder`. 64-bit sums are unbounded; splitting of large adjustments in `add(SharedData)` is not modelled.

**C21, C35** Normal form and creation of weight constraints; every 32-bit operation is checked. *The code violates the last clause of C21*:
`(bound + (minW-1)) / minW` (weight_constraint.cpp:108-112, 134-137) and the merging of weights (66, 70, 86, 175) can overflow unnoticed. *Equality
constraints* (172-190, reached from `PBBuilder::addConstraint`): exact whenever a solution exists, otherwise `2x + 2y = 3` is accepted; a free `W`
is forced to be true, contrary to weight_constraint.h:120; `W` false gives a contradiction.

**C22** Propagation of weight constraints: all orders of assignments, notifications, decisions, backtracking. Finding: a half constraint created with
`W` assigned on level 0 switches direction (weight_constraint.cpp:269-271).

**C23** SAT preprocessing: all sequences of operations. Findings: a second `extendModel` after blocked clause elimination may return a non-model
(C23_second_call; clasp avoids it since enumeration sets `preserveModels`); clauses of size 1 are kept, and strengthening them reads out
of the logical bounds (satelite.cpp:342, C23_size_one). Eliminated variables have the value true in the solver's assignment.

**C24** Any number of solvers, paths and splits; solvers enumerate by backtracking, leave exhausted paths and take others. A model is in exactly
one open path or reported, never both; when no path is open the models reported are exactly the models, each once. `renew` (leaving a path) uses
root level > 0: exhaustion on level 0 means that everything has been reported (C24_toplevel). A literal that holds in all models (the step
literal) may be among the assumptions. Finding: if a thread fails with bad_alloc, parallel_solve.cpp:485-487 puts its *initial* path back although
parts have been split off or reported: models are duplicated (C24_failing_thread). Not modelled: failing threads otherwise, tag literal,
different constraints in different solvers, nogood recording shared between solvers, competition mode.

**C25** Cores. *The code violates the claim in incremental use*: only `core[0]` is compared with the step literal (solve_algorithms.cpp:316),
so the step literal may be part of the reported core (C25_step_literal). Corner: `resolveToCore` on a conflict on level 0.

**C26** `RuleTransform`: stable models via reduct and least model, any program around the rule. A sum with negative bound and a literal is
rejected ("invalid weight rule"). Not modelled: `transformIntegrity` (logic_program.cpp 1121-1169). Proper disjunctions are shifted: nothing is
added; models may be lost (`a|b, a:-b, b:-a`), clasp shifts only head-cycle-free components.

**C27** `simplifyNormal`, `simplifySum`, `pushHead`, `addRule`: strong equivalence. Findings: negative weights raise an exception only if they are reached
before the bound is met; after an exception the marks stay set; the slack after weakening to a count is over-estimated. Not modelled:
equivalent and frozen atoms, later steps, propagation of values, `noSCC`.

**C28** `SccChecker` with explicit stack; at most 2^28-1 nodes, all unseen at the start; fewer than 2^27 components for C28_number.

**C29** `DefaultUnfoundedCheck` driven by a solver that assigns, decides, checks and undoes in any order; graph built by the modelled `addSccs`. The
64-bit mask in `PrgBody::scc` is exact thanks to the numbering of components. Reasons for conjunctive bodies rely on completed unit propagation.

**C30** Completion: clauses for atoms and bodies are satisfied exactly by supported models. Equivalent atoms give `clearLiteral(true)`, so
irrelevant nodes have no value. Externals are choice supports from a frozen true body.

**C31** `reduceLearnts` and the four algorithms with packed scores. That reasons are locked is proved for clauses (`ReduceLock.lean`) and loop
formulas (C36).

**C32** Sequential search, facade, exit codes. *The code violates the claim in two windows*: an interrupt between the test in `attach`
(solve_algorithms.cpp:287) and `doSolve` (475) yields UNSAT with exit code 21 for a satisfiable problem; an interrupt between the proof of optimality and the
restart in optN mode yields "exhausted" (exit code 31) with optimal models missing. Assumption: `handleUnsat` does not propagate.

**C33** Reference counts of shared literals: all interleavings. The counter is unbounded.

**C34** Readers and builders for DIMACS and OPB/WBO. Findings: (a) a soft constraint over a single literal ignores `eq` and penalises constraints
that always hold (program_builder.cpp:250-254); (b) soft equalities become hard; (c) equalities are wrong only if unsatisfiable (see C35); (d)
in wcnf+ the weight of cardinality and PB constraints is ignored; (e) `<= -2147483648` and the negation of INT_MIN overflow; (f) identifiers
that denote auxiliary variables are accepted in OPB (`numVars()` is `auxVar_-1`); (g) SatBuilder eliminates variables occurring in acyclicity
edges only; (h) `SatBuilder::addConstraint` does not call `markAssigned`; clauses with weight above top are soft; (i) cost `[0]` makes a
constraint hard; (j) `PBBuilder::doStartProgram` does not clear `products_`. Theorems assume that builder calls succeed.

**C36** `LoopFormula` (src/clause.cpp 888-1090) and the part of the solver it talks to, as a transition system: assignments by others, decisions,
notifications in any order, backtracking, `isOpen`, `simplify`. Invariant (`LoopInv.lean`): two positions of the active clause are watched; a watched
literal that is false was dealt with or the formula is satisfied on a level no higher; the slot is false if some atom is; what was forced has its
reason before it. Specification: the list of clauses `a :: bodies`. `simplify` is related to it by `Rel` (old clauses contain new ones or are true on
level 0, new clauses are old ones without false literals), which composes. Assumed at creation: what createLoopFormula establishes (see `Start`).

**C37** `DefaultMinimize` (src/minimize_constraint.cpp 179-410, 450-497), `add`/`sub`/`imp` on sparse vectors, and the part of the solver it talks to (trail, undo
watches, pending notifications, implied literals, root level), as a transition system. Sparse arithmetic is related to the ordered group of
lexicographic vectors (`MinLem.lean`). Invariant (`MinInv.lean`): the stack is the list of processed literals; saved positions above the root level have
only processed or false literals before them; a literal that the literals up to level `l` rule out is false, or implied to be false, on level `l`
(for every complete level `l` from the root level on); reasons are sound. Specification: `costOf` and lexicographic order (`BB.lt`, `BB.le`).
Antecedents record the bound they were forced for; this is ghost data. Bounds may be any vectors in any order, also worse ones after `relaxBound`.
Observation: `propagateImpl` does not test for a conflict after `undoUntil`; harmless, going back from a state without conflict never gives one.
Not modelled: `minimize` (clause minimization), the heuristic, `attach` beyond its effect, statistics.

**C38** `UncoreMinimize` (src/minimize_constraint.cpp 751-1604) as a transition system (`Opt/Uncore.lean`): levels, assumptions with weights, cores, the encodings oll,
one/k and pmr, relaxing of oll constraints, stratification, disjoint cores, trimming, hardening, fixing of levels, bounds. The solver is an oracle about the
constraints added so far (what is true on the top or root level, is there a conflict), assumed sound. Proof: the potential of an assignment is the lower bound plus the
weights of violated assumptions plus, for every oll constraint that can be relaxed further, its weight for each true literal above its bound. Invariant (`Good`): every
model that is optimal on the levels before and not above the upper bound extends to a solution of the added constraints with potential equal to its cost
on the level, and every solution costs no more than its potential (`UncoreGrow`, `UncorePmr`, `UncoreK`, `UncoreCore`: one lemma per encoding). `Settled`: what is known about
the levels before. Cores that wait to be added (disjoint, trimming) are already counted in the lower bound; `pend` corrects for that.
Simplifications: see the head of `Opt/Uncore.lean`. Steps may come in any order that respects the flags, which includes the order of the code.
Finding (`C38_bound_fails`): with an initial bound given by the user, `initLevel` goes on to the next level when the literals of a level are all assigned, also if the
level's cost is below the bound; `valid`, `validLowerBound` and hardening then enforce the bound of the later level, though the bound is already met
lexicographically: bound (5,0), only solution (4,1): reported as unsatisfiable.

**C39** `ClingoPropagator` (src/clingo.cpp 117-297, 379-387) with the solver's trail, queue, watches and undo watches (`Ext/Clingo.lean`). Events: assignments, dequeuing, decisions, nested
lookahead tests, conflicts, removal of a level, callbacks of the user (during which all solver events may happen), `Control::propagate`, watches added and removed, `init`,
`isModel`. Functions return `none` when a `POTASSCO_REQUIRE`/`ASSERT` fails. Specification: `View`, what the user knows after a sequence of calls; it is only defined if `undo`
passes exactly the literals reported on the level. Invariant (`Inv`, with `Fr` describing the undo stack as segments of the adaptor's trail) kept by every event. Not modelled: `toClause`,
`addClause`, `reason`, `simplify`, locks, stop conflicts, auxiliary variables. Offsets are assumed to be below 2^31.

Finding (`C39_undo_always_fails`): in undo mode Always, `check()` is called on level L (undo entry: check mark), a clause added there makes a watched literal true, so that the
mark is replaced by a trail offset, and its propagation leads to a conflict before the change is reported: `undo()` is not called for L, contrary to clasp/clingo.h:108-112.

**C40** `ClingoPropagatorInit` (src/clingo.cpp 389-513, `Ext/Watch.lean`): changes with their order, 64 bit masks, stable sorting (Lean's `mergeSort`, which is stable as
`std::stable_sort` is), grouping in `prepare`, skipping in `init`, the history. Specification `want`: run through the calls one after the other. Finding (`C40_skip_fails`): a solver that
is not attached in a step in which a watch is removed keeps this watch when it is attached again, since `init` replays only additions from the history.

**C41** `ExtDepGraph` (src/dependency_graph.cpp 784-837, clasp/dependency_graph.h 337-400, `Ext/DepGraph.lean`): the arrays `fwdArcs_`, `invArcs_`, `nodes_`, the committed prefix and the
generation count. `finalize` sorts the new arcs twice and sets offsets; violated requirements are `none`. Specification: the list of edges given in the calls. Proof: an invariant relating the arrays to that
list (the committed prefix is sorted by tail, `invArcs_` is made from a permutation sorted by head, offsets are first positions; offsets left from an older generation belong to nodes that still have arcs).

**C42** `AcyclicityCheck` (src/dependency_graph.cpp 838-1068, clasp/dependency_graph.h 402-470, `Ext/Acyc.lean`): tags with wrap-around, parents, work list, stored reasons, `attach` with its
re-use of watches. The solver is a trail with levels, a queue, watches and a conflict, driven by arbitrary events. The forward search is a function; the backward search, during which
the solver propagates, is a sequence of small steps, so that assignments in the middle of the search are covered. Specification: cycles in the list of given edges; `Adm`, the total
assignments consistent with level 0 and without a cycle of true edges. Proof: invariant `AInv`. For completeness it says that each cycle of true edges has an edge that is still on the work list, in
the queue, or the root of the active search (`Inv1`), and the same for paths closed by an edge that is not false (`Inv2`); for the searches it describes tags and parents as trees (`Tree`).

Findings: (a) `attach` after edges were sorted anew (`genCnt_` changed): for each edge it takes `getWatch(lit, this)`, which is always the *first* watch of this literal; if edges share a condition the
others keep old indices. An edge may lose its watch (`C42_rebuild_incomplete`: a cycle of true edges remains) and a watch may point to an edge with another condition. In a release build the
backward search then treats this condition as true on level 0 (`addClauseLit` asserts that it is true, `level` of a free variable is 0) and adds a clause that is too strong
(`C42_rebuild_unsound`). The same happens if a watched literal waits for propagation. (b) `init` clears `todo_`: edges put there by propagation between two steps (for example by the
builder of the minimize constraint, while post propagators are disabled) are discarded (`C42_init_incomplete`). (c) `reset` after `setStopConflict` clears `todo_` and stops the backward search; if the
search goes on from the same level, only the queue is restored (`C42_stop_incomplete`). The ghost flags `stale` (a) and `lost` (b, c) mark these runs; without them the claim is proved.

**C43** `bk_lib::indexed_priority_queue` (clasp/util/indexed_priority_queue.h, `Heu/Heap.lean`) and `ClaspVsids_t` (src/heuristics.cpp 541-720, `Heu/Vsids.lean`). Array accesses out of bounds and
reading the value of a variable that does not exist are `none`. Activities are elements of any linear order. The solver is a trail driven by arbitrary events; assumed is that unassigned variables are reported
with `undoUntil` before they are removed from the trail (src/solver.cpp). Proof: the queue is a heap, its two arrays are inverse to each other (`Pq.Ok`, `Ordered`), and every free variable is in it.

**C44** `ValueSet`, `selectLiteral` (clasp/solver_types.h, src/heuristics.cpp, `Heu/Pref.lean`): refinement of masks on a byte to a record of four optional values.

**C45** `ClaspVmtf` (src/heuristics.cpp 342-540, `Heu/Vmtf.lean`): the doubly linked list as two arrays. Proof: the arrays represent a list without repetition that contains all free variables
(`Vm.Rep`, `Vm.Good`). Findings: `inList()` compares `prev_` with `next_`, which are both 0 (the sentinel) for the only element of the list. (a) `endInit` of a later step, or `updateVar`, adds this element a
second time; its `prev_` then points to itself, and when it is removed the list is cut off: free variables are lost and `doSelect` loops forever (`C45_again_fails`; needs a step after which the list has exactly
one element that is still free in a later step). (b) `updateVar` does not remove it (`C45_stuck_fails`). (c) `updateVar` does not reset `front_` when its variable is removed; `popAuxVar` undoes levels only if
one of the variables is assigned, so that `front_` can denote a removed variable at the next decision (`C45_front_fails`; for example src/minimize_constraint.cpp:790-799 removes auxiliary variables).

**C46** `DomainHeuristic` (src/heuristics.cpp 751-971, `Heu/Dom.lean`) and `DomainTable::simplify` (src/shared_context.cpp 661-713, `Heu/DomTab.lean`). The state has the actions (whose priority and bias are
exchanged with the ones in effect when an action is applied or taken back), groups of actions sharing a watch, frames with undo lists, undo watches, and trail and queue of the solver. Proof (`Heu/DomInv.lean`):
for each variable and kind the applied actions form a chain in which each stores what was in effect before with a priority that is not higher; every action whose condition was propagated is dominated by one applied
on a level not above that of its condition, or its variable was assigned there. Taking back a level removes exactly the front of all chains. Specification: `Wish`, `RightVal`.
Disagreement with the code: `simplify` uses 32767 for "no bias"; `LogicProgram::addDomHeuristic` (src/logic_program.cpp:779) reduces larger biases to 32767, so that for example a level of 40000 and a sign for the same
atom lose the level (`C46_table_fails`). Observation, not modelled: src/logic_program.cpp:1713 negates a 16-bit bias; for a sign modification of -32768 on an atom with a negative literal the sign is not inverted.

**C47** `PrgDepGraph` for disjunctive programs, `NonHcfComponent` and `ComponentMap` (src/dependency_graph.cpp 83-369, 377-684) and the part of `DefaultUnfoundedCheck` that uses them
(src/unfounded_check.cpp 627-770), `Asp/Min.lean`. The tester is its list of clauses plus literals true on level 0; the result of a test is a relation (`TestR`) that assumes a correct solver. A component changes by
facts of the generator, consequences and conflicts of the tester, and `simplify` (`Step`, `Reach`). Specification (`Asp/MinSem.lean`): rules, stable models (`Asp/Sem.lean`), unfounded sets of a partial assignment
(`Unf`). Proof: models of clauses and assumptions correspond to unfounded sets in both directions (`Mod.unf`, `Unf.mod`), independently of the numbering of variables; an invariant (`Inv`) says that clauses, facts and
the remaining assumptions always have the same models; a smaller model of the reduct yields an unfounded set inside one component (`one_component`). What is known about the program when the graph is built is `DPrg.Ok`
(component numbers: C28; disjunctions inside one component: `C48_heads`).
Disagreement with the code: `prepareComponents` (src/logic_program.cpp:1521) transforms an aggregate only if the component of the aggregate itself has a disjunction. An aggregate that is recursive through another component is
left as it is, also for heads in the disjunctive one, and then `addBodyConstraints` (src/dependency_graph.cpp:514) throws "Extended bodies not supported" although the aggregate is not recursive through the disjunctive
component (`C47_aggregate_fails`).

**C48** `LogicProgram::finalizeDisjunctions` and `getEqAtomLit` (src/logic_program.cpp 1379-1501, 1963-2007) with `DlpTr` and `transformDisjunction`, `Asp/Shift.lean`: the loop over the atoms of a disjunction
(facts, false atoms, roots), the literal for the supports (false, true, a goal, a new atom with its component), the loop over the head with the flags of the components, new disjunctions, redundant rules with or without
a new atom for the body, `nonHcfs_`. `Asp/ShiftRep.lean` is a small theory of programs with defined atoms (`Rep`): what a program says about the old atoms, and the extension of a set by the new ones; each step of the
code adds a definition, a rule or redundant rules to it (`ShiftLem.lean`). That the shifted rules have the same stable models (`stable_iff`, `ShiftSem.lean`) follows from `one_comp`: a smaller model of the reduct yields one
that differs only by atoms that depend on each other; these lie in one component, for which there is a shifted rule. `C48_comps` follows paths of the new program back to the old one (`ShiftComp.lean`).
The input is specified by `InOk`, `CompsOk`; that no disjunction contains two equivalent atoms holds because an atom with a disjunctive support gets its own variable in `PrgHead::assignVar` (src/logic_program_types.cpp 485-504).
`C48_needs_components` shows that shifting without components loses answer sets. Not modelled: `simplifyRule` for the new rules (C27), shared bodies, values of auxiliary atoms, `noSCC`.

**C49** `Lookahead` (src/lookahead.cpp 36-330, clasp/lookahead.h 48-136, 148-214) and `Solver::test` (src/solver.cpp 941-956), `Core/Look.lean`: the nodes with their links, head and undo list, the stack of saved
undo lists, marks `seen` and `tested`, kept implications, trail and levels. Propagation of everything with a higher priority is a parameter of the model; stops and split requests happen at any time. Proof: the
links represent a cycle (candidates) and a list of segments, one per saved level (`Core`, `Sv` in `LookLem`, `LookInv`); a node in a segment is assigned on that level or a lower one. An induction principle over one run
(`pl_gen`) is used for soundness and completeness (`LookSem`). The marks are sound since a literal marked `seen` follows from a literal whose test succeeded (`MarkOk`).
Observations: (a) a stop during the test of the complement leaves the implications of the first test in `imps_`; a next run above level 0 would assign them, which is wrong (`C49_needs_level_0`). In clasp the next run is on
level 0, because all handlers of stop conflicts first go back to it; this is a condition in `step`. (b) On level 0 implications are added while other candidates were already tested, and the run is not repeated, so that a literal
tested before may fail afterwards (`C49_one_pass`); the note in clasp/lookahead.h 228-230 (lookahead done by the heuristic cannot fail) does not hold then. (c) `clear()` does not reset `pos_`; nothing in the library
calls it. Two candidates for one variable would make the implications of (b) wrong; `init` adds only new variables, which is a condition of `append`.

**C50** `ParallelSolve` (src/parallel_solve.cpp 36-194, 269-303, 419-740, 811-846), `Conc/Par.lean`: a transition system with one step for each access to a shared flag and for each section protected by `workM`; a thread is a
program counter, its path and the type of the path. The search space is a list of points, a path is a part of it, searching a point is one event (that a split is a partition is C24). The counters `waiting` and `threads` are
functions of the program counters. Models are events (their number matters only for the first one with enumeration by backtracking), so are interrupts, limits, spurious wake-ups and `bad_alloc`. The ghost flag `lost` is set by the
steps listed in `C50_loss`; the invariant (`GI` in `Conc/ParInv.lean`, kept by all steps in `Conc/ParStep.lean`) says that each point was searched, or is in the queue, or in the path of a thread that will not give it up, or will be handed
out again with the initial path; with backtracking, that a path not known to be disjoint is the only one. `C50_exhausted_plain` has no ghost in its statement. `C50_once` (`Conc/ParOnce.lean`): the parts of threads and queue are pairwise disjoint and disjoint from what was searched.
Findings (each with a run as witness): (a) `C50_race_fails`: a thread waiting for work leaves the loop in `SharedData::requestWork` because of `sync_flag` and tests the flag again in line 526; if the restart was completed in between, it
terminates the search as complete. (b) `C50_abandoned_fails`: `restart_abandoned_flag` is set in line 577 and cleared in line 584 before any other thread can see it, so `waitOnSync` is true for all threads with a path and they
give it up although the initial path is not handed out again; happens if the first model is committed between the request and the synchronization. (c) `C50_stale_fails`: a thread whose `simplify` failed keeps its path over a
restart. (d) `C50_memory_fails`: a thread that runs out of memory returns the initial path to the queue; whoever takes it gives it up after the first model (`BacktrackFinder::doUpdate`). (a) to (c) need global restarts,
which are off by default. Not modelled: after (d) `clearQueue` would delete the initial path, which belongs to the caller; `initVec -= m` in line 103 may wrap around after line 666 (any result is allowed in the model, it is
harmless); `commitModel` also terminates with `complete` if no more models are wanted.

**C51** `ClaspBerkmin` (src/heuristics.cpp 53-83, 139-351; clasp/heuristics.h 85-200; `Heu/Berk.lean`): the score order with lazy decay, the cache of most active variables, `front_`, the positions
`topConflict_`/`topOther_` in the learnt nogoods, as functions on lists; one event per call of the interface. Looking past the last variable is an undefined result. Static scores (`moms`), the random
number and the new activities are parameters, so the theorems hold for all ways of computing them; the sign is C44. Ghosts: `lim`, the number of learnt nogoods when the search for them started after backtracking; `dirty`,
activities were changed since the last backtracking. `Heu/BerkLem.lean` has the invariants (everything before `front_` is assigned; the cache is sorted and every free variable is in it or not better than all of it; the
conflict nogoods above `topConflict_` are satisfied). `C51_free`, `C51_nogood`, `C51_recent`, `C51_active`, `C51_moms` in `Heu/BerkProps.lean`. Not modelled: 16 bit counters (`++act` wraps without saturation), shifts by 32 and
more (undefined in C++, commented as noise in the code, 0 here), removal of learnt nogoods between backtracking and the next decision (positions would shift), nogoods that are false at a decision. Findings: nogoods added
without backtracking (loop nogoods) are not looked at before the next backtracking, since the positions are only reset in `undoUntil`; `C51_stale`: score changes without backtracking leave the order of the cache as it was; if `huang` changes between steps,
`decay` can be odd and step over 65534, so that `resetDecay` is not called in time.

**C52** The blocks of learnt short clauses in `ShortImplicationsGraph` (src/shared_context.cpp 91-195, clasp/shared_context.h 360-425; `Conc/Imp.lean`): one implication list, any number of threads in `addLearnt` or
going through the list, one step per access to a shared word (reading `learnt`, `tryLock`, each copied word, storing `size_lock`, publishing a block, the exchange; reading `learnt`, the size, each word, `next`). A word outside of a
block or an unknown block is an undefined access (`bad`). Ghosts: `ent`, the clauses of a block; `added`, the clauses added so far; `snap`. `Conc/ImpInv.lean` and `Conc/ImpStep.lean` have the invariant (words below the size of a block encode its
clauses and never change; only the newest block can be unlocked, at most one thread has its lock, and a locked newest block has an owner; older blocks stay locked; what a reader has seen and what it can still see contain the
clauses added before it began). `C52_safe`, `C52_once`, `C52_read`, `C52_has`, `C52_progress` in `Conc/ImpProps.lean`, stated with `Run` (an execution during which one thread stays in its function), `Alone` and counts. Not modelled: a memory
model weaker than sequential consistency, freeing of blocks, `simplifyLearnt` and `removeTrue` (called by one thread only), propagation. Observations: `++stats` in `ShortImplicationsGraph::add` is an unsynchronized increment by several
threads (numbers of learnt short clauses may be too low); two threads may both find a clause missing and add it twice; a clause may be found in one list while it is not yet in the lists of its other literals;
`ImplicationList::move` deletes only the first learnt block of the target (which is empty in all uses).

**C53** `MovingAvg` (clasp/util/misc_types.h 140-226), `DynamicLimit` and `BlockLimit` (clasp/solver_strategies.h 328-411, src/solver_strategies.cpp 173-253; `Strat/Dyn.lean`) function by function, with rational numbers
for `double` and `float` and unbounded counters. `Strat/DynProps.lean`: specification by the list of calls (`hist`, `runOf`, `allOf`, `mean`, `lastN`); invariant of the ring buffer (position and contents for all values within the window) and
of the limit (the values pushed into the fast average end with those of the run). `C53_sma`, `C53_ema`, `C53_reached`, `C53_window`, `C53_switch`, `C53_ratio`, `C53_block`, `C53_block_when`. Not modelled: rounding (the documented lower bound of the ratio holds exactly only for
exact arithmetic: in `float`, adding and subtracting 0.05 may end slightly above `k`, and then one more 0.05 is subtracted), the 29 bits of the window size (the loop that forces restarts after the limit: C54).
Observation: with the option to keep the average over restarts and an exponential average, lbds and levels are mixed after a switch (`C53_keep_mixes`; there with a limit of 2 conflicts before the switch instead of 16000).

**C54** `BasicSolve::solve` and the loop in `BasicSolve::State::solve` (src/solve_algorithms.cpp 79-84, 129-246; `Strat/Limits.lean`): the four limits of `cLimit`, the restart limit of `sLimit` and the limits on
conflicts and restarts over repeated calls, one step per search. `Solver::search` answers arbitrarily (number of conflicts, result, what blocking added, whether a dynamic or local restart is due). Ghosts count all conflicts, those beyond what a search
was allowed (several conflicts may be resolved before limits are looked at, and limits are not looked at while no variable is free), and restarts. `C54_positive` (the assertion in line 178), `C54_conflicts`, `C54_restarts`, `C54_schedule` in
`Strat/LimitsProps.lean`. Observations: conflicts beyond the limit of a search are not counted, so that a limit on conflicts may be exceeded a little in every search, not only in the last one; each call begins with the full value of
the restart and deletion schedules, so that neither is reached while models are found often enough. Not modelled: `seq_disable`, sizes of the learnt database, shuffling, events.
`Strat/Branch.lean` has `updateBranch` and `restartReached` (src/solver.cpp 1825-1837, 1846): `C54_local`, with the conflicts of a branch specified on the history of levels alone. The counters have 32 bits in the code; there is no bound in the model.
