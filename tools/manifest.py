#!/usr/bin/env python3
# Writes MANIFEST.json. One entry per property: (status, theorems, note).
import json, os
C = {}
C["C01"] = ("proved", ["Clasp.C01_construct","Clasp.C01_unique","Clasp.C01_neg","Clasp.C01_flag","Clasp.C01_order","Clasp.C01_toInt","Clasp.C01_encode","Clasp.C01_values","Clasp.C01_xor"],
 "All 32-bit words.")
C["C02"] = ("proved", ["Clasp.C02_read","Clasp.C02_write","Clasp.C02_monotone","Clasp.C02_bump_zero_corner"], "All 32-bit words. C02_bump_zero_corner records that bumpLbd(0) makes lbd() read as the maximum.")
C["C03"] = ("proved", ["Clasp.C03_set_get","Clasp.C03_sign"], "All 256 records.")
C["C04"] = ("proved", ["Clasp.C04_binary","Clasp.C04_ternary","Clasp.C04_generic"], "")
C["C05"] = ("proved", ["Clasp.Heap.C05_step","Clasp.Heap.C05_priority_queue"], "All strict weak orders, all histories.")
C["C06"] = ("proved", ["Clasp.LR.C06_two_sequences","Clasp.LR.C06_move_source"], "Byte-level model; buffer sizes below 2^31 assumed (cap_ is a 31-bit field).")
C["C07"] = ("proved", ["Clasp.Sched.C07_luby","Clasp.Sched.C07_luby_corner","Clasp.Sched.C07_next","Clasp.Sched.C07_next_unlimited","Clasp.Sched.C07_luby_schedule","Clasp.Sched.C07_advanceTo"], "Square root in advanceTo taken as exact; fewer than 2^31-1 steps. Corner: lubyR(2^32-2)=0.")
C["C08"] = ("proved", ["Clasp.MQ.C08_broadcast","Clasp.MQ.C08_publish","Clasp.MQ.C08_complete","Clasp.MQ.C08_release","Clasp.MQ.C08_destroy"], "All interleavings of atomic steps (sequential consistency), any number of threads; publish and unsafePublish (serialised by contract); node recycling through the free stack included.")
C["C09"] = ("proved", ["Clasp.Core.St.C09_invariant", "Clasp.Core.St.C09_undo", "Clasp.Core.St.C09_roundtrip", "Clasp.Core.St.C09_packed"], "all sequences of decisions, forced literals, queue operations and undo operations; the packed 32-bit cell is related to the record by C09_packed")
C["C13"] = ("proved", ["Clasp.Core.C13_analyze"], "first-UIP loop, minimization, inverse arcs and asserting level, for every state with sound reasons; inverse-arc search is an oracle with stated assumption; alternative clause representations (ccRepMode) and on-the-fly subsumption are not part of this model")
C["C14"] = ("proved", ["Clasp.Core.C14_minimize"], "local and recursive minimization with persistent epoch counters, compared with analysis without minimization")
C["C12"] = ("proved", ["Clasp.Core.C12_prepare", "Clasp.Core.C12_prepare_shape", "Clasp.Core.C12_prepare_watches", "Clasp.Core.C12_status", "Clasp.Core.C12_status_unique", "Clasp.Core.C12_prepare_duplicates"],
  "prepare keeps the models agreeing with level 0 under the documented precondition (duplicates need simplification or a short clause; C12_prepare_duplicates shows it is needed); the status code is characterised completely for clauses without repeated variables.")
C["C11"] = ("proved", ["Clasp.Core.Graph.C11_clauses", "Clasp.Core.Graph.C11_refused", "Clasp.Core.Graph.C11_propagate", "Clasp.Core.Graph.C11_reverseArc"],
  "Binary/ternary implication graph: stored clauses, propagation over them and reverse arcs. removeTrue is not modelled.")
C["C10"] = ("proved", ["Clasp.Core.Sys.C10_complete", "Clasp.Core.Sys.C10_force"],
  "For every state reachable by the calls of Core/Search.lean: clause objects, short clauses, problem clauses, recorded nogoods. Contracted and shared-literal clause representations are not modelled.")
C["C15"] = ("proved", ["Clasp.Core.Sys.C15_model", "Clasp.Core.Sys.C15_unsat", "Clasp.Core.Sys.C15_refused", "Clasp.Core.Sys.C15_conflict"],
  "All executions of one solver as a transition system with unrestricted choices; other constraints are given by the assignments they accept and act through sound forced literals and implied clauses.")
C["C16"] = ("proved", ["Clasp.Core.Sys.C16_once", "Clasp.Core.Sys.C16_all", "Clasp.Core.Sys.C16_last", "Clasp.Core.Sys.C16_continue"], "Enumeration by backtracking without projection.")
C["C17"] = ("proved", ["Clasp.Core.Sys.C17_once", "Clasp.Core.Sys.C17_all", "Clasp.Core.Sys.C17_decisions", "Clasp.Core.Sys.C17_projection"], "Recording with any projection set; domain recording is not modelled.")
C["C18"] = ("partial", ["Clasp.Core.Cons.C18_final", "Clasp.Core.Cons.C18_bounds", "Clasp.Core.Cons.C18_progress", "Clasp.Core.Cons.C18_stronger",
  "Clasp.Core.Query.C18_query_final_partial", "Clasp.Core.Query.C18_query_bounds_partial", "Clasp.Core.Query.C18_query_none_partial", "Clasp.Core.Query.C18_query_progress_partial", "Clasp.Core.Query.C18_query_lost"],
  "Proved for the default algorithm with one solver, on top of the search model, and for the query-based algorithm for cautious consequences as long as every selected literal is still free when it is assumed to be false. Otherwise the code violates the claim: C18_query_lost is a run that drops a consequence (see DESIGN.md). Missing: sharing between solvers.")
C["C24"] = ("proved", ["Clasp.Core.Sys.C24_split", "Clasp.Core.Sys.C24_local", "Clasp.Core.Sys.C24_refused", "Clasp.Core.Sys.C24_partition", "Clasp.Core.Sys.C24_once", "Clasp.Core.Sys.C24_exhausted", "Clasp.Core.Sys.C24_toplevel", "Clasp.Core.Sys.SplitEx.C24_failing_thread"],
  "For any number of solvers, splits, models reported by backtracking in between, local variables, and solvers that change their path. Threads that fail are not part of the system; C24_failing_thread shows that putting the initial path back would duplicate models.")
C["C25"] = ("partial", ["Clasp.Core.Sys.C25_core", "Clasp.Core.Sys.C25_assumptions", "Clasp.Core.Sys.C25_incremental_partial", "Clasp.Core.Sys.C25_defined", "Clasp.Core.Sys.CoreEx.C25_step_literal"],
  "Proved without step literal, and in general for the assumptions together with the step literal. In incremental use the code violates the claim: C25_step_literal is a run whose core contains the step literal (see DESIGN.md).")
C["C21"] = ("partial", ["Clasp.Weight.C21_create", "Clasp.Weight.C21_defined", "Clasp.Weight.C21_total", "Clasp.Weight.C21_propagate", "Clasp.Weight.C21_doCreate", "Clasp.Weight.C21_makeCon_partial", "Clasp.Weight.C21_overflow_witness"],
  "Equivalence is proved for every input on which no 32-bit operation overflows (C21_total: for all inputs whose absolute values add up to less than 2^29 or so). The code violates the last clause of the claim: C21_overflow_witness overflows without an error being raised.")
C["C33"] = ("proved", ["Clasp.SL.C33_safe", "Clasp.SL.C33_not_early", "Clasp.SL.C33_no_leak", "Clasp.SL.C33_last_owner", "Clasp.SL.C33_exclusive", "Clasp.SL.C33_simplify", "Clasp.SL.C33_distribute"],
  "All interleavings of atomic counter operations by any number of threads; the counter is unbounded.")
C["C35"] = ("partial", ["Clasp.Weight.C35_hard_partial", "Clasp.Weight.C35_cardinality_partial", "Clasp.Weight.C35_division", "Clasp.Weight.C35_soft"],
  "Proved for W true at the top level: with arbitrary weights no solution is lost and the constraints are exact whenever the equality has a solution (C35_hard_partial); for weights +1/-1 over distinct variables they are always exact (C35_cardinality_partial). The code violates the claim otherwise: C35_division (2x+2y=3 is accepted with exactly one of x, y true) and C35_soft (a free W is forced to be true).")
C["C20"] = ("proved", ["Clasp.Mini.C20_cost", "Clasp.Mini.C20_lower", "Clasp.Mini.C20_copy", "Clasp.Mini.C20_defined"],
    "Every total assignment extending the top level assignment has on every priority the cost of the added statements; priorities become levels in decreasing order; initial lower bounds are exact; the only failure is the reported overflow error. 64-bit sums are unbounded integers in the model.")
C["C19"] = ("partial", ["Clasp.BB.C19_improving_partial", "Clasp.BB.C19_optimal_partial", "Clasp.BB.C19_lower_partial", "Clasp.BB.C19_step",
    "Clasp.BB.C19_bound_witness", "Clasp.BB.C19_negative_witness", "Clasp.BB.C19_cycle_witness", "Clasp.BB.C19_step_witness"],
    "Proved for any number of solvers, levels and every mix of step strategies, for runs without initial bound (or with one and only the "
    "linear strategy) and as long as the 32-bit step size is not truncated to 0. The full statement is false for the code: the witness "
    "theorems show a wrong optimum, a missed model and an endless loop with user bounds, and a zero step for costs 2^33 apart. "
    "Search is an oracle and updateBounds is atomic.")
C["C22"] = ("proved", ["Clasp.WC.C22_reason", "Clasp.WC.C22_forced", "Clasp.WC.C22_conflict", "Clasp.WC.C22_complete", "Clasp.WC.C22_undo", "Clasp.WC.C22_defined", "Clasp.WC.Ex.C22_half_witness"], "all reachable states of the constraint with any order of assignments, notifications, decisions and backtracking, weights and cardinality, full and half constraints; C22_half_witness records that a half constraint created with an assigned W switches direction; simplify, integrateRoot, destroy are not modelled")
C["C32"] = ("partial", ["Clasp.Facade.C32_flags", "Clasp.Facade.C32_finish", "Clasp.Facade.C32_exit", "Clasp.Facade.C32_codes", "Clasp.Facade.C32_exhausted_partial", "Clasp.Facade.C32_iterate_partial", "Clasp.Facade.C32_complete", "Clasp.Facade.C32_unsat", "Clasp.Facade.C32_sat", "Clasp.Facade.C32_sat_iterate", "Clasp.Facade.C32_attach_race", "Clasp.Facade.C32_restart_race"], "sequential search (one call and iterative), facade and exit code; solver and enumerator are specified by a relation on the set of solutions left. The claim that an interrupt never yields exhaustion is false for the code in two windows (C32_attach_race, C32_restart_race); outside of them it is proved. Parallel solving is not modelled.")
C["C31"] = ("proved", ["Clasp.Reduce.C31_reduce", "Clasp.Reduce.C31_worst", "Clasp.Reduce.C31_order", "Clasp.Reduce.C31_active", "Clasp.Reduce.C31_reason_clause", "Clasp.Reduce.C31_reason_loop"], "all four algorithms with the packed scores; std sort and heap functions enter with their standard guarantees, double arithmetic is exact. That reasons are locked is proved for clauses under a transition system of propagation, addition and backtracking, and for loop formulas under the transition system of C36; contracted and shared-literal clauses share the head of clauses.")
C["C28"] = ("proved", ["Clasp.Scc.C28_components", "Clasp.Scc.C28_number", "Clasp.Scc.C28_topological", "Clasp.Scc.C28_terminates"], "SccChecker modelled with its explicit call stack. Assumes at most 2^28-1 nodes (the id field) and, for C28_number, fewer than 2^27 components (the component field); nodes taking part are unseen at the start.")
C["C30"] = ("proved", ["Clasp.Asp.C30_supported", "Clasp.Asp.C30_conflict", "Clasp.Asp.C30_complete", "Clasp.Asp.C30_unique", "Clasp.Asp.C30_tight"], "Normal, choice and weight rules; supported models are exactly represented (C30_supported, C30_complete, C30_unique) and for tight programs (no component found by the modelled component computation) these are the stable models. The program is fixed while variables are assigned; disjunctions and incremental steps are not modelled.")
C["C29"] = ("proved", ["Clasp.Asp.C29_numbers", "Clasp.Asp.C29_init", "Clasp.Asp.C29_unfounded", "Clasp.Asp.C29_reason", "Clasp.Asp.C29_complete", "Clasp.Asp.C29_answer_sets"], "Programs without disjunctions (as the property says). The checker is modelled function by function and driven by a solver that assigns, decides, checks and undoes levels in any order; the dependency graph is built by the modelled addSccs with the component numbers of C28. C29_reason assumes that unit propagation over the clauses of conjunctive bodies has come to an end, which is when the solver calls the checker. Minimality checks for disjunctive programs, loop formula objects, incremental re-initialization and a stop request without backtracking are not modelled.")
C["C26"] = ("proved", ["Clasp.Asp.C26_defined", "Clasp.Asp.C26_rule", "Clasp.Asp.C26_normal", "Clasp.Asp.C26_choice_normal", "Clasp.Asp.C26_noAux", "Clasp.Asp.C26_program", "Clasp.Asp.C26_disjunction"], "Every strategy and every mode for extended rules; choice rules, cardinality rules, weight rules, their combination, in any program. Finding: a sum with a negative bound and at least one literal is rejected as 'invalid weight rule'. Proper disjunctions are translated by shifting; that nothing is added is proved, that something may be lost is shown by an example (clasp shifts components without head cycles only). Not modelled: transformIntegrity.")
C["C27"] = ("proved", ["Clasp.Asp.Simp.C27_rule", "Clasp.Asp.Simp.C27_form", "Clasp.Asp.Simp.C27_defined", "Clasp.Asp.Simp.C27_program", "Clasp.Asp.Simp.C27_values"], "Strong equivalence, hence in every context. Includes the sticky marks, the bookkeeping of facts and constraints as values, conflicts, and freedom of signed overflow. Weights must not be negative: a negative weight raises an exception only if it is reached before the bound is met (finding). Not modelled: equivalent atoms, frozen atoms, later steps, propagation of values; RuleBuilder::weaken of libpotassco (source not in the repository) from its documentation.")
C["C23"] = ("proved", ["Clasp.Elite.C23_unsat", "Clasp.Elite.C23_sound", "Clasp.Elite.C23_extend", "Clasp.Elite.C23_equisat", "Clasp.Elite.C23_frozen", "Clasp.Elite.C23_lists", "Clasp.Elite.C23_defined", "Clasp.Elite.C23_size_one", "Clasp.Elite.C23_second_call"], "For all clause sets, all sound other constraints over frozen variables, all literals true at the start and all sequences of fact propagation, backward subsumption and variable/blocked clause elimination with any bounds. C23_extend is for the first call of extendModel on a model; C23_second_call is a counterexample for repeated calls after blocked clause elimination, which clasp switches off when enumerating. C23_size_one: loading may leave clauses with one literal, for which strengthening reads out of bounds; C23_defined excludes undefined behaviour otherwise. Time and occurrence limits are subsumed by arbitrary sequences of operations.")
C["C34"] = ("partial", ["Clasp.Input.C34_sat_sound", "Clasp.Input.C34_sat_complete", "Clasp.Input.C34_sat_eliminate", "Clasp.Input.C34_dimacs", "Clasp.Input.C34_dimacs_models", "Clasp.Input.DimacsEx.C34_dimacs_overflow", "Clasp.Input.C34_pb_complete_partial", "Clasp.Input.C34_pb_sound_partial", "Clasp.Input.C34_pb_sort", "Clasp.Input.C34_opb_accept", "Clasp.Input.C34_opb_partial", "Clasp.Input.C34_pb_soft_single", "Clasp.Input.C34_pb_soft_eq", "Clasp.Input.C34_pb_eq"], "DIMACS (cnf, wcnf, knf, cnf+, wcnf+): every text of a grammar is accepted and the problem given to the solver has exactly the models and costs of the text; eliminated variables have no influence. OPB/WBO with products: every text of a grammar is accepted (unless the builder runs out of numbers) and yields the solutions and costs of the text. The full claim is false for soft equalities, for soft constraints over one product that always hold, and for unsatisfiable inputs with equalities: C34_pb_soft_eq, C34_pb_soft_single, C34_pb_eq are counterexamples. Missing: extensions in comments (parseExt).")
C["C36"] = ("proved", ["Clasp.Loop.C36_defined", "Clasp.Loop.C36_reason", "Clasp.Loop.C36_conflict", "Clasp.Loop.C36_complete", "Clasp.Loop.C36_locked", "Clasp.Loop.C36_simplify", "Clasp.Loop.C36_detach"], "The formula is modelled with its array, flags, slot, watches and cached position; the solver assigns, decides, notifies in any order, backtracks, opens and simplifies. The state at creation is that of createLoopFormula: variables are distinct, the bodies are false before the atoms become true, and the first body became false on the current level. Activity and memory accounting are left out.")
C["C37"] = ("proved", ["Clasp.MinC.C37_defined", "Clasp.MinC.C37_reason", "Clasp.MinC.C37_conflict", "Clasp.MinC.C37_sum", "Clasp.MinC.C37_complete", "Clasp.MinC.C37_model", "Clasp.MinC.C37_check", "Clasp.MinC.build_wf"], "DefaultMinimize with its arithmetic on sparse vectors, stacks of processed literals and saved positions, the active level, literals implied on earlier levels and undo watches. The data is the one built by the builder of C20 (build_wf: it is sorted, variables are distinct, the first weight is positive). 64-bit sums are unbounded; assumed is that the sum on the most important level is below the value used as 'no bound'. The tag and the step literal appear only as the level on which they are true. The decision heuristic of the constraint and clause minimization are left out.")
C["C38"] = ("proved", ["Clasp.Uncore.C38_lower", "Clasp.Uncore.C38_done", "Clasp.Uncore.C38_model", "Clasp.Uncore.C38_tight", "Clasp.Uncore.C38_advance", "Clasp.Uncore.C38_keep", "Clasp.Uncore.C38_enum", "Clasp.Uncore.C38_bound_fails"], "UncoreMinimize as a transition system; the solver is an oracle assumed sound (see C01-C05, C08 for weight constraints), cores are any sets of active assumptions that cannot hold together, models any assignments satisfying problem, added constraints and pushed assumptions. Sums are unbounded; one solver; assumptions from a guiding path belong to the problem; relax and the choice of subsets when trimming are not modelled. C38_bound_fails: with a bound given by the user (outside the statement) the search may end without a solution although one is within the bound.")
C["C39"] = ("partial", ["Clasp.Clingo.C39_defined", "Clasp.Clingo.C39_balanced", "Clasp.Clingo.C39_complete", "Clasp.Clingo.C39_level", "Clasp.Clingo.C39_check", "Clasp.Clingo.C39_undo", "Clasp.Clingo.C39_undo_always_partial", "Clasp.Clingo.C39_control", "Clasp.Clingo.C39_undo_always_fails"], "ClingoPropagator and the part of the solver it talks to as a transition system with arbitrary events. Everything is proved except the claim for undo mode Always, which the code violates: after check() on a level a watched literal may replace the check mark, and if a conflict comes before the change is reported, undo() is not called (C39_undo_always_fails); proved if all changes were reported. Literals whose watch is added inside a callback after they were propagated are not reported (by design, excluded by `late`). Clause handling inside the adaptor, locks, stop conflicts and removal of auxiliary variables are not modelled.")
C["C40"] = ("partial", ["Clasp.Watch.C40_step", "Clasp.Watch.C40_exact_partial", "Clasp.Watch.C40_all", "Clasp.Watch.C40_frozen", "Clasp.Watch.C40_watched", "Clasp.Watch.C40_skip_fails"], "ClingoPropagatorInit function by function. Exactness is proved for solvers attached in every step since their first one; a solver that is not attached in a step misses removals made in it, since the history only stores watches to be added (C40_skip_fails); additions are never missed (C40_all). Changes of watches by the propagator itself during search are not part of this model (see C39).")
C["C41"] = ("proved", ["Clasp.DepGraph.C41_defined", "Clasp.DepGraph.C41_graph", "Clasp.DepGraph.C41_ids"], "ExtDepGraph function by function (arrays, offsets, sorting, sentinel). Node ids are unbounded in the model; the code needs ids below 2^31 because inverse arcs store the tail shifted by one bit.")
C["C42"] = ("partial", ["Clasp.Acyc.C42_graph", "Clasp.Acyc.C42_mode", "Clasp.Acyc.C42_defined", "Clasp.Acyc.C42_search_ends", "Clasp.Acyc.C42_conflict", "Clasp.Acyc.C42_clause", "Clasp.Acyc.C42_reason", "Clasp.Acyc.C42_init", "Clasp.Acyc.C42_complete_partial", "Clasp.Acyc.C42_implied_partial", "Clasp.Acyc.C42_rebuild_incomplete", "Clasp.Acyc.C42_rebuild_unsound", "Clasp.Acyc.C42_init_incomplete", "Clasp.Acyc.C42_stop_incomplete"], "AcyclicityCheck with its searches (tags with wrap-around, parents, stack, work list), stored reasons, and ExtDepGraph::attach, driven by a solver with arbitrary events. Everything is proved for runs in which no work of the checker is discarded (ghost flag lost) and no watch becomes wrong (ghost flag stale). The full claim is false in the code, shown by four runs: (1, 2) if a later step adds edges between old nodes and edges share a condition, attach updates only the first watch of the condition, so that a cycle is missed or a wrong clause is added; (3) init discards edges reached by propagation between two steps; (4) an interrupt discards edges still to be looked at, also if the search goes on from the same level. finalizeConflictClause (minimization of the added clause) and removal of the checker are not modelled.")
C["C43"] = ("proved", ["Clasp.Heu.C43_defined", "Clasp.Heu.C43_select", "Clasp.Heu.C43_random"], "indexed_priority_queue and ClaspVsids function by function; activities are elements of any linear order, normalize and decay are order-preserving changes. Levels of variables (the domain heuristic) are changed by events. The sign of the decision is C44. Floating point arithmetic is not modelled.")
C["C44"] = ("proved", ["Clasp.Heu.C44_sign", "Clasp.Heu.C44_berkmin", "Clasp.Heu.C44_get"], "ValueSet with its masks, the two functions selectLiteral, and the operations on preferences, against an abstract record of four preferences. For Berkmin only the preference of the user has priority over its own rule (Huang's), by design.")
C["C45"] = ("partial", ["Clasp.Heu.C45_select_partial", "Clasp.Heu.C45_move_partial", "Clasp.Heu.C45_again_fails", "Clasp.Heu.C45_front_fails", "Clasp.Heu.C45_stuck_fails"], "ClaspVmtf with its linked list. The full claim is false in the code: inList() is false for the only element of the list, so that this element is added twice in a later step (C45_again_fails: other variables are lost and the search for a free variable does not end) or is not removed with its variable (C45_stuck_fails); and front_ is not reset if its variable is removed (C45_front_fails: value of a variable that does not exist). Without these three situations (ghost flags) the claim is proved. The order of new variables and which variables of a constraint are moved are arbitrary.")
C["C46"] = ("partial", ["Clasp.Dom.C46_defined", "Clasp.Dom.C46_effect", "Clasp.Dom.C46_table_partial", "Clasp.Dom.C46_user_partial", "Clasp.Dom.C46_table_fails"], "DomainHeuristic (actions, groups, priorities, frames with undo lists, watches) and DomainTable::simplify. The claim is proved for the entries of the table (C46_effect) and, if no bias is 32767, for the entries given (C46_user_partial). For a bias of 32767, to which larger ones are reduced, simplify loses the modification if there is a second entry for the same variable and condition, because 32767 marks 'no bias' (C46_table_fails). Modifications of type init, default modifications, how levels and factors influence the activity order (see C43) and detaching the heuristic are not modelled.")
C["C47"] = ("partial", ["Clasp.Min.C47_built", "Clasp.Min.C47_test", "Clasp.Min.C47_unfounded", "Clasp.Min.C47_find", "Clasp.Min.C47_answer_set", "Clasp.Min.C47_reason", "Clasp.Min.C47_order", "Clasp.Min.C47_aggregate_fails"], "Component programs (variables, clauses, mapping of assignments and models, simplification of mapping and tester), the search for a failing test and the computation of the reason. The tester solver is assumed to answer correctly and to derive only consequences. Everything is proved for components that can be built. The last sentence of the statement is violated by the code: a component cannot be built if an aggregate that is recursive through another, head-cycle-free component also defines one of its atoms (C47_aggregate_fails; C47_built says exactly when it can be built). The schedule of partial checks, finalizeConflictClause and tests with several threads on one component are not modelled.")
C["C48"] = ("proved", ["Clasp.Shift.C48_models", "Clasp.Shift.C48_gamma", "Clasp.Shift.C48_heads", "Clasp.Shift.C48_comps", "Clasp.Shift.C48_needs_components"], "finalizeDisjunctions and getEqAtomLit function by function on rules instead of shared nodes. Assumed of the input: facts are facts, atoms and bodies that are dropped are false, a disjunction does not contain two equivalent atoms, atoms that depend on each other are in one component. Simplification of the new rules is C27; the option that disables components is not modelled.")
C["C49"] = ("proved", ["Clasp.Look.C49_candidates", "Clasp.Look.C49_total", "Clasp.Look.C49_sound", "Clasp.Look.C49_high", "Clasp.Look.C49_no_failed", "Clasp.Look.C49_needs_level_0", "Clasp.Look.C49_one_pass"], "Candidate and undo lists, tests and top-level implications of Lookahead function by function; propagation is a parameter (extensive for all theorems; sound for the models in C49_sound; monotone in C49_no_failed). Runs that start with implications kept from a stopped run are on level 0, as in the solver (C49_needs_level_0 shows that this is needed). On level 0 a run that adds literals is not repeated, so that a candidate may fail right after it (C49_one_pass). Scores, the choice of the best literal and the limit of temporary lookahead are not modelled.")
C["C50"] = ("partial", ["Clasp.Par.C50_exhausted_partial", "Clasp.Par.C50_loss", "Clasp.Par.C50_exhausted_plain", "Clasp.Par.C50_once", "Clasp.Par.C50_once_needs_plain", "Clasp.Par.C50_race_fails", "Clasp.Par.C50_abandoned_fails", "Clasp.Par.C50_stale_fails", "Clasp.Par.C50_memory_fails"], "Protocol of ParallelSolve with its flags, queue, initial vector, waiting and synchronization, all interleavings. Proved without global restarts (the default) and failures (C50_exhausted_plain), and in general as long as no step of C50_loss occurs. The full claim is false in the code: with global restarts a waiting thread may take the end of a synchronization for the end of the search (C50_race_fails), or a restart abandoned because of a first model loses the paths (C50_abandoned_fails), or a path kept over a restart overlaps the initial one (C50_stale_fails); with enumeration by backtracking a thread that runs out of memory loses its initial path (C50_memory_fails). Tentative models (enumerating optimal models) and the search itself are not part of this model.")
C["C51"] = ("proved", ["Clasp.Berk.C51_free", "Clasp.Berk.C51_nogood", "Clasp.Berk.C51_recent", "Clasp.Berk.C51_active", "Clasp.Berk.C51_moms", "Clasp.Berk.C51_stale"], "ClaspBerkmin: cache, lazily decayed scores, positions in the learnt nogoods kept between decisions. The static scores, the random number, the computation of activities and the sign (C44) are parameters. C51_stale shows that the condition on unchanged activities is needed. Counters are unbounded (16 bits in the code) and shifts by 32 or more give 0 (undefined in the code, documented there as noise); learnt nogoods are not removed between backtracking and the next decision.")
C["C52"] = ("proved", ["Clasp.Imp.C52_safe", "Clasp.Imp.C52_once", "Clasp.Imp.C52_read", "Clasp.Imp.C52_has", "Clasp.Imp.C52_progress"], "One implication list with its learnt blocks; every access to a shared word is one step, memory is sequentially consistent, clauses are identified by the literals stored. C52_has (second half) is for ternary clauses with two different other literals. The counters of learnt clauses, simplification (one thread only), propagation from the lists and freeing of blocks are not modelled.")
C["C53"] = ("proved", ["Clasp.Dyn.C53_sma", "Clasp.Dyn.C53_ema", "Clasp.Dyn.C53_reached", "Clasp.Dyn.C53_window", "Clasp.Dyn.C53_ratio", "Clasp.Dyn.C53_switch", "Clasp.Dyn.C53_block", "Clasp.Dyn.C53_block_when", "Clasp.Dyn.C53_keep_mixes"], "MovingAvg, DynamicLimit and BlockLimit function by function with exact rational arithmetic and unbounded counters. C53_keep_mixes (outside the statement): an exponential fast average kept over restarts mixes lbds and levels after the switch from one to the other. The main loop that also forces a restart after the limit is part of C54.")
C["C54"] = ("proved", ["Clasp.Limits.C54_positive", "Clasp.Limits.C54_conflicts", "Clasp.Limits.C54_restarts", "Clasp.Limits.C54_schedule", "Clasp.Branch.C54_local"], "The loop of BasicSolve::State::solve over its limits; searches answer arbitrarily, the schedules are any functions with positive values (C07), UINT64_MAX is no limit and stays so. C54_schedule is for restarts that are neither local nor dynamic (dynamic ones: C53; local ones: C54_local, on the count that one search compares with its limit). Disabling restarts after a model, shuffling, sizes of the learnt database and events are not modelled.")
out = {"claims": [{"property": k, "status": v[0], "theorems": v[1], "note": v[2]} for k, v in sorted(C.items())]}
json.dump(out, open(os.path.join(os.path.dirname(__file__), "..", "MANIFEST.json"), "w"), indent=1)
