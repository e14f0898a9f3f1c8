# Axioms per theorem

Output of `#print axioms`, written by `tools/axioms.py`.

| property | theorem | axioms |
|---|---|---|
| C01 | `Clasp.C01_construct` | propext, Quot.sound |
| C01 | `Clasp.C01_unique` | propext, Quot.sound |
| C01 | `Clasp.C01_neg` | propext, Classical.choice, Quot.sound |
| C01 | `Clasp.C01_flag` | propext, Classical.choice, Quot.sound |
| C01 | `Clasp.C01_order` | propext, Classical.choice, Quot.sound |
| C01 | `Clasp.C01_toInt` | propext, Quot.sound |
| C01 | `Clasp.C01_encode` | propext, Quot.sound |
| C01 | `Clasp.C01_values` | propext, Classical.choice, Quot.sound |
| C01 | `Clasp.C01_xor` | propext, Classical.choice, Quot.sound |
| C02 | `Clasp.C02_read` | propext, Classical.choice, Quot.sound |
| C02 | `Clasp.C02_write` | propext, Classical.choice, Quot.sound |
| C02 | `Clasp.C02_monotone` | propext, Classical.choice, Quot.sound |
| C02 | `Clasp.C02_bump_zero_corner` | propext, Quot.sound |
| C03 | `Clasp.C03_set_get` | propext, Quot.sound |
| C03 | `Clasp.C03_sign` | propext, Quot.sound |
| C04 | `Clasp.C04_binary` | propext, Classical.choice, Quot.sound |
| C04 | `Clasp.C04_ternary` | propext, Classical.choice, Quot.sound |
| C04 | `Clasp.C04_generic` | propext, Classical.choice, Quot.sound |
| C05 | `Clasp.Heap.C05_step` | propext, Classical.choice, Quot.sound |
| C05 | `Clasp.Heap.C05_priority_queue` | propext, Classical.choice, Quot.sound |
| C06 | `Clasp.LR.C06_two_sequences` | propext, Classical.choice, Quot.sound |
| C06 | `Clasp.LR.C06_move_source` | propext, Classical.choice, Quot.sound |
| C07 | `Clasp.Sched.C07_luby` | propext, Classical.choice, Quot.sound |
| C07 | `Clasp.Sched.C07_luby_corner` | propext |
| C07 | `Clasp.Sched.C07_next` | propext, Classical.choice, Quot.sound |
| C07 | `Clasp.Sched.C07_next_unlimited` | propext, Quot.sound |
| C07 | `Clasp.Sched.C07_luby_schedule` | propext, Classical.choice, Quot.sound |
| C07 | `Clasp.Sched.C07_advanceTo` | propext, Classical.choice, Quot.sound |
| C08 | `Clasp.MQ.C08_broadcast` | propext, Classical.choice, Quot.sound |
| C08 | `Clasp.MQ.C08_publish` | propext, Classical.choice, Quot.sound |
| C08 | `Clasp.MQ.C08_complete` | propext, Classical.choice, Quot.sound |
| C08 | `Clasp.MQ.C08_release` | propext, Classical.choice, Quot.sound |
| C08 | `Clasp.MQ.C08_destroy` | propext, Classical.choice, Quot.sound |
| C09 | `Clasp.Core.St.C09_invariant` | propext, Classical.choice, Quot.sound |
| C09 | `Clasp.Core.St.C09_undo` | propext, Classical.choice, Quot.sound |
| C09 | `Clasp.Core.St.C09_roundtrip` | propext, Classical.choice, Quot.sound |
| C09 | `Clasp.Core.St.C09_packed` | propext, Classical.choice, Quot.sound |
| C10 | `Clasp.Core.Sys.C10_complete` | propext, Classical.choice, Quot.sound |
| C10 | `Clasp.Core.Sys.C10_force` | propext, Classical.choice, Quot.sound |
| C11 | `Clasp.Core.Graph.C11_clauses` | propext, Classical.choice, Quot.sound |
| C11 | `Clasp.Core.Graph.C11_refused` | propext, Classical.choice, Quot.sound |
| C11 | `Clasp.Core.Graph.C11_propagate` | propext, Quot.sound |
| C11 | `Clasp.Core.Graph.C11_reverseArc` | propext, Classical.choice, Quot.sound |
| C12 | `Clasp.Core.C12_prepare` | propext, Classical.choice, Quot.sound |
| C12 | `Clasp.Core.C12_prepare_shape` | propext, Classical.choice, Quot.sound |
| C12 | `Clasp.Core.C12_prepare_watches` | propext, Classical.choice, Quot.sound |
| C12 | `Clasp.Core.C12_status` | propext, Classical.choice, Quot.sound |
| C12 | `Clasp.Core.C12_status_unique` | propext, Classical.choice, Quot.sound |
| C12 | `Clasp.Core.C12_prepare_duplicates` | none |
| C13 | `Clasp.Core.C13_analyze` | propext, Classical.choice, Quot.sound |
| C14 | `Clasp.Core.C14_minimize` | propext, Classical.choice, Quot.sound |
| C15 | `Clasp.Core.Sys.C15_model` | propext, Classical.choice, Quot.sound |
| C15 | `Clasp.Core.Sys.C15_unsat` | propext, Classical.choice, Quot.sound |
| C15 | `Clasp.Core.Sys.C15_refused` | propext, Classical.choice, Quot.sound |
| C15 | `Clasp.Core.Sys.C15_conflict` | propext, Classical.choice, Quot.sound |
| C16 | `Clasp.Core.Sys.C16_once` | propext, Classical.choice, Quot.sound |
| C16 | `Clasp.Core.Sys.C16_all` | propext, Classical.choice, Quot.sound |
| C16 | `Clasp.Core.Sys.C16_last` | propext, Classical.choice, Quot.sound |
| C16 | `Clasp.Core.Sys.C16_continue` | propext, Classical.choice, Quot.sound |
| C17 | `Clasp.Core.Sys.C17_once` | propext, Classical.choice, Quot.sound |
| C17 | `Clasp.Core.Sys.C17_all` | propext, Classical.choice, Quot.sound |
| C17 | `Clasp.Core.Sys.C17_decisions` | propext, Quot.sound |
| C17 | `Clasp.Core.Sys.C17_projection` | propext, Quot.sound |
| C18 | `Clasp.Core.Cons.C18_final` | propext, Classical.choice, Quot.sound |
| C18 | `Clasp.Core.Cons.C18_bounds` | propext, Classical.choice, Quot.sound |
| C18 | `Clasp.Core.Cons.C18_progress` | propext, Classical.choice, Quot.sound |
| C18 | `Clasp.Core.Cons.C18_stronger` | propext, Quot.sound |
| C18 | `Clasp.Core.Query.C18_query_final_partial` | propext, Classical.choice, Quot.sound |
| C18 | `Clasp.Core.Query.C18_query_bounds_partial` | propext, Classical.choice, Quot.sound |
| C18 | `Clasp.Core.Query.C18_query_none_partial` | propext, Classical.choice, Quot.sound |
| C18 | `Clasp.Core.Query.C18_query_progress_partial` | propext, Classical.choice, Quot.sound |
| C18 | `Clasp.Core.Query.C18_query_lost` | propext, Classical.choice, Quot.sound |
| C19 | `Clasp.BB.C19_improving_partial` | propext, Classical.choice, Quot.sound |
| C19 | `Clasp.BB.C19_optimal_partial` | propext, Classical.choice, Quot.sound |
| C19 | `Clasp.BB.C19_lower_partial` | propext, Classical.choice, Quot.sound |
| C19 | `Clasp.BB.C19_step` | propext, Classical.choice, Quot.sound |
| C19 | `Clasp.BB.C19_bound_witness` | propext, Classical.choice, Quot.sound |
| C19 | `Clasp.BB.C19_negative_witness` | propext, Classical.choice, Quot.sound |
| C19 | `Clasp.BB.C19_cycle_witness` | propext, Classical.choice, Quot.sound |
| C19 | `Clasp.BB.C19_step_witness` | propext, Quot.sound |
| C20 | `Clasp.Mini.C20_cost` | propext, Classical.choice, Quot.sound |
| C20 | `Clasp.Mini.C20_lower` | propext, Classical.choice, Quot.sound |
| C20 | `Clasp.Mini.C20_copy` | propext, Classical.choice, Quot.sound |
| C20 | `Clasp.Mini.C20_defined` | propext, Classical.choice, Quot.sound |
| C21 | `Clasp.Weight.C21_create` | propext, Classical.choice, Quot.sound |
| C21 | `Clasp.Weight.C21_defined` | propext, Quot.sound |
| C21 | `Clasp.Weight.C21_total` | propext, Classical.choice, Quot.sound |
| C21 | `Clasp.Weight.C21_propagate` | propext, Classical.choice, Quot.sound |
| C21 | `Clasp.Weight.C21_doCreate` | propext, Classical.choice, Quot.sound |
| C21 | `Clasp.Weight.C21_makeCon_partial` | propext, Classical.choice, Quot.sound |
| C21 | `Clasp.Weight.C21_overflow_witness` | propext, Quot.sound |
| C22 | `Clasp.WC.C22_reason` | propext, Classical.choice, Quot.sound |
| C22 | `Clasp.WC.C22_forced` | propext, Classical.choice, Quot.sound |
| C22 | `Clasp.WC.C22_conflict` | propext, Classical.choice, Quot.sound |
| C22 | `Clasp.WC.C22_complete` | propext, Classical.choice, Quot.sound |
| C22 | `Clasp.WC.C22_undo` | propext, Classical.choice, Quot.sound |
| C22 | `Clasp.WC.C22_defined` | propext, Classical.choice, Quot.sound |
| C22 | `Clasp.WC.Ex.C22_half_witness` | propext, Quot.sound |
| C23 | `Clasp.Elite.C23_unsat` | propext, Classical.choice, Quot.sound |
| C23 | `Clasp.Elite.C23_sound` | propext, Classical.choice, Quot.sound |
| C23 | `Clasp.Elite.C23_extend` | propext, Classical.choice, Quot.sound |
| C23 | `Clasp.Elite.C23_equisat` | propext, Classical.choice, Quot.sound |
| C23 | `Clasp.Elite.C23_frozen` | propext, Classical.choice, Quot.sound |
| C23 | `Clasp.Elite.C23_lists` | propext, Classical.choice, Quot.sound |
| C23 | `Clasp.Elite.C23_defined` | propext, Classical.choice, Quot.sound |
| C23 | `Clasp.Elite.C23_size_one` | propext, Quot.sound |
| C23 | `Clasp.Elite.C23_second_call` | propext, Quot.sound |
| C24 | `Clasp.Core.Sys.C24_split` | propext, Classical.choice, Quot.sound |
| C24 | `Clasp.Core.Sys.C24_local` | propext, Quot.sound |
| C24 | `Clasp.Core.Sys.C24_refused` | propext, Classical.choice, Quot.sound |
| C24 | `Clasp.Core.Sys.C24_partition` | propext, Classical.choice, Quot.sound |
| C24 | `Clasp.Core.Sys.C24_once` | propext, Classical.choice, Quot.sound |
| C24 | `Clasp.Core.Sys.C24_exhausted` | propext, Classical.choice, Quot.sound |
| C24 | `Clasp.Core.Sys.C24_toplevel` | propext, Classical.choice, Quot.sound |
| C24 | `Clasp.Core.Sys.SplitEx.C24_failing_thread` | propext |
| C25 | `Clasp.Core.Sys.C25_core` | propext, Classical.choice, Quot.sound |
| C25 | `Clasp.Core.Sys.C25_assumptions` | propext, Classical.choice, Quot.sound |
| C25 | `Clasp.Core.Sys.C25_incremental_partial` | propext, Classical.choice, Quot.sound |
| C25 | `Clasp.Core.Sys.C25_defined` | propext, Classical.choice, Quot.sound |
| C25 | `Clasp.Core.Sys.CoreEx.C25_step_literal` | propext, Quot.sound |
| C26 | `Clasp.Asp.C26_defined` | propext, Classical.choice, Quot.sound |
| C26 | `Clasp.Asp.C26_rule` | propext, Classical.choice, Quot.sound |
| C26 | `Clasp.Asp.C26_normal` | propext, Classical.choice, Quot.sound |
| C26 | `Clasp.Asp.C26_choice_normal` | propext, Classical.choice, Quot.sound |
| C26 | `Clasp.Asp.C26_noAux` | propext, Quot.sound |
| C26 | `Clasp.Asp.C26_program` | propext, Classical.choice, Quot.sound |
| C26 | `Clasp.Asp.C26_disjunction` | propext, Classical.choice, Quot.sound |
| C27 | `Clasp.Asp.Simp.C27_rule` | propext, Classical.choice, Quot.sound |
| C27 | `Clasp.Asp.Simp.C27_form` | propext, Classical.choice, Quot.sound |
| C27 | `Clasp.Asp.Simp.C27_defined` | propext, Classical.choice, Quot.sound |
| C27 | `Clasp.Asp.Simp.C27_program` | propext, Classical.choice, Quot.sound |
| C27 | `Clasp.Asp.Simp.C27_values` | propext, Classical.choice, Quot.sound |
| C28 | `Clasp.Scc.C28_components` | propext, Classical.choice, Quot.sound |
| C28 | `Clasp.Scc.C28_number` | propext, Classical.choice, Quot.sound |
| C28 | `Clasp.Scc.C28_topological` | propext, Classical.choice, Quot.sound |
| C28 | `Clasp.Scc.C28_terminates` | propext, Classical.choice, Quot.sound |
| C29 | `Clasp.Asp.C29_numbers` | propext, Classical.choice, Quot.sound |
| C29 | `Clasp.Asp.C29_init` | propext, Classical.choice, Quot.sound |
| C29 | `Clasp.Asp.C29_unfounded` | propext, Classical.choice, Quot.sound |
| C29 | `Clasp.Asp.C29_reason` | propext, Classical.choice, Quot.sound |
| C29 | `Clasp.Asp.C29_complete` | propext, Classical.choice, Quot.sound |
| C29 | `Clasp.Asp.C29_answer_sets` | propext, Classical.choice, Quot.sound |
| C30 | `Clasp.Asp.C30_supported` | propext, Quot.sound |
| C30 | `Clasp.Asp.C30_conflict` | propext, Quot.sound |
| C30 | `Clasp.Asp.C30_complete` | propext, Classical.choice, Quot.sound |
| C30 | `Clasp.Asp.C30_unique` | propext, Quot.sound |
| C30 | `Clasp.Asp.C30_tight` | propext, Classical.choice, Quot.sound |
| C31 | `Clasp.Reduce.C31_reduce` | propext, Classical.choice, Quot.sound |
| C31 | `Clasp.Reduce.C31_worst` | propext, Classical.choice, Quot.sound |
| C31 | `Clasp.Reduce.C31_order` | propext, Classical.choice, Quot.sound |
| C31 | `Clasp.Reduce.C31_active` | propext, Classical.choice, Quot.sound |
| C31 | `Clasp.Reduce.C31_reason_clause` | propext, Classical.choice, Quot.sound |
| C31 | `Clasp.Reduce.C31_reason_loop` | propext, Classical.choice, Quot.sound |
| C32 | `Clasp.Facade.C32_flags` | propext, Classical.choice, Quot.sound |
| C32 | `Clasp.Facade.C32_finish` | propext, Classical.choice, Quot.sound |
| C32 | `Clasp.Facade.C32_exit` | propext, Quot.sound |
| C32 | `Clasp.Facade.C32_codes` | propext, Quot.sound |
| C32 | `Clasp.Facade.C32_exhausted_partial` | propext, Classical.choice, Quot.sound |
| C32 | `Clasp.Facade.C32_iterate_partial` | propext, Classical.choice, Quot.sound |
| C32 | `Clasp.Facade.C32_complete` | propext, Classical.choice, Quot.sound |
| C32 | `Clasp.Facade.C32_unsat` | propext, Classical.choice, Quot.sound |
| C32 | `Clasp.Facade.C32_sat` | propext, Classical.choice, Quot.sound |
| C32 | `Clasp.Facade.C32_sat_iterate` | propext, Classical.choice, Quot.sound |
| C32 | `Clasp.Facade.C32_attach_race` | propext, Quot.sound |
| C32 | `Clasp.Facade.C32_restart_race` | propext, Quot.sound |
| C33 | `Clasp.SL.C33_safe` | propext, Classical.choice, Quot.sound |
| C33 | `Clasp.SL.C33_not_early` | propext, Classical.choice, Quot.sound |
| C33 | `Clasp.SL.C33_no_leak` | propext, Classical.choice, Quot.sound |
| C33 | `Clasp.SL.C33_last_owner` | propext, Classical.choice, Quot.sound |
| C33 | `Clasp.SL.C33_exclusive` | propext, Classical.choice, Quot.sound |
| C33 | `Clasp.SL.C33_simplify` | propext, Quot.sound |
| C33 | `Clasp.SL.C33_distribute` | propext, Classical.choice, Quot.sound |
| C34 | `Clasp.Input.C34_sat_sound` | propext, Classical.choice, Quot.sound |
| C34 | `Clasp.Input.C34_sat_complete` | propext, Classical.choice, Quot.sound |
| C34 | `Clasp.Input.C34_sat_eliminate` | propext, Classical.choice, Quot.sound |
| C34 | `Clasp.Input.C34_dimacs` | propext, Classical.choice, Quot.sound |
| C34 | `Clasp.Input.C34_dimacs_models` | propext, Classical.choice, Quot.sound |
| C34 | `Clasp.Input.DimacsEx.C34_dimacs_overflow` | none |
| C34 | `Clasp.Input.C34_pb_complete_partial` | propext, Classical.choice, Quot.sound |
| C34 | `Clasp.Input.C34_pb_sound_partial` | propext, Classical.choice, Quot.sound |
| C34 | `Clasp.Input.C34_pb_sort` | propext, Quot.sound |
| C34 | `Clasp.Input.C34_opb_accept` | propext, Classical.choice, Quot.sound |
| C34 | `Clasp.Input.C34_opb_partial` | propext, Classical.choice, Quot.sound |
| C34 | `Clasp.Input.C34_pb_soft_single` | propext, Classical.choice, Quot.sound |
| C34 | `Clasp.Input.C34_pb_soft_eq` | propext, Classical.choice, Quot.sound |
| C34 | `Clasp.Input.C34_pb_eq` | propext, Classical.choice, Quot.sound |
| C35 | `Clasp.Weight.C35_hard_partial` | propext, Classical.choice, Quot.sound |
| C35 | `Clasp.Weight.C35_cardinality_partial` | propext, Classical.choice, Quot.sound |
| C35 | `Clasp.Weight.C35_division` | propext, Classical.choice, Quot.sound |
| C35 | `Clasp.Weight.C35_soft` | propext, Quot.sound |
| C36 | `Clasp.Loop.C36_defined` | propext, Classical.choice, Quot.sound |
| C36 | `Clasp.Loop.C36_reason` | propext, Classical.choice, Quot.sound |
| C36 | `Clasp.Loop.C36_conflict` | propext, Classical.choice, Quot.sound |
| C36 | `Clasp.Loop.C36_complete` | propext, Classical.choice, Quot.sound |
| C36 | `Clasp.Loop.C36_locked` | propext, Classical.choice, Quot.sound |
| C36 | `Clasp.Loop.C36_simplify` | propext, Classical.choice, Quot.sound |
| C36 | `Clasp.Loop.C36_detach` | propext, Classical.choice, Quot.sound |
| C37 | `Clasp.MinC.C37_defined` | propext, Classical.choice, Quot.sound |
| C37 | `Clasp.MinC.C37_reason` | propext, Classical.choice, Quot.sound |
| C37 | `Clasp.MinC.C37_conflict` | propext, Classical.choice, Quot.sound |
| C37 | `Clasp.MinC.C37_sum` | propext, Classical.choice, Quot.sound |
| C37 | `Clasp.MinC.C37_complete` | propext, Classical.choice, Quot.sound |
| C37 | `Clasp.MinC.C37_model` | propext, Classical.choice, Quot.sound |
| C37 | `Clasp.MinC.C37_check` | propext, Classical.choice, Quot.sound |
| C37 | `Clasp.MinC.build_wf` | propext, Classical.choice, Quot.sound |
| C38 | `Clasp.Uncore.C38_lower` | propext, Classical.choice, Quot.sound |
| C38 | `Clasp.Uncore.C38_done` | propext, Classical.choice, Quot.sound |
| C38 | `Clasp.Uncore.C38_model` | propext, Classical.choice, Quot.sound |
| C38 | `Clasp.Uncore.C38_tight` | propext, Classical.choice, Quot.sound |
| C38 | `Clasp.Uncore.C38_advance` | propext, Classical.choice, Quot.sound |
| C38 | `Clasp.Uncore.C38_keep` | propext, Classical.choice, Quot.sound |
| C38 | `Clasp.Uncore.C38_enum` | propext, Classical.choice, Quot.sound |
| C38 | `Clasp.Uncore.C38_bound_fails` | propext, Quot.sound |
| C39 | `Clasp.Clingo.C39_defined` | propext, Classical.choice, Quot.sound |
| C39 | `Clasp.Clingo.C39_balanced` | propext, Classical.choice, Quot.sound |
| C39 | `Clasp.Clingo.C39_complete` | propext, Classical.choice, Quot.sound |
| C39 | `Clasp.Clingo.C39_level` | propext, Classical.choice, Quot.sound |
| C39 | `Clasp.Clingo.C39_check` | propext, Classical.choice, Quot.sound |
| C39 | `Clasp.Clingo.C39_undo` | propext, Classical.choice, Quot.sound |
| C39 | `Clasp.Clingo.C39_undo_always_partial` | propext, Classical.choice, Quot.sound |
| C39 | `Clasp.Clingo.C39_control` | propext, Classical.choice, Quot.sound |
| C39 | `Clasp.Clingo.C39_undo_always_fails` | propext, Quot.sound |
| C40 | `Clasp.Watch.C40_step` | propext, Classical.choice, Quot.sound |
| C40 | `Clasp.Watch.C40_exact_partial` | propext, Classical.choice, Quot.sound |
| C40 | `Clasp.Watch.C40_all` | propext, Classical.choice, Quot.sound |
| C40 | `Clasp.Watch.C40_frozen` | propext, Classical.choice, Quot.sound |
| C40 | `Clasp.Watch.C40_watched` | propext, Classical.choice, Quot.sound |
| C40 | `Clasp.Watch.C40_skip_fails` | propext, Classical.choice, Quot.sound |
| C41 | `Clasp.DepGraph.C41_defined` | propext, Classical.choice, Quot.sound |
| C41 | `Clasp.DepGraph.C41_graph` | propext, Classical.choice, Quot.sound |
| C41 | `Clasp.DepGraph.C41_ids` | propext, Classical.choice, Quot.sound |
| C42 | `Clasp.Acyc.C42_graph` | propext |
| C42 | `Clasp.Acyc.C42_mode` | propext |
| C42 | `Clasp.Acyc.C42_defined` | propext, Classical.choice, Quot.sound |
| C42 | `Clasp.Acyc.C42_search_ends` | propext, Classical.choice, Quot.sound |
| C42 | `Clasp.Acyc.C42_conflict` | propext, Classical.choice, Quot.sound |
| C42 | `Clasp.Acyc.C42_clause` | propext, Classical.choice, Quot.sound |
| C42 | `Clasp.Acyc.C42_reason` | propext, Classical.choice, Quot.sound |
| C42 | `Clasp.Acyc.C42_init` | propext, Classical.choice, Quot.sound |
| C42 | `Clasp.Acyc.C42_complete_partial` | propext, Classical.choice, Quot.sound |
| C42 | `Clasp.Acyc.C42_implied_partial` | propext, Classical.choice, Quot.sound |
| C42 | `Clasp.Acyc.C42_rebuild_incomplete` | propext, Quot.sound |
| C42 | `Clasp.Acyc.C42_rebuild_unsound` | propext, Quot.sound |
| C42 | `Clasp.Acyc.C42_init_incomplete` | propext, Quot.sound |
| C42 | `Clasp.Acyc.C42_stop_incomplete` | propext, Quot.sound |
| C43 | `Clasp.Heu.C43_defined` | propext, Classical.choice, Quot.sound |
| C43 | `Clasp.Heu.C43_select` | propext, Classical.choice, Quot.sound |
| C43 | `Clasp.Heu.C43_random` | propext, Classical.choice, Quot.sound |
| C44 | `Clasp.Heu.C44_sign` | propext, Quot.sound |
| C44 | `Clasp.Heu.C44_berkmin` | propext, Quot.sound |
| C44 | `Clasp.Heu.C44_get` | propext, Quot.sound |
| C45 | `Clasp.Heu.C45_select_partial` | propext, Classical.choice, Quot.sound |
| C45 | `Clasp.Heu.C45_move_partial` | propext, Classical.choice, Quot.sound |
| C45 | `Clasp.Heu.C45_again_fails` | propext, Quot.sound |
| C45 | `Clasp.Heu.C45_front_fails` | propext, Quot.sound |
| C45 | `Clasp.Heu.C45_stuck_fails` | propext, Quot.sound |
| C46 | `Clasp.Dom.C46_defined` | propext, Classical.choice, Quot.sound |
| C46 | `Clasp.Dom.C46_effect` | propext, Classical.choice, Quot.sound |
| C46 | `Clasp.Dom.C46_table_partial` | propext, Classical.choice, Quot.sound |
| C46 | `Clasp.Dom.C46_user_partial` | propext, Classical.choice, Quot.sound |
| C46 | `Clasp.Dom.C46_table_fails` | propext |
| C47 | `Clasp.Min.C47_built` | propext, Classical.choice, Quot.sound |
| C47 | `Clasp.Min.C47_test` | propext, Classical.choice, Quot.sound |
| C47 | `Clasp.Min.C47_unfounded` | propext, Classical.choice, Quot.sound |
| C47 | `Clasp.Min.C47_find` | propext, Quot.sound |
| C47 | `Clasp.Min.C47_answer_set` | propext, Classical.choice, Quot.sound |
| C47 | `Clasp.Min.C47_reason` | propext, Classical.choice, Quot.sound |
| C47 | `Clasp.Min.C47_order` | propext, Classical.choice, Quot.sound |
| C47 | `Clasp.Min.C47_aggregate_fails` | propext, Classical.choice, Quot.sound |
| C48 | `Clasp.Shift.C48_models` | propext, Classical.choice, Quot.sound |
| C48 | `Clasp.Shift.C48_gamma` | propext, Classical.choice, Quot.sound |
| C48 | `Clasp.Shift.C48_heads` | propext, Classical.choice, Quot.sound |
| C48 | `Clasp.Shift.C48_comps` | propext, Classical.choice, Quot.sound |
| C48 | `Clasp.Shift.C48_needs_components` | propext, Quot.sound |
| C49 | `Clasp.Look.C49_candidates` | propext, Classical.choice, Quot.sound |
| C49 | `Clasp.Look.C49_total` | propext, Classical.choice, Quot.sound |
| C49 | `Clasp.Look.C49_sound` | propext, Classical.choice, Quot.sound |
| C49 | `Clasp.Look.C49_high` | propext, Classical.choice, Quot.sound |
| C49 | `Clasp.Look.C49_no_failed` | propext, Classical.choice, Quot.sound |
| C49 | `Clasp.Look.C49_needs_level_0` | propext, Quot.sound |
| C49 | `Clasp.Look.C49_one_pass` | propext, Quot.sound |
| C50 | `Clasp.Par.C50_exhausted_partial` | propext, Classical.choice, Quot.sound |
| C50 | `Clasp.Par.C50_loss` | propext, Classical.choice, Quot.sound |
| C50 | `Clasp.Par.C50_exhausted_plain` | propext, Classical.choice, Quot.sound |
| C50 | `Clasp.Par.C50_once` | propext, Quot.sound |
| C50 | `Clasp.Par.C50_once_needs_plain` | propext, Quot.sound |
| C50 | `Clasp.Par.C50_race_fails` | propext, Quot.sound |
| C50 | `Clasp.Par.C50_abandoned_fails` | propext, Quot.sound |
| C50 | `Clasp.Par.C50_stale_fails` | propext, Quot.sound |
| C50 | `Clasp.Par.C50_memory_fails` | propext, Quot.sound |
| C51 | `Clasp.Berk.C51_free` | propext, Classical.choice, Quot.sound |
| C51 | `Clasp.Berk.C51_nogood` | propext, Classical.choice, Quot.sound |
| C51 | `Clasp.Berk.C51_recent` | propext, Classical.choice, Quot.sound |
| C51 | `Clasp.Berk.C51_active` | propext, Classical.choice, Quot.sound |
| C51 | `Clasp.Berk.C51_moms` | propext, Classical.choice, Quot.sound |
| C51 | `Clasp.Berk.C51_stale` | propext |
| C52 | `Clasp.Imp.C52_safe` | propext, Classical.choice, Quot.sound |
| C52 | `Clasp.Imp.C52_once` | propext, Classical.choice, Quot.sound |
| C52 | `Clasp.Imp.C52_read` | propext, Classical.choice, Quot.sound |
| C52 | `Clasp.Imp.C52_has` | propext, Classical.choice, Quot.sound |
| C52 | `Clasp.Imp.C52_progress` | propext, Classical.choice, Quot.sound |
| C53 | `Clasp.Dyn.C53_sma` | propext, Classical.choice, Quot.sound |
| C53 | `Clasp.Dyn.C53_ema` | propext, Classical.choice, Quot.sound |
| C53 | `Clasp.Dyn.C53_reached` | propext, Classical.choice, Quot.sound |
| C53 | `Clasp.Dyn.C53_window` | propext, Classical.choice, Quot.sound |
| C53 | `Clasp.Dyn.C53_ratio` | propext, Classical.choice, Quot.sound |
| C53 | `Clasp.Dyn.C53_switch` | propext, Classical.choice, Quot.sound |
| C53 | `Clasp.Dyn.C53_block` | propext, Classical.choice, Quot.sound |
| C53 | `Clasp.Dyn.C53_block_when` | propext, Classical.choice, Quot.sound |
| C53 | `Clasp.Dyn.C53_keep_mixes` | propext, Classical.choice, Quot.sound |
| C54 | `Clasp.Limits.C54_positive` | propext, Classical.choice, Quot.sound |
| C54 | `Clasp.Limits.C54_conflicts` | propext, Classical.choice, Quot.sound |
| C54 | `Clasp.Limits.C54_restarts` | propext, Classical.choice, Quot.sound |
| C54 | `Clasp.Limits.C54_schedule` | propext, Classical.choice, Quot.sound |
| C54 | `Clasp.Branch.C54_local` | propext, Classical.choice, Quot.sound |
