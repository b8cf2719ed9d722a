#!/usr/bin/env python3
"""Writes MANIFEST.json. Plain data; run after editing."""
import json, os
C = []
def c(prop, status, theorems, note=""):
    C.append(dict(property=prop, status=status, theorems=["Jajapy." + t for t in theorems.split()], note=note))

c("C01","proved","resolveRandom_ok_iff resolveRandom_raises_iff resolveRandom_total resolveRandom_law")
c("C02","proved","normalize_spec normalize_raises randomProbabilities_spec randomProbabilities_raises")
c("C03","proved","checkProbabilities_iff checkProbabilities_accepts_negative")
c("C04","proved","hoeffdingBound_symm hoeffdingBound_same_frequency hoeffdingBound_empty hoeffdingBound_antitone hoeffdingBound_total hoeffdingBound_two")
c("C05","proved","mk_from_list_spec mk_from_list_countable mk_infer_raises_iff","Set(list) without an explicit type raises IndexError when the first trace is shorter than 2 (mk_infer_raises_iff).")
c("C06","proved","toList_mk toList_count mk_toList")
c("C07","proved","addSet_fold_spec addSet_spec addSet_raises addSets_spec addSets_perm addSet_into_empty_breaks_toList","addSet_into_empty_breaks_toList: merging into an empty Set leaves float multiplicities, on which to_list raises.")
c("C08","proved","isEqual_iff isEqual_equivalence isEqual_not_symmetric_with_duplicates","on Sets without duplicate traces; isEqual_not_symmetric_with_duplicates is the counterexample without this hypothesis.")
c("C09","proved","sort_spec sort_mult sort_idem")
c("C10","proved","getAlphabet_untimed getAlphabet_timed getAlphabet_mdp getActionsObservations_spec getActionsObservations_even_length")
c("C19","proved","MC.tau_spec HMM.tau_spec MDP.tau_spec CTMC.tau_spec CTMC.lkl_spec GoHMM.bn_spec GoHMM.tau_spec")
c("C20","partial","MC.run_spec MC.run_total HMM.run_spec HMM.run_total MDP.run_spec MDP.run_total MDP.chooseAction_stuck MDP.runLoop_stuck MDP.stuckMDP_diverges CTMC.runTimed_shape CTMC.runTimed_spec_partial CTMC.run_observations GoHMM.run_spec GoHMM.run_total","MDP.run never returns once it is in a state without actions (stuckMDP_diverges).")
c("C21","partial","MC.run_spec HMM.run_spec MDP.run_spec MDP.execution_pos CTMC.next_spec CTMC.next_possible_partial CTMC.runTimed_spec_partial CTMC.next_absorbing CTMC.next_impossible GoHMM.run_spec","Violated by CTMC.next: absorbing states jump to state 0 (next_absorbing), and a transition of rate 0 can win the race (next_impossible); the partial theorems assume that the draws are below the sentinel 1024.")
c("C22","proved","MC.run_law HMM.run_law")
c("C23","proved","currSize_spec generateSet_spec generateSetMDP_spec generateSet_zero_steps")
c("C24","proved","MDP.mem_getActions MDP.chooseAction_spec MDP.runLoop_spec MDP.run_spec FMScheduler.execution FMScheduler.run_follows memorylessScheduler_breaks_run memorylessAction_spec","memorylessScheduler_breaks_run: a MemorylessScheduler cannot be used by MDP.run (TypeError).")
c("C25","proved","MDP.seqProb_eq_paths MDP.eq_interleave MDP.logLikelihood_spec MDP.logLikelihood_raises MC.tau_factor HMM.tau_factor MC.seqProb_eq_paths HMM.seqProb_eq_paths HMM.b_spec MC.logLikelihood_spec HMM.logLikelihood_spec logLikelihood_raises GoHMM.seqProb_eq_paths GoHMM.logLikelihood_spec")
c("C26","proved","MC.sum_seqProb HMM.sum_seqProb MC.seqProb_mem_unit MDP.sum_seqProb MDP.lik_mem_unit")
c("C27","proved","oneproc_eq_multiproc MC.oneproc_eq_multiproc HMM.oneproc_eq_multiproc MDP.oneproc_eq_multiproc oneproc_multiproc_differ_on_empty")
c("C28","proved","logLikelihood_congr addSet_mem logLikelihood_addSet MDP.logLikelihood_congr MDP.logLikelihood_addSet")
c("C29","partial","impossible_scored_perfect impossible_witness MC.logLikelihood_zero_iff_partial MDP.impossible_scored_perfect MDP.impossible_witness","The code violates the property (impossible_scored_perfect, impossible_witness); the partial theorem says when 0.0 is returned.")
c("C30","partial","CTMC.timedSum_spec CTMC.logLikelihoodTimed_spec CTMC.certain_scored_impossible","The reported value is the average log-density, except that -9999 is reported when every trace has density 0 or 1 (certain_scored_impossible).")
c("C31","partial","CTMC.toMC_spec_partial CTMC.toMC_stochastic CTMC.toMC_destroys CTMC.toMC_destroys_example","The returned chain is right, but the CTMC is modified (toMC_destroys).")
c("C32","proved","forward_backward tables_length occupancy_sum uses_sum MC.processWork_spec HMM.processWork_spec MDP.processWork_spec CTMC.processWork_spec")
c("C33","proved","MC.bw_step_stochastic MC.bw_step_keeps_stochastic MC.fit_stochastic HMM.bw_step_stochastic HMM.fit_stochastic MDP.bw_step_stochastic MDP.fit_stochastic CTMC.bw_step_valid CTMC.fit_valid GoHMM.bw_step_valid GoHMM.fit_valid PCTMC.estimate_structure","Also: CTMC, GoHMM, and for parametric CTMCs that no rate becomes negative.")
c("C34","partial","MC.bw_step_zero MC.fit_structure MC.bw_step_unvisited HMM.bw_step_zero HMM.fit_structure HMM.bw_step_unvisited MDP.bw_step_zero MDP.fit_structure MDP.bw_step_unvisited CTMC.bw_step_zero CTMC.fit_structure CTMC.bw_step_unvisited GoHMM.bw_step_zero GoHMM.fit_structure GoHMM.bw_step_unvisited_partial GoHMM.unvisited_changed PCTMC.estimate_structure","All model types (PCTMC: estimate_structure, timed traces, and C78). Violated by GoHMM: the standard deviations of a state that is not visited become their square roots (unvisited_changed).")
c("C35","proved","MC.bw_step_monotone MC.fit_monotone MC.fit_total")
c("C36","proved","HMM.bw_step_monotone HMM.fit_monotone HMM.fit_total HMM.one_state_best")
c("C37","proved","MDP.bw_step_monotone MDP.fit_monotone MDP.fit_total")
c("C38","proved","CTMC.bw_step_monotone CTMC.fit_monotone CTMC.fit_total","also when some rates are fixed.")
c("C40","partial","CTMC.fit_fixed_partial CTMC.fixed_doubled CTMC.fixed_rate_changed","Violated: a fixed rate is doubled at each iteration if the data spends no time in its source.")
c("C41","proved","fit_iterations fit_no_iteration fit_bound fit_stopped MC.fit_terminates HMM.fit_terminates MDP.fit_terminates CTMC.fit_terminates BW.fit_ends MC.fit_ends HMM.fit_ends MDP.fit_ends CTMC.fit_ends HMM.one_state_ends GoHMM.one_state_ends GoHMM.one_state_total","bounds on the number of iterations without max_it: Markov chains, hidden Markov models and Markov decision processes. CTMC.fit_terminates: timed traces with positive waiting times, without an explicit bound. The theorems fit_ends: for every number of processes, also with traces that the model cannot generate, the learning returns or raises an exception.")
c("C42","partial","MC.bw_step_mult MC.bw_step_processes MC.bw_step_processes_differ HMM.bw_step_mult HMM.bw_step_processes MDP.bw_step_mult MDP.bw_step_processes CTMC.bw_step_mult CTMC.bw_step_processes GoHMM.bw_step_mult GoHMM.bw_step_processes","bw_step_processes_differ: with an impossible trace the single-process run raises while the multi-process run succeeds.")
c("C58","partial","MC.bw_update_spec MC.bw_step_outcome MC.processWork_spec HMM.processWork_spec HMM.bw_update_spec HMM.bw_step_outcome HMM.one_state_step HMM.one_state_ends MDP.processWork_spec MDP.bw_update_spec MDP.bw_step_outcome MDP.bw_step_empty_trace CTMC.processWork_spec CTMC.bw_update_spec CTMC.bw_step_outcome CTMC.bw_step_single CTMC.timeIn_pos_iff CTMC.bw_untimed_refines CTMC.bw_untimed_monotone GoHMM.bw_update_spec GoHMM.bw_step_sigma GoHMM.bw_step_outcome GoHMM.bw_step_total GoHMM.one_state_step GoHMM.one_state_two GoHMM.one_state_first_sigma GoHMM.one_state_ends PCTMC.bw_update_spec PCTMC.bw_update_untimed_spec PCTMC.exModel_step","All model types; PCTMC: the estimation of parameters, for rates that are monomials (bw_update_spec, bw_update_untimed_spec). GoHMM: the new standard deviation is computed around the old mean (bw_step_sigma); with one state the model has the mean of the data after one iteration but its standard deviation only after two (one_state_two, one_state_first_sigma). HMM with one state: the relative frequencies of the data after one iteration (HMM.one_state_step).")
c("C39","partial","GoHMM.bw_step_valid GoHMM.fit_valid GoHMM.bw_step_means GoHMM.fit_means GoHMM.bw_step_monotone_partial GoHMM.fit_monotone_partial GoHMM.bw_step_sigma_pos GoHMM.likelihood_decreases GoHMM.one_state_best","Rows, standard deviations and means: proved. The likelihood can decrease when a standard deviation becomes 0 (likelihood_decreases); otherwise it does not (the partial theorems).")
c("C60","partial","CTMC.bw_untimed_exit_rate CTMC.exit_rate_changed","Violated: the exit rate of every visited state becomes 1.")
c("C55","partial","FMScheduler.follows_iff FMScheduler.getProbability_law FMScheduler.run_follows FMScheduler.getSequenceStates_broken","getSequenceStates always raises AttributeError on a non-empty sequence (getSequenceStates_broken); the rest is proved.")
c("C13","partial","Create.baseMCInit_iff Create.mkMC_ok_iff Create.mkMC_total Create.mkMC_raises Create.mkCTMC_ok_iff Create.mkCTMC_total Create.mkCTMC_raises Create.mkMDP_ok_iff Create.mkMDP_total Create.mkMDP_raises Create.fromLabels_distribution Create.mkHMM_ok_iff_partial Create.mkHMM_spec Create.hmm_accepts_bad_sum Create.hmm_accepts_bad_length Create.mkGoHMM_ok_iff","Labelled models: proved. Violated for HMMs: an initial distribution of sum 1.3 or of the wrong length is accepted (hmm_accepts_bad_sum, hmm_accepts_bad_length).")
c("C14","partial","Create.stateIds_spec Create.stateIdsCTMC_spec Create.stateIdsMDP_spec Create.createMC_spec Create.createCTMC_spec Create.createMDP_spec Create.createMC_ok_iff Create.createMC_stochastic Create.createMC_initial_partial Create.createMC_wrong_initial_state Create.createMC_enters_init Create.createCTMC_empty_initial Create.createHMM_spec Create.createHMM_unknown_state Create.createGoHMM_always_raises CreatePCTMC.createPCTMC_spec_partial CreatePCTMC.initTrans_spec CreatePCTMC.createPCTMC_ok_iff CreatePCTMC.createPCTMC_gap_enters_init CreatePCTMC.createPCTMC_ids_from_one CreatePCTMC.createPCTMC_labels_bigger","Violated: createPCTMC takes the ids for row numbers, so that a gap sends a transition to the added initial state (createPCTMC_gap_enters_init); the initial state is a position among the sorted ids instead of an id (createMC_wrong_initial_state); a list of length nb+1 makes 'init' enter itself (createMC_enters_init); createGoHMM always raises.")
c("C15","partial","Create.createMC_labelling_partial Create.createMC_not_repeatable Create.createMC_refused_mutates Create.createCTMC_not_repeatable Create.createMDP_not_repeatable CreatePCTMC.createPCTMC_not_repeatable","Violated: 'init' is appended to the caller's labelling, so that repeating a successful call always raises (…_not_repeatable).")
c("C16","proved","Create.labelsForRandomModel_spec Create.MC_random_spec Create.MC_random_refuses_init Create.CTMC_random_spec Create.CTMC_random_one_state Create.CTMC_random_exit_rate_not_integer Create.CTMC_random_refuses_init Create.HMM_random_spec Create.GoHMM_random_spec Create.MDP_random_spec Create.MDP_random_refuses_init Create.MDP_random_initial_not_deterministic Create.MDP_random_deterministic_raises","Two sentences of the docstrings are wrong: exit rates are not integers (CTMC_random_exit_rate_not_integer), the added state of a deterministic MDP is not deterministic (MDP_random_initial_not_deterministic).")
c("C18","partial","Create.updateLabelling_partial Create.updateLabelling_refused Create.updateLabelling_appends Create.updateLabelling_inconsistent Create.updateLabelling_wrong_length","Violated: the initial distribution is not recomputed (updateLabelling_inconsistent), the length is not checked when 'init' is present (updateLabelling_wrong_length).")
c("C11","proved","Files.loadSet_saveSet Files.loadSet_float_times",
  "Printing and literal_eval over characters; floats through the contract FloatIO (repr is parsed back), of which decIO is an instance. loadSet_float_times: a set whose multiplicities are an array of floats cannot be loaded.")
c("C12","partial","Files.loadSet_cut Files.loadSet_cut_boundary Files.loadSet_cut_multiplicity Files.loadMC_cut Files.loadCTMC_cut Files.loadMDP_cut Files.loadHMM_cut Files.loadGoHMM_cut Files.loadPCTMC_cut Files.literalEval_garbage",
  "Every strict prefix of a model file raises; a set file cut at a record boundary gives a prefix of the records. Cut elsewhere, the last multiplicity can be wrong (loadSet_cut_multiplicity).")
c("C17","partial","Files.loadMC_saveMC Files.loadCTMC_saveCTMC Files.loadMDP_saveMDP Files.loadHMM_saveHMM Files.loadGoHMM_saveGoHMM Files.loadMC_wrong_header Files.loadCTMC_accepts_MC Files.loadMC_name_on_several_lines Files.loadMC_name_with_carriage_returns Files.literalEvalDict_repr Files.literalEvalDict_cut Files.loadPCTMC_savePCTMC_partial Files.loadPCTMC_wrong_header Files.loadPCTMC_loses_sync",
  "For PCTMCs everything but the synchronous transitions, which save does not write (loadPCTMC_loses_sync). A name with a line break is not refused and makes another model load (loadMC_name_on_several_lines); loadCTMC does not refuse the file of an MC.")
c("C43","partial","Prep.prepare_spec Prep.prepare_HMM Prep.prepares_spec Prep.mixed_traces_not_prepared Prep.shared_trace_prepared_twice Prep.prepared_actions_are_labels Prep.prepared_timed_labels PCTMC.prepare_without PCTMC.prepare_shows PCTMC.withInit_agrees",
  "Proved: the traces of a set in which no trace has the label get it in front exactly once over any history of calls. Violated: when some trace has it the others do not get it (mixed_traces_not_prepared); a list object stored twice gets it twice; in traces of actions and labels and in timed traces the labels end up where actions or times are expected.")
c("C44","partial","Prep.usable_not_refused_partial Prep.refused_iff Prep.unusable_accepted Prep.list_never_MDP Prep.fit_HMM_accepts_actions",
  "Usable data is never refused; exactly four unusable pairs are refused, the others are accepted (unusable_accepted), and fit learns a model from them (fit_HMM_accepts_actions).")
c("C57","partial","Prep.reuse_partial Prep.reuse_disturbed Prep.params_outcome","Proved for undisturbed histories; in all other histories the call to fit raises (reuse_disturbed). The estimation of parameters on a learner whose fit was never called raises AttributeError (params_outcome).")
c("C59","partial","Prep.fit_list_unchanged_partial Prep.fit_set_unchanged_partial Prep.fit_returns_callers_object Prep.fit_changes_traces Prep.fit_changes_callers_model",
  "Violated: the model returned is the caller's object, modified (fit_returns_callers_object, fit_changes_callers_model), and the traces of a Set without the initial label are modified (fit_changes_traces). Proved: lists of traces are not modified.")
c("C45","partial","PCTMC.newValues_spec PCTMC.instantiate_spec PCTMC.instantiate_partial PCTMC.instantiate_accepts_negative PCTMC.instantiate_stuck PCTMC.randomInstantiation_spec PCTMC.randomInstantiation_diverges PCTMC.randomInstantiation_default PCTMC.randomInstantiation_below_documented",
  "Violated: the default bounds of randomInstantiation are 0.01 and 0.3, the documentation says 0.1 and 5.0 (randomInstantiation_below_documented). Violated: instantiate checks the rates under the old values, so that a negative rate is accepted (instantiate_accepts_negative) and every later call is refused (instantiate_stuck).")
c("C46","partial","Expr.eval_spec Expr.eval_congr PCTMC.mkPCTMC_ok_iff PCTMC.mkPCTMC_wf PCTMC.evaluate_spec PCTMC.isInstantiated_spec PCTMC.e_spec PCTMC.methods_spec_partial PCTMC.lkl_spec PCTMC.methods_symbolic PCTMC.toCTMC_spec PCTMC.timedSum_spec PCTMC.logLikelihood_spec_partial PCTMC.logLikelihood_impossible PCTMC.logLikelihood_untimed PCTMC.logLikelihood_refused PCTMC.tau_absorbing PCTMC.next_spec",
  "sympy's evaluation by a contract (DESIGN.md). Violated: logLikelihood of untimed traces raises, a timed trace of density 0 raises, tau from an absorbing state is not a probability (tau_absorbing).")
c("C47","proved","PCTMC.reduceForTraces_spec PCTMC.removeUnreachable_spec PCTMC.removeUnusedTrans_spec PCTMC.reduceForTraces_loses_init PCTMC.removal_changes_exit_rate",
  "reduceForTraces_loses_init: with traces that do not contain 'init' the initial state is removed.")
c("C48","partial","Compose.compose_spec_partial Compose.composeRaw_spec Compose.compose_init_first Compose.compose_second_larger Compose.compose_double_loop Compose.compose_overflow PCompose.compose_two_partial PCompose.compose_three_partial PCompose.compose_all_partial PCompose.prod_total PCompose.compose_values_lost PCompose.compose_self_loop_lost PCompose.compose_raises PCompose.compose_symbolic_init PCompose.compose_four PCompose.compose_two_inits",
  "synchronousCompositionCTMCs: proved for components whose initial state is the last one, n2 <= n1+1, at most one component with self-loops, at most 256 expressions. Violated otherwise (four counterexamples). synchronousCompositionPCTMCs: proved for two and three components, and for any number without synchronous transitions, under conditions on sizes and self-loops. Violated otherwise (PCompose counterexamples): the values of the second component's parameters are lost, a self-loop of the first component is lost, ValueError when a synchronised transition is added to a parametric one, TypeError for a symbolic initial rate, wrong rates with four components.")
c("C49","proved","Alergia.createPTA_words Alergia.createPTA_inj Alergia.createPTA_ends Alergia.createPTA_prefixes Alergia.createPTA_duplicates",
  "createPTA_duplicates: the counts are wrong when the same trace is stored twice in the set.")
c("C50","proved","Alergia.fit_wellFormed Alergia.fit_frequencies Alergia.fit_twoInits",
  "For every outcome of the tests. Otherwise fit raises SyntaxError, only if 'init' is a label of a training trace. fit_twoInits: an 'init' inside a trace is not always noticed.")
c("C51","proved","Alergia.mergeStates_spec Alergia.fit_frequencies","For every compatibility test that accepts only equal labels.")
c("C61","partial","Alergia.compatible_iff_partial Alergia.compatible_overlooks",
  "Proved for words over the alphabet of the tree. Violated: this alphabet misses labels, and the futures behind them are not compared (compatible_overlooks).")
c("C62","partial","Alergia.fit_generates_partial Alergia.fit_generates_hoeffding_partial Alergia.fit_emptyLabel",
  "Proved for traces without the empty label, when no trace contains 'init' or all start with it. Violated with the empty label (fit_emptyLabel).")
c("C53","proved","Active.getActionState_law Active.getActionState_total Active.getActionState_unvisited Active.getActionState_single",
  "getActionState_unvisited: in a state with counts 0 the first action is always proposed (division 0/0).")
c("C54","partial","Active.mergeModels_partial Active.rate_has_no_effect Active.round_not_mixture Active.half_rate Active.fit_stochastic Active.fit_total Active.start_first_call",
  "Violated: old and new hypothesis are the same object, so that the rate has no effect (rate_has_no_effect, half_rate). Proved: the mixture of two distinct models, and that the result of the active learning is stochastic for every rate.")
c("C63","proved","Active.run_belief Active.belief_spec Active.belief_distribution Active.getAction_law","")
c("C64","partial","Active.addTraces_spec Active.addTraces_sampled Active.strategy_spec Active.coin_law Active.strategy_single_process Active.strategy_impossible Active.addTraces_impossible",
  "Violated with one process: a ValueError is raised as soon as a trace is possible in the hypothesis (strategy_single_process).")
c("C52","partial","IOAlergia.fit_frequencies_partial IOAlergia.wrong_action IOAlergia.merged_counts_lost",
  "Violated: the row of an action is stored at its position among the actions allowed in the state (wrong_action); the counts of common successors are not added when states are merged (merged_counts_lost). Proved: for states whose allowed actions are the first ones, the probabilities are the frequencies after the state's own prefix, completed by the counts inherited for unseen observations.")
c("C65","proved","IOAlergia.tree_states IOAlergia.tree_transitions","")
c("C66","proved","IOAlergia.fit_returns IOAlergia.fit_returns_epsilon IOAlergia.fit_no_action IOAlergia.fit_empty IOAlergia.epsilonTest_total IOAlergia.epsilonTest_eq",
  "fit_returns holds for every total test; fit_returns_epsilon for the code's one with 0 < epsilon <= 2. Without any action an IndexError is raised (fit_no_action, fit_empty).")
c("C67","partial","IOAlergia.test_meaning_partial IOAlergia.merged_alike_partial IOAlergia.test_ignores_unseen",
  "Violated: an observation seen from one state only is not tested (test_ignores_unseen). Proved: the exact meaning of the test on all graphs reached by the loop.")
c("C68","partial","IOAlergia.fit_traces_partial IOAlergia.fit_one_action IOAlergia.wrong_action IOAlergia.second_start_lost IOAlergia.init_doubled",
  "Proved when all traces start with the same observation and each state's actions are the first ones (in particular for sets with one action: fit_one_action). Violated otherwise (second_start_lost, wrong_action).")
c("C56","partial","Storm.mc_round_trip_partial Storm.ctmc_round_trip_partial Storm.mdp_round_trip_partial Storm.mdp_round_trip_same Storm.ctmc_absorbing Storm.deadlock_lost Storm.actions_swapped",
  "Proved: the identical model comes back, for MCs and CTMCs without the label 'deadlock' (and without absorbing state), for MDPs when Python lists the set of action names in their order. Violated otherwise (ctmc_absorbing, deadlock_lost, actions_swapped).")
c("C69","partial","Storm.ofMC_spec Storm.ofMDP_spec Storm.ofCTMC_spec Storm.choices_unlabelled",
  "Violated: only the choices of the first state get an action label (choices_unlabelled); for an absorbing state of a CTMC the entries are nan, so ofCTMC_spec assumes exit rates that are not 0.")
c("C70","partial","Storm.toMC_spec Storm.toCTMC_spec Storm.toMDP_spec_partial Storm.toPCTMC_spec_partial Storm.two_initial_states Storm.actions_swapped",
  "toMC_spec and toCTMC_spec are complete for models with one initial state. MDPs: the names of the actions can be permuted (actions_swapped). PCTMCs: fewer than 65535 transitions.")
c("C71","partial","PCompose.compose_two_partial PCompose.compose_all_partial PCompose.compose_three_default PCompose.compose_twice",
  "Violated: a composition of three models with synchronous transitions leaves them in the default argument of the constructor (compose_three_default), and the same call then returns other rates (compose_twice). Proved: with two models the result of a successful call is the composition whatever the default argument contains, and the argument is not changed; likewise for any number of models without synchronous transitions.")
c("C72","partial","PCTMC.fitParameters_monotone_partial PCTMC.fitParameters_untimed_monotone_partial PCTMC.estimate_step_monotone PCTMC.estimate_monotone_partial PCTMC.estimate_untimed_step_monotone PCTMC.estimate_untimed_monotone_partial PCTMC.estimate_total PCTMC.estimate_untimed_total PCTMC.exModel_fit PCTMC.exLoops_fit PCTMC.estimate_sum_decreases PCTMC.estimate_quartic_fails PCTMC.estimate_unused PCTMC.estimate_cofactor_fails",
  "Proved for any number of states, traces, parameters and iterations when the rates are monomials in the estimated parameters (parameters may be shared by transitions); untimed: with a positive rate without these parameters in each state. Violated by rates that are sums (estimate_sum_decreases); the call can raise when the powers of a parameter differ (estimate_quartic_fails), when a parameter is not used (estimate_unused), when another factor is a power (estimate_cofactor_fails).")
c("C73","proved","PCTMC.fitParameters_frame PCTMC.fitParameters_unknown PCTMC.estimate_frame",
  "A parameter without value that was not asked for keeps having none when no bounds for random values are given.")
c("C74","partial","Prep.params_outcome",
  "Violated: on a new learner the call always raises AttributeError; params_outcome gives the outcome for every history of calls.")
c("C75","partial","PCTMC.fitNonInstantiated_changes PCTMC.fitParameters_frame",
  "Violated: all the parameters of the model are estimated (fitNonInstantiated_changes).")
c("C76","partial","Prism.saveMC_describes Prism.saveCTMC_describes Prism.saveMDP_describes Prism.savePCTMC_describes_partial Prism.save_no_initial Prism.name_with_space Prism.label_number Prism.two_initial Prism.savePCTMC_sync Prism.savePCTMC_range Prism.savePCTMC_s",
  "The file is read by a lexer and a parser of the Prism language written in Spec/Prism. Violated for names that are not Prism names (name_with_space, label_number), for a parameter named s (savePCTMC_s) and for models without a state of initial probability 1 (IndexError: two_initial). PCTMC: synchronous transitions are not written (savePCTMC_sync), the range of the variable has one value too many (savePCTMC_range).")
c("C77","partial","Prism.mc_prism_round_trip_partial Prism.ctmc_prism_round_trip_partial Prism.mdp_prism_round_trip_partial Prism.mc_prism_dead Prism.mdp_prism_mixed Prism.pctmc_prism_round_trip_partial Prism.pctmc_prism_instance_partial Prism.pctmc_prism_value_lost",
  "Storm's builder is specified by Built / BuiltMDP in Spec/Prism and BuiltP in Spec/PrismParam (the numbering of the states is arbitrary; a model always exists). Violated for states without transition (they get a loop: mc_prism_dead) and for MDPs (the names of the actions are lost and different actions are merged: mdp_prism_mixed). For PCTMCs the rates agree for all the values of the parameters that extend the given ones, but parameters with a value are no longer parameters (pctmc_prism_value_lost), and if all of them have values a CTMC is loaded (pctmc_prism_instance_partial). Missing: the label 'deadlock', 65535 transitions or more for PCTMCs.")
c("C78","partial","PCTMC.fit_default_raises PCTMC.fit_untimed_raises PCTMC.fit_long_raises PCTMC.fit_kept PCTMC.fit_short_monotone_partial PCTMC.fit_short_total PCTMC.fit_decreases",
  "What is kept holds in full (fit_kept). Violated otherwise: the default value of fixed_parameters raises (fit_default_raises), so do untimed sets (fit_untimed_raises) and traces with at least two dwell times (fit_long_raises: the two tables have different lengths); with one dwell time numpy repeats the shorter row, and the likelihood can decrease (fit_decreases). The monotone part holds for such traces when no transition leads between two states with the first label (fit_short_monotone_partial, fit_short_total).")
c("C79","partial","MC.call_file MC.call_prism_partial MC.call_returns_partial MC.call_storm_monotone_partial MC.call_prism_raises MDP.call_file MDP.call_prism_partial MDP.call_returns_partial MDP.call_prism_raises CTMC.call_file CTMC.call_prism_partial CTMC.call_returns_partial CTMC.call_prism_raises CTMC.fit_exit CTMC.call_storm_nan HMM.call_file HMM.call_returns_partial GoHMM.call_file GoHMM.call_returns_partial PCTMC.call_file_partial PCTMC.call_prism_partial PCTMC.call_returns_partial PCTMC.call_prism_raises PCTMC.call_storm_nan PCTMC.fitParametersData_spec call_no_iteration",
  "The file of output_file holds for the five kinds of model without parameters, and for PCTMCs except for the synchronous transitions, which are never written. Violated: output_file_prism raises an exception after the learning when no state has the initial probability 1 (call_prism_raises), return_data with max_it=0 raises (call_no_iteration), the Storm model of a CTMC or PCTMC with a state that is never left contains nan (call_storm_nan). The rest holds outside these cases. The models are those built by the constructors with labels that Storm and Prism accept, as in C53, C54, C76.")
c("C80","partial","Alergia.call_eq Alergia.call_storm_generates_partial Alergia.call_prism_raises Alergia.call_prism_error IOAlergia.call_returns IOAlergia.call_prism_raises IOAlergia.call_prism_error Active.call_file Active.call_prism_partial Active.call_returns_partial Active.call_data Active.call_data_raises Active.call_data_error Active.call_prism_raises Active.call_no_iteration Active.callList_raises Active.sampled_length",
  "Violated: output_file_prism of Alergia and IOAlergia always raises; return_data with the conversion to Storm raises in the active learning, and so do a list of traces, max_it=0 and output_file_prism with a spread initial distribution. The rest holds outside these cases; call_storm_generates_partial supposes the labels of C62 and no label 'deadlock'.")
c("C81","partial","MC.fit_observed MC.bw_step_observed MC.fit_observed_exact_partial MC.fit_observed_converges_partial MC.fit_observed_between MC.frequencies_best MC.observed_not_reached MDP.bw_step_observed MDP.fit_observed MDP.frequencies_best MDP.fit_observed_best CTMC.bw_step_observed CTMC.fit_observed CTMC.frequencies_best CTMC.fit_observed_best",
  "Holds for MDPs and timed CTMCs (for the largest likelihood of a CTMC: time is spent in every state that is left, otherwise there is no largest one). Violated by MCs (observed_not_reached): the learner counts an unobserved move after the end of each trace. fit_observed gives the learned probability in closed form for every number of iterations: it converges geometrically to the frequencies, and is exact for the states that end no trace.")
c("C82","partial","CTMC.next_law_partial CTMC.next_interval_partial CTMC.next_state_law CTMC.time_law_partial CTMC.time_mean CTMC.run_law CTMC.run_law_partial CTMC.run_law_close_partial CTMC.runTimed_law_partial CTMC.next_rate_zero CTMC.time_bounded CTMC.run_impossible",
  "Exact for waiting times below 1024, and for all times when all rates are positive. Transitions of rate 0 run with the constant 1024: they win with probability exp(-1024*exit); run_law gives the exact law of untimed runs with this defect, run_law_close_partial bounds the distance to the likelihood.")
c("C83","proved","MDP.run_uniform_law MDP.run_fm_law MDP.run_uniform_returns MDP.run_fm_returns MDP.run_uniform_likelihood MDP.run_length MDP.run_uniform_refused",
"Valid transition function: rows of sum 1 or 0, no duplicate in the list of actions. The memoryless scheduler cannot be used by run (TypeError, see C20).")
c("C84","partial","MC.generateSet_binomial MC.generateSet_frequencies HMM.generateSet_binomial HMM.generateSet_frequencies MC.generateSet_geo_binomial MC.generateSet_geo_frequencies HMM.generateSet_geo_binomial HMM.generateSet_geo_frequencies MDP.generateSet_uniform_binomial MDP.generateSet_uniform_frequencies MDP.generateSet_fm_binomial MDP.generateSet_fm_frequencies MDP.generateSet_one_uniform_binomial MDP.generateSet_one_uniform_frequencies MDP.generateSet_one_fm_binomial MDP.generateSet_one_fm_frequencies CTMC.generateSet_binomial CTMC.generateSet_frequencies CTMC.generateSet_likelihood_partial CTMC.generateSet_timed_binomial_partial CTMC.generateSet_timed_frequencies_partial exMC_two_traces",
"MC and HMM with a fixed number of steps: the calls of run read consecutive blocks of one sequence of independent numbers. MDP: both for calls that use independent random numbers and, generateSet_one_*, for calls that read one sequence of numbers, a random number of them each. CTMC and 'geo': the calls use independent random numbers. GoHMMs are in C91, timed traces of CTMCs also in C95, PCTMCs in C96. For a CTMC with rates equal to 0 the limit is not the likelihood (C82).")
c("C85","partial","MC.evaluation_limit MC.evaluation_ranks MC.possible_of_support MC.evaluation_prefers_impossible HMM.evaluation_limit HMM.evaluation_ranks MDP.evaluation_limit_uniform MDP.evaluation_limit_fm exMC_ranks exMC_prefers",
"The limit holds, with the traces impossible for the evaluated model counted as 0. Violated: because of these, on the data of any chain that is not deterministic the chain with one state and an arbitrary label, even one that never occurs, gets a strictly larger logLikelihood than the generating chain (evaluation_prefers_impossible). Proved: the generating model wins against every valid model for which its traces are possible (evaluation_ranks); exMC_ranks and exMC_prefers are concrete cases.")

c("C86","partial","MC.learning_limit MDP.learning_limit_uniform MDP.learning_limit_fm MDP.possible_of_support exMC_endRate exMC_learning_bias exMDP_learning",
"Holds for MDPs after one iteration already. For Markov chains it holds when the number of iterations grows with the set; with a fixed number k of iterations the limit is G + r^k (M - G), with G the probability in the generating model, M in the initial model and r < 1 the proportion of the visits of the state that are at the end of a trace (the transition out of the last state of a trace is counted as if it followed the current model). Violated with a fixed budget: exMC_learning_bias. CTMCs with timed traces are in C92.")

c("C87","proved","MC.likelihood_renamed MC.fit_renamed HMM.likelihood_renamed HMM.fit_renamed MDP.likelihood_renamed MDP.fit_renamed CTMC.likelihood_renamed CTMC.logLikelihoodTimed_renamed CTMC.fit_renamed CTMC.fit_renamed_untimed GoHMM.likelihood_renamed GoHMM.fit_renamed MC.exists_renamed HMM.exists_renamed MDP.exists_renamed CTMC.exists_renamed GoHMM.exists_renamed MC.fit_symmetric HMM.fit_symmetric twinHMM_fit",
"Exact arithmetic. The alphabet of a HMM and the list of actions of an MDP have no duplicates. The renamed models exist (exists_renamed). twinHMM_fit: two states that are the same are never separated by learning.")
c("C88","partial","CTMC.density_renamed CTMC.fit_units GoHMM.lik_renamed GoHMM.fit_units_partial GoHMM.step_sigma_units GoHMM.units_matter GoHMM.units_matter_zero CTMC.units_matter_untimed",
"CTMC with timed traces: proved for every unit. GoHMM: for models whose probabilities and deviations are all positive and sets that vary in each component (fit_units_partial). False for a state that is not visited: the code takes the square root of its standard deviation, so that it is multiplied by the square root of the factor (step_sigma_units, units_matter); false for a standard deviation 0 (units_matter_zero) and for a CTMC learned from untimed traces (units_matter_untimed).")
c("C89","proved","IOAlergia.runSeq_reads IOAlergia.runSeq_tree IOAlergia.runSeq_kept IOAlergia.runSeq_odd IOAlergia.runSeq_training",
"The docstring speaks of a trace, but a trace with its first observation is never accepted (runSeq_training), and a last action without observation may raise IndexError (runSeq_odd).")
c("C90","proved","GoHMM.run_law GoHMM.run_density GoHMM.run_almostSurely GoHMM.lik_integral",
"Contract of numpy.random.normal: mu + sigma z with independent standard normal z. With a standard deviation 0 the traces have no density; run_law still gives their law.")
c("C91","proved","GoHMM.generateSet_binomial GoHMM.generateSet_frequencies GoHMM.generateSet_distinct GoHMM.evaluation_limit GoHMM.evaluation_ranks",
"The calls of run use independent random numbers. The exceptional null set depends on the competing model. Distinctness needs observations with at least one entry. At least two steps (the one-observation case of generateSet is C23).")

c("C92","partial","CTMC.learning_limit CTMC.shownRate_pos CTMC.shownRate_zero CTMC.twoRates_learned",
"Holds for all transitions of positive rate. Violated for the first transition of rate 0 of a state: the simulator gives it the constant time 1024, and its learned rate tends to q exp(-1024 q)/(1 - exp(-1024 q)) > 0, with q the exit rate (shownRate_zero; concrete case twoRates_learned). The calls of run use independent random numbers.")

c("C93","partial","MC.tau_states MC.a_states MC.getLabel_states MC.b_states MC.pi_countsFromEnd MC.next_countsFromEnd MC.runFrom_negative MC.next_refused CTMC.e_states CTMC.l_states CTMC.tau_states CTMC.expectedTime_states CTMC.getLabel_states CTMC.lkl_states_partial CTMC.lkl_negative CTMC.next_countsFromEnd CTMC.next_accepted MDP.tau_states MDP.a_states MDP.getLabel_states MDP.getActions_negative MDP.next_countsFromEnd MDP.next_refused HMM.a_states HMM.tau_states HMM.b_zero HMM.getAlphabet_states HMM.next_countsFromEnd HMM.runFrom_negative HMM.next_refused GoHMM.a_states GoHMM.tau_states GoHMM.b_negative GoHMM.mu_countsFromEnd PCTMC.getLabel_states PCTMC.e_states PCTMC.tau_string PCTMC.tau_anyDestination PCTMC.transitionExpression_negative PCTMC.methods_refuse PCTMC.lkl_refuses PCTMC.float_refused",
"Holds for the methods that check their argument (*_states). Violated by the others, which count negative numbers from the end (*_countsFromEnd, *_negative), by lkl with a negative time and by PCTMC.tau and PCTMC.expected_time on a string or out of a state without transitions. Violated for the states returned by next: MC, MDP and HMM return a numpy integer, which the other methods refuse with a TypeError, whatever the model and the draw (next_refused); CTMC returns an int (next_accepted). HMM.b answers 0 for an integer that is not a state, as its documentation says (b_zero).")

c("C94","partial","PCTMC.next_spec PCTMC.next_law PCTMC.next_state_law PCTMC.time_law PCTMC.next_absorbing PCTMC.next_refused PCTMC.run_law_partial PCTMC.runTimed_law_partial",
"Proved for every state that can be left (next_law, next_state_law, time_law) and for the runs of the models all of whose states can be left. Violated by absorbing states: the simulator jumps to the state 0 after an infinite time (next_absorbing), whatever the model, instead of staying. Unlike CTMC.next (C82) there is no restriction on the times: a transition of rate 0 never wins.")

c("C95","partial","CTMC.generateSet_timed_binomial_partial CTMC.generateSet_timed_frequencies_partial CTMC.evaluation_limit CTMC.evaluation_value_partial CTMC.evaluation_ranks_partial CTMC.evaluation_floor",
"Proved for the CTMCs all of whose rates are positive, and for sets of times below 1024 (the counts) in any CTMC. Missing: the CTMCs with rates equal to 0, for which the simulator does not follow the model (C82): there the limit exists and is the expectation over what the simulator returns (evaluation_limit). A model that cannot produce the traces is reported as -9999 whatever the set (evaluation_floor), as in C85.")

c("C96","partial","PCTMC.generateSet_timed_binomial_partial PCTMC.generateSet_timed_frequencies_partial PCTMC.evaluation_limit_partial PCTMC.evaluation_ranks_partial PCTMC.evaluation_refused",
"Proved for the generators all of whose states can be left, with rates equal to 0 allowed (unlike C95, see C94), and for the candidates that can produce all the traces of the generator. Violated for the other candidates: from some size on logLikelihood raises ValueError (evaluation_refused). Missing: generators with an absorbing state, whose traces have infinite times (C94).")

c("C97","proved","PCTMC.fitParameters_observed PCTMC.estimate_observed PCTMC.expectedUses_unique PCTMC.estimate_proportional PCTMC.estimate_best PCTMC.exModel_learn PCTMC.exModel_best",
"fitParameters_observed is about the whole call, the other theorems about the estimation itself. exModel_learn and exModel_best are a concrete case. That the call returns is the subject of C72-C74 (parameters of the third category can make it fail).")
c("C98","proved","PCTMC.fitParameters_limit PCTMC.parameters_limit PCTMC.exModel_limit",
"fitParameters_limit is about the calls that return; parameters_limit shows that the estimation returns when no parameter is in the third category, and needs only the states before the transitions with the parameter to be reachable. exModel_limit is a concrete case.")

c("C99","proved","MC.bw_step_strict MC.bw_best_fixed MC.logLik_deriv MC.bw_fixed_iff_stationary MC.fit_limit MC.fit_limit_exists MC.fit_tolerance MC.fit_converges MDP.bw_step_strict MDP.bw_best_fixed MDP.logLik_deriv MDP.bw_fixed_iff_stationary MDP.fit_limit MDP.fit_limit_exists MDP.fit_tolerance MDP.fit_converges HMM.bw_step_strict HMM.bw_best_fixed HMM.logLik_deriv HMM.bw_fixed_iff_stationary HMM.fit_limit HMM.fit_limit_exists HMM.fit_tolerance HMM.fit_converges",
"Markov chains, MDPs and HMMs. fit_converges puts the parts together for every starting point.")
c("C100","proved","CTMC.bw_step_strict CTMC.bw_best_fixed CTMC.logLik_deriv CTMC.bw_fixed_iff_stationary CTMC.fit_terminates CTMC.fit_rates_bounded CTMC.fit_limit CTMC.fit_limit_exists CTMC.fit_tolerance CTMC.fit_converges",
"fit_terminates holds with fixed rates too.")

c("C101","proved","Print.mc_print_head Print.mc_print_states Print.mc_print_section Print.mc_print_determines Print.mc_print_not_injective Print.ctmc_print_head Print.ctmc_print_section Print.ctmc_print_determines Print.mdp_print_head Print.mdp_print_section Print.mdp_print_determines Print.hmm_print_head Print.hmm_print_section Print.hmm_print_determines Print.gohmm_print_head Print.gohmm_print_section Print.gohmm_print_determines Print.pctmc_print_head Print.pctmc_print_section Print.pctmc_print_determines",
"The rates of a CTMC are assumed not to be negative in ctmc_print_determines. mc_print_not_injective: two different chains with the same text. PCTMCs: the texts of sympy are described by the contract SymIO.")

c("C102","proved","hoeffdingBound_rejects hoeffdingBound_accepts MC.compatible_rejects MC.compatible_accepts MC.sameFutures_of_label MC.prefix_law HMM.compatible_rejects HMM.compatible_accepts HMM.prefix_law",
"About the prefix tree, before states are merged. sameFutures_of_label: the futures are the same when the words end with a label of one state only.")

c("C103","partial","MC.compatible_separates_partial MC.compatible_separates_next MC.compatible_separates_branching HMM.compatible_separates_partial HMM.compatible_separates_next HMM.compatible_separates_branching createPTA_notices MC.compatible_never_separates twoWays_differ",
"Violated in general: the test only follows the labels of the alphabet of the tree, and a label first met in the rest of a new branch is not put there (createPTA_notices says exactly which labels are). MC.compatible_never_separates gives a chain and two words whose difference is never found, for any number of traces and any alpha below 2. Proved: the difference is found when it concerns the next label (separates_next), when the label that differs is neither certain nor impossible after one of the words (separates_branching), and in general when the labels in between are noticed.")

c("C104","proved","MC.fit_repeats HMM.fit_repeats MDP.fit_repeats GoHMM.fit_repeats CTMC.fit_repeats CTMC.fit_repeats_untimed PCTMC.fit_repeats PCTMC.fitParameters_repeats Iface.logLikelihood_repeats CTMC.logLikelihoodTimed_repeats MDP.logLikelihood_repeats MC.same_tolerance",
"Equalities of results, exceptions included. MC.same_tolerance: with the same tolerance, seven times the same set takes 3 iterations instead of 2.")

c("C105","proved","BW.fit_resume BW.fit_resume_last BW.fit_shorter BW.fit_stopped BW.fit_resume_error MC.fit_add HMM.fit_add MDP.fit_add CTMC.fit_add MC.resume_file MDP.resume_file CTMC.resume_file HMM.resume_file GoHMM.resume_file MC.resume_one_more",
"BW.fit_* are about any kind of model (any iteration step, failures included). MC.resume_one_more: a learning that has converged makes one iteration more when it is started again.")
c("C106","partial","MC.fit_support HMM.fit_support MDP.fit_support CTMC.fit_support MC.fit_possible HMM.fit_possible MDP.fit_possible CTMC.fit_possible MC.fit_ignores HMM.fit_ignores MDP.fit_ignores CTMC.fit_ignores MC.bw_step_processes_differ",
"fit_support holds for every number of processes. fit_ignores: more than one process; with one process an impossible trace raises a TypeError (MC.bw_step_processes_differ), so the claim is false there.")

c("C107","partial","MC.launch_machine_partial HMM.launch_machine_partial MDP.launch_machine_partial CTMC.launch_machine_partial MC.fit_processes HMM.fit_processes MDP.fit_processes CTMC.fit_processes BW.launch_verbose BW.launch_call BW.Machine.processes_le BW.Machine.processes_asked BW.Machine.processes_default BW.Machine.processes_other_systems BW.Machine.processes_one BW.launch_silent BW.launch_allowed BW.launch_warning BW.launch_bar BW.launch_recap MC.launch_machine_differs BW.launch_level_one_header",
"Two machines give the same result if the first model can generate all the traces or both machines use at least two processes. Otherwise the claim is false: MC.launch_machine_differs. At level 1 a line that is not a warning is shown (BW.launch_level_one_header).")

c("C108","partial","MC.likelihood_asHMM MC.oneproc_asHMM MC.run_asHMM MC.step_asHMM MC.fit_asHMM MC.likelihood_asMDP MC.logLikelihood_asMDP MC.counts_asMDP MC.step_asMDP MC.fixed_asMDP CTMC.likelihood_embedded CTMC.fit_embedded MC.asMDP_is MC.asHMM_is MC.kinds_ex MC.fit_asMDP_differs",
"Hidden Markov models (one initial state) and CTMCs on untimed traces: the whole claim. MDP with one action: the likelihoods, when an iteration succeeds, what it reports and the fixed points agree; the learned probabilities do not (MC.fit_asMDP_differs), and MC.step_asMDP says by how much: the chain mixes the row of the MDP with the old row, because it counts a move after the end of each trace.")

c("C109","proved","MC.likelihood_folded MC.oneproc_folded MC.fit_part HMM.likelihood_folded HMM.oneproc_folded HMM.fit_part MDP.likelihood_folded MDP.oneproc_folded MDP.fit_part CTMC.likelihood_folded CTMC.oneproc_folded CTMC.waiting_folded CTMC.timedSum_folded CTMC.timedLikelihood_folded CTMC.fit_part CTMC.fit_part_untimed GoHMM.likelihood_folded GoHMM.fit_part MC.part_folds MC.split_folds HMM.part_folds HMM.split_folds MDP.part_folds MDP.split_folds CTMC.part_folds CTMC.split_folds GoHMM.part_folds GoHMM.split_folds foldMC_folds partMC_folds learning_unfolds",
"Folds (Spec/Folding) says that states of one model behave like states of the other. For injective maps (a part of the model that is never left) learning agrees too, and the rows of the other states are kept (except for standard deviations and fixed rates, see C34 and C40). learning_unfolds: two states that behave the same may not do so after one iteration.")

c("C110","proved","MC.likelihood_near MC.logLikelihood_near MC.oneproc_near MC.step_near MC.rounds_near MC.rounds_continuous MC.total_near HMM.likelihood_near HMM.logLikelihood_near HMM.oneproc_near HMM.step_near HMM.rounds_near HMM.total_near MDP.likelihood_near MDP.logLikelihood_near MDP.step_near MDP.rounds_near CTMC.density_near CTMC.timedLikelihood_near CTMC.step_near nearMC_near nearHMM_near nearMDP_near nearCTMC_near",
"Near c (Spec/Near): each number is at most c times the other. For CTMCs one iteration (the bound E of the exit rates is a hypothesis for both models). Numbers are reals: this bounds the effect of rounding the parameters, not of rounding inside the algorithms.")

c("C111","proved","MC.agree_of_short MC.agree_oneproc_of_short HMM.agree_of_short GoHMM.agree_of_short MDP.agree_of_short CTMC.agree_of_short CTMC.agree_of_short_untimed MC.short_exact MC.logLikelihood_blind fair_unfair fold_short split_short",
"The hypothesis and the conclusion are about the path sums (lik, density) of Spec; the bound is exact for Markov chains (short_exact, every n). Numbers are reals.")

c("C112","proved","MC.run_continues HMM.run_continues GoHMM.run_continues CTMC.run_continues CTMC.runTimed_continues PCTMC.run_continues MDP.run_continues MC.lik_extend MC.lik_prefix MC.logLikelihood_cut HMM.lik_extend HMM.lik_prefix HMM.logLikelihood_cut GoHMM.lik_extend MDP.lik_extend MDP.lik_extend_le MDP.lik_prefix MDP.logLikelihood_cut CTMC.density_extend CTMC.lik_extend logLikelihood_cut_impossible",
"The densities of timed and Gaussian traces can grow with the length of the trace, so lik_prefix and logLikelihood_cut are about the discrete models. logLikelihood_cut is about the multi-process version (C27 relates it to the other one). Numbers are reals.")

c("C113","partial","SetHeap.sets_are_values_partial SetHeap.others_unchanged_partial SetHeap.shared_list SetHeap.shared_list_raises SetHeap.fit_changes_another_set SetHeap.fit_changes_another_set_forever",
"Proved for the histories in which no list is given to two constructors and fit gets sets whose traces have the initial label (or vectors, or learns an HMM). Without this the claim is false of the code: two sets made from one list share it, and after s.addSet(t) the traces are shared, so that fit on s inserts 'init' into some of the traces of t.")

c("C114","partial","PHeap.models_are_values_partial PHeap.others_unchanged_partial PHeap.constructor_deletes_nan PHeap.dictionary_is_kept PHeap.composition_of_one",
"Proved for the histories in which the caller does not write in a dictionary and composes at least two models at a time. Without this the claim is false of the code: the model keeps the dictionary of the caller, and the composition of one model is that very object. The constructor also deletes the entries nan from the dictionary of the caller. The default argument synchronous_transitions (C71) is part of the state of the specification. Learning is C59 and C73.")

c("C115","proved","MDP.fm_observations MDP.fm_chain MDP.fm_same_law MDP.uniform_observations MDP.uniform_average",
"fm_observations needs the tables of the scheduler to be distributions and the actions of the model to be distinct; fm_chain and fm_same_law also that in each pair of states the scheduler proposes a possible action with positive probability, without which run may not return. Both sides are laws over the uniform draws of run (exact arithmetic).")

c("C116","partial","MDP.ioalergia_uniform_rejects MDP.ioalergia_fm_rejects MDP.sameResponses_of_label MDP.ioalergia_uniform_accepts_partial MDP.ioalergia_fm_accepts_partial MDP.ioalergia_uniform_blind MDP.ioalergia_never_separates IOAlergia.disjoint_accepted",
"The bound for wrong rejections is proved; the sum is over the numbers of steps left, of the numbers of sequences of that length. The bound for wrong acceptances is false: the code compares only the observations that were made after both histories, so that two states after which different observations are certain are never separated (ioalergia_uniform_blind, ioalergia_never_separates, disjoint_accepted). It is proved when the observation was made after both (ioalergia_uniform_accepts_partial, ioalergia_fm_accepts_partial). The theorems are about the test on the prefix tree, before any merge; the set is generated on one sequence of uniform random numbers; exact arithmetic.")

c("C117","partial","MDP.ioalergia_uniform_separates_partial MDP.ioalergia_fm_separates_partial MDP.ioalergia_uniform_separates_support MDP.ioalergia_never_separates MDP.ioalergia_uniform_blind",
"Violated when the observation is impossible after one of the histories: it is then never compared (ioalergia_never_separates, ioalergia_uniform_blind). Proved when it is possible after both (separates_partial), hence for every difference when the same continuations are possible after both histories (separates_support). The theorems are about the test on the prefix tree, before any merge; the set is generated on one sequence of uniform random numbers; exact arithmetic.")

c("C118","proved","MC.frequency_precision HMM.frequency_precision MDP.frequency_precision_uniform MDP.frequency_precision_fm MC.evaluation_precision HMM.evaluation_precision MDP.evaluation_precision_uniform MDP.evaluation_precision_fm MC.evaluation_winner HMM.evaluation_winner MDP.evaluation_winner_uniform MDP.evaluation_winner_fm MC.evaluation_exponential HMM.evaluation_exponential MDP.evaluation_exponential_uniform MC.evaluation_sample_size MC.lik_ge HMM.lik_ge",
"For MDPs the theorem on the winner compares two MDPs whose expected log-likelihoods are in that order. That the generating model wins needs that its traces are possible for the other one (C85). The set is generated on one sequence of uniform random numbers; exact arithmetic.")

c("C119","proved","MC.learning_precision MDP.learning_precision_uniform MDP.learning_precision_fm exMC_learning_sample exMDP_learning_sample",
"The term (r + u)^k for Markov chains is not an artefact: the limit of the learned probability for a fixed number of iterations is not the probability of the generating chain (C86). The set is generated on one sequence of uniform random numbers; exact arithmetic.")

c("C120","proved","MC.holdout MC.holdout_fit MC.selection_fit HMM.holdout HMM.holdout_fit HMM.selection_fit MDP.holdout_fit_uniform MDP.holdout_fit_fm MDP.selection_fit_uniform MDP.selection_fit_fm exMC_holdout_sample",
"Both sets are generated on one sequence of uniform random numbers, the second after the first. The learner may be any function of the first set that gives a model with nonnegative rows of sum 1 (for Markov chains: with likelihoods between 0 and 1); its own random numbers are fixed before. Exact arithmetic.")

c("C121","proved","MC.alergia_learns MC.holdout_alergia MC.selection_alergia coinFromInit_alpha",
"Both sets are generated on one sequence of uniform random numbers, the second after the first. Exact arithmetic.")

c("C122","partial","Storm.convert_back_partial Storm.toStormpy_spec Storm.pctmc_refused Storm.hmm_refused Storm.initial_model_partial Storm.initial_model_same Storm.initial_dtmc Storm.initial_parametric_partial Storm.initial_refused Storm.initial_given Storm.continue_mc Storm.continue_ctmc Storm.pctmc_no_method Storm.initial_mdp_renamed Storm.exModel_regular",
"Violated: a PCTMC has no method toStormpy (pctmc_no_method); an MDP given to fit as a Storm model loses the names of its actions, so that it cannot read its own traces (initial_mdp_renamed). The rest holds for models without the label 'deadlock' and, for CTMCs, without states that are never left.")

c("C123","partial","Active.fitC_fst Active.fitRounds_fst Active.fitC_count Active.rounds_bounds_partial Active.max_it_exceeded Active.learning_ends Active.learning_returns Active.half_rounds",
"Violated: max_it bounds only the first training; if it is at most the number of rounds, it is always exceeded (max_it_exceeded). The rest holds; that a model is returned is proved for several processes (with one process a trace that the hypothesis cannot generate raises an exception).")

out = os.path.join(os.path.dirname(__file__), "..", "MANIFEST.json")
json.dump({"claims": C}, open(out, "w"), indent=1)
print(len(C))
