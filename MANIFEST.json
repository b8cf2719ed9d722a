{
 "claims": [
  {
   "property": "C01",
   "status": "proved",
   "theorems": [
    "Jajapy.resolveRandom_ok_iff",
    "Jajapy.resolveRandom_raises_iff",
    "Jajapy.resolveRandom_total",
    "Jajapy.resolveRandom_law"
   ],
   "note": ""
  },
  {
   "property": "C02",
   "status": "proved",
   "theorems": [
    "Jajapy.normalize_spec",
    "Jajapy.normalize_raises",
    "Jajapy.randomProbabilities_spec",
    "Jajapy.randomProbabilities_raises"
   ],
   "note": ""
  },
  {
   "property": "C03",
   "status": "proved",
   "theorems": [
    "Jajapy.checkProbabilities_iff",
    "Jajapy.checkProbabilities_accepts_negative"
   ],
   "note": ""
  },
  {
   "property": "C04",
   "status": "proved",
   "theorems": [
    "Jajapy.hoeffdingBound_symm",
    "Jajapy.hoeffdingBound_same_frequency",
    "Jajapy.hoeffdingBound_empty",
    "Jajapy.hoeffdingBound_antitone",
    "Jajapy.hoeffdingBound_total",
    "Jajapy.hoeffdingBound_two"
   ],
   "note": ""
  },
  {
   "property": "C05",
   "status": "proved",
   "theorems": [
    "Jajapy.mk_from_list_spec",
    "Jajapy.mk_from_list_countable",
    "Jajapy.mk_infer_raises_iff"
   ],
   "note": "Set(list) without an explicit type raises IndexError when the first trace is shorter than 2 (mk_infer_raises_iff)."
  },
  {
   "property": "C06",
   "status": "proved",
   "theorems": [
    "Jajapy.toList_mk",
    "Jajapy.toList_count",
    "Jajapy.mk_toList"
   ],
   "note": ""
  },
  {
   "property": "C07",
   "status": "proved",
   "theorems": [
    "Jajapy.addSet_fold_spec",
    "Jajapy.addSet_spec",
    "Jajapy.addSet_raises",
    "Jajapy.addSets_spec",
    "Jajapy.addSets_perm",
    "Jajapy.addSet_into_empty_breaks_toList"
   ],
   "note": "addSet_into_empty_breaks_toList: merging into an empty Set leaves float multiplicities, on which to_list raises."
  },
  {
   "property": "C08",
   "status": "proved",
   "theorems": [
    "Jajapy.isEqual_iff",
    "Jajapy.isEqual_equivalence",
    "Jajapy.isEqual_not_symmetric_with_duplicates"
   ],
   "note": "on Sets without duplicate traces; isEqual_not_symmetric_with_duplicates is the counterexample without this hypothesis."
  },
  {
   "property": "C09",
   "status": "proved",
   "theorems": [
    "Jajapy.sort_spec",
    "Jajapy.sort_mult",
    "Jajapy.sort_idem"
   ],
   "note": ""
  },
  {
   "property": "C10",
   "status": "proved",
   "theorems": [
    "Jajapy.getAlphabet_untimed",
    "Jajapy.getAlphabet_timed",
    "Jajapy.getAlphabet_mdp",
    "Jajapy.getActionsObservations_spec",
    "Jajapy.getActionsObservations_even_length"
   ],
   "note": ""
  },
  {
   "property": "C19",
   "status": "proved",
   "theorems": [
    "Jajapy.MC.tau_spec",
    "Jajapy.HMM.tau_spec",
    "Jajapy.MDP.tau_spec",
    "Jajapy.CTMC.tau_spec",
    "Jajapy.CTMC.lkl_spec",
    "Jajapy.GoHMM.bn_spec",
    "Jajapy.GoHMM.tau_spec"
   ],
   "note": ""
  },
  {
   "property": "C20",
   "status": "partial",
   "theorems": [
    "Jajapy.MC.run_spec",
    "Jajapy.MC.run_total",
    "Jajapy.HMM.run_spec",
    "Jajapy.HMM.run_total",
    "Jajapy.MDP.run_spec",
    "Jajapy.MDP.run_total",
    "Jajapy.MDP.chooseAction_stuck",
    "Jajapy.MDP.runLoop_stuck",
    "Jajapy.MDP.stuckMDP_diverges",
    "Jajapy.CTMC.runTimed_shape",
    "Jajapy.CTMC.runTimed_spec_partial",
    "Jajapy.CTMC.run_observations",
    "Jajapy.GoHMM.run_spec",
    "Jajapy.GoHMM.run_total"
   ],
   "note": "MDP.run never returns once it is in a state without actions (stuckMDP_diverges)."
  },
  {
   "property": "C21",
   "status": "partial",
   "theorems": [
    "Jajapy.MC.run_spec",
    "Jajapy.HMM.run_spec",
    "Jajapy.MDP.run_spec",
    "Jajapy.MDP.execution_pos",
    "Jajapy.CTMC.next_spec",
    "Jajapy.CTMC.next_possible_partial",
    "Jajapy.CTMC.runTimed_spec_partial",
    "Jajapy.CTMC.next_absorbing",
    "Jajapy.CTMC.next_impossible",
    "Jajapy.GoHMM.run_spec"
   ],
   "note": "Violated by CTMC.next: absorbing states jump to state 0 (next_absorbing), and a transition of rate 0 can win the race (next_impossible); the partial theorems assume that the draws are below the sentinel 1024."
  },
  {
   "property": "C22",
   "status": "proved",
   "theorems": [
    "Jajapy.MC.run_law",
    "Jajapy.HMM.run_law"
   ],
   "note": ""
  },
  {
   "property": "C23",
   "status": "proved",
   "theorems": [
    "Jajapy.currSize_spec",
    "Jajapy.generateSet_spec",
    "Jajapy.generateSetMDP_spec",
    "Jajapy.generateSet_zero_steps"
   ],
   "note": ""
  },
  {
   "property": "C24",
   "status": "proved",
   "theorems": [
    "Jajapy.MDP.mem_getActions",
    "Jajapy.MDP.chooseAction_spec",
    "Jajapy.MDP.runLoop_spec",
    "Jajapy.MDP.run_spec",
    "Jajapy.FMScheduler.execution",
    "Jajapy.FMScheduler.run_follows",
    "Jajapy.memorylessScheduler_breaks_run",
    "Jajapy.memorylessAction_spec"
   ],
   "note": "memorylessScheduler_breaks_run: a MemorylessScheduler cannot be used by MDP.run (TypeError)."
  },
  {
   "property": "C25",
   "status": "proved",
   "theorems": [
    "Jajapy.MDP.seqProb_eq_paths",
    "Jajapy.MDP.eq_interleave",
    "Jajapy.MDP.logLikelihood_spec",
    "Jajapy.MDP.logLikelihood_raises",
    "Jajapy.MC.tau_factor",
    "Jajapy.HMM.tau_factor",
    "Jajapy.MC.seqProb_eq_paths",
    "Jajapy.HMM.seqProb_eq_paths",
    "Jajapy.HMM.b_spec",
    "Jajapy.MC.logLikelihood_spec",
    "Jajapy.HMM.logLikelihood_spec",
    "Jajapy.logLikelihood_raises",
    "Jajapy.GoHMM.seqProb_eq_paths",
    "Jajapy.GoHMM.logLikelihood_spec"
   ],
   "note": ""
  },
  {
   "property": "C26",
   "status": "proved",
   "theorems": [
    "Jajapy.MC.sum_seqProb",
    "Jajapy.HMM.sum_seqProb",
    "Jajapy.MC.seqProb_mem_unit",
    "Jajapy.MDP.sum_seqProb",
    "Jajapy.MDP.lik_mem_unit"
   ],
   "note": ""
  },
  {
   "property": "C27",
   "status": "proved",
   "theorems": [
    "Jajapy.oneproc_eq_multiproc",
    "Jajapy.MC.oneproc_eq_multiproc",
    "Jajapy.HMM.oneproc_eq_multiproc",
    "Jajapy.MDP.oneproc_eq_multiproc",
    "Jajapy.oneproc_multiproc_differ_on_empty"
   ],
   "note": ""
  },
  {
   "property": "C28",
   "status": "proved",
   "theorems": [
    "Jajapy.logLikelihood_congr",
    "Jajapy.addSet_mem",
    "Jajapy.logLikelihood_addSet",
    "Jajapy.MDP.logLikelihood_congr",
    "Jajapy.MDP.logLikelihood_addSet"
   ],
   "note": ""
  },
  {
   "property": "C29",
   "status": "partial",
   "theorems": [
    "Jajapy.impossible_scored_perfect",
    "Jajapy.impossible_witness",
    "Jajapy.MC.logLikelihood_zero_iff_partial",
    "Jajapy.MDP.impossible_scored_perfect",
    "Jajapy.MDP.impossible_witness"
   ],
   "note": "The code violates the property (impossible_scored_perfect, impossible_witness); the partial theorem says when 0.0 is returned."
  },
  {
   "property": "C30",
   "status": "partial",
   "theorems": [
    "Jajapy.CTMC.timedSum_spec",
    "Jajapy.CTMC.logLikelihoodTimed_spec",
    "Jajapy.CTMC.certain_scored_impossible"
   ],
   "note": "The reported value is the average log-density, except that -9999 is reported when every trace has density 0 or 1 (certain_scored_impossible)."
  },
  {
   "property": "C31",
   "status": "partial",
   "theorems": [
    "Jajapy.CTMC.toMC_spec_partial",
    "Jajapy.CTMC.toMC_stochastic",
    "Jajapy.CTMC.toMC_destroys",
    "Jajapy.CTMC.toMC_destroys_example"
   ],
   "note": "The returned chain is right, but the CTMC is modified (toMC_destroys)."
  },
  {
   "property": "C32",
   "status": "proved",
   "theorems": [
    "Jajapy.forward_backward",
    "Jajapy.tables_length",
    "Jajapy.occupancy_sum",
    "Jajapy.uses_sum",
    "Jajapy.MC.processWork_spec",
    "Jajapy.HMM.processWork_spec",
    "Jajapy.MDP.processWork_spec",
    "Jajapy.CTMC.processWork_spec"
   ],
   "note": ""
  },
  {
   "property": "C33",
   "status": "proved",
   "theorems": [
    "Jajapy.MC.bw_step_stochastic",
    "Jajapy.MC.bw_step_keeps_stochastic",
    "Jajapy.MC.fit_stochastic",
    "Jajapy.HMM.bw_step_stochastic",
    "Jajapy.HMM.fit_stochastic",
    "Jajapy.MDP.bw_step_stochastic",
    "Jajapy.MDP.fit_stochastic",
    "Jajapy.CTMC.bw_step_valid",
    "Jajapy.CTMC.fit_valid",
    "Jajapy.GoHMM.bw_step_valid",
    "Jajapy.GoHMM.fit_valid",
    "Jajapy.PCTMC.estimate_structure"
   ],
   "note": "Also: CTMC, GoHMM, and for parametric CTMCs that no rate becomes negative."
  },
  {
   "property": "C34",
   "status": "partial",
   "theorems": [
    "Jajapy.MC.bw_step_zero",
    "Jajapy.MC.fit_structure",
    "Jajapy.MC.bw_step_unvisited",
    "Jajapy.HMM.bw_step_zero",
    "Jajapy.HMM.fit_structure",
    "Jajapy.HMM.bw_step_unvisited",
    "Jajapy.MDP.bw_step_zero",
    "Jajapy.MDP.fit_structure",
    "Jajapy.MDP.bw_step_unvisited",
    "Jajapy.CTMC.bw_step_zero",
    "Jajapy.CTMC.fit_structure",
    "Jajapy.CTMC.bw_step_unvisited",
    "Jajapy.GoHMM.bw_step_zero",
    "Jajapy.GoHMM.fit_structure",
    "Jajapy.GoHMM.bw_step_unvisited_partial",
    "Jajapy.GoHMM.unvisited_changed",
    "Jajapy.PCTMC.estimate_structure"
   ],
   "note": "All model types (PCTMC: estimate_structure, timed traces, and C78). Violated by GoHMM: the standard deviations of a state that is not visited become their square roots (unvisited_changed)."
  },
  {
   "property": "C35",
   "status": "proved",
   "theorems": [
    "Jajapy.MC.bw_step_monotone",
    "Jajapy.MC.fit_monotone",
    "Jajapy.MC.fit_total"
   ],
   "note": ""
  },
  {
   "property": "C36",
   "status": "proved",
   "theorems": [
    "Jajapy.HMM.bw_step_monotone",
    "Jajapy.HMM.fit_monotone",
    "Jajapy.HMM.fit_total",
    "Jajapy.HMM.one_state_best"
   ],
   "note": ""
  },
  {
   "property": "C37",
   "status": "proved",
   "theorems": [
    "Jajapy.MDP.bw_step_monotone",
    "Jajapy.MDP.fit_monotone",
    "Jajapy.MDP.fit_total"
   ],
   "note": ""
  },
  {
   "property": "C38",
   "status": "proved",
   "theorems": [
    "Jajapy.CTMC.bw_step_monotone",
    "Jajapy.CTMC.fit_monotone",
    "Jajapy.CTMC.fit_total"
   ],
   "note": "also when some rates are fixed."
  },
  {
   "property": "C40",
   "status": "partial",
   "theorems": [
    "Jajapy.CTMC.fit_fixed_partial",
    "Jajapy.CTMC.fixed_doubled",
    "Jajapy.CTMC.fixed_rate_changed"
   ],
   "note": "Violated: a fixed rate is doubled at each iteration if the data spends no time in its source."
  },
  {
   "property": "C41",
   "status": "proved",
   "theorems": [
    "Jajapy.fit_iterations",
    "Jajapy.fit_no_iteration",
    "Jajapy.fit_bound",
    "Jajapy.fit_stopped",
    "Jajapy.MC.fit_terminates",
    "Jajapy.HMM.fit_terminates",
    "Jajapy.MDP.fit_terminates",
    "Jajapy.CTMC.fit_terminates",
    "Jajapy.BW.fit_ends",
    "Jajapy.MC.fit_ends",
    "Jajapy.HMM.fit_ends",
    "Jajapy.MDP.fit_ends",
    "Jajapy.CTMC.fit_ends",
    "Jajapy.HMM.one_state_ends",
    "Jajapy.GoHMM.one_state_ends",
    "Jajapy.GoHMM.one_state_total"
   ],
   "note": "bounds on the number of iterations without max_it: Markov chains, hidden Markov models and Markov decision processes. CTMC.fit_terminates: timed traces with positive waiting times, without an explicit bound. The theorems fit_ends: for every number of processes, also with traces that the model cannot generate, the learning returns or raises an exception."
  },
  {
   "property": "C42",
   "status": "partial",
   "theorems": [
    "Jajapy.MC.bw_step_mult",
    "Jajapy.MC.bw_step_processes",
    "Jajapy.MC.bw_step_processes_differ",
    "Jajapy.HMM.bw_step_mult",
    "Jajapy.HMM.bw_step_processes",
    "Jajapy.MDP.bw_step_mult",
    "Jajapy.MDP.bw_step_processes",
    "Jajapy.CTMC.bw_step_mult",
    "Jajapy.CTMC.bw_step_processes",
    "Jajapy.GoHMM.bw_step_mult",
    "Jajapy.GoHMM.bw_step_processes"
   ],
   "note": "bw_step_processes_differ: with an impossible trace the single-process run raises while the multi-process run succeeds."
  },
  {
   "property": "C58",
   "status": "partial",
   "theorems": [
    "Jajapy.MC.bw_update_spec",
    "Jajapy.MC.bw_step_outcome",
    "Jajapy.MC.processWork_spec",
    "Jajapy.HMM.processWork_spec",
    "Jajapy.HMM.bw_update_spec",
    "Jajapy.HMM.bw_step_outcome",
    "Jajapy.HMM.one_state_step",
    "Jajapy.HMM.one_state_ends",
    "Jajapy.MDP.processWork_spec",
    "Jajapy.MDP.bw_update_spec",
    "Jajapy.MDP.bw_step_outcome",
    "Jajapy.MDP.bw_step_empty_trace",
    "Jajapy.CTMC.processWork_spec",
    "Jajapy.CTMC.bw_update_spec",
    "Jajapy.CTMC.bw_step_outcome",
    "Jajapy.CTMC.bw_step_single",
    "Jajapy.CTMC.timeIn_pos_iff",
    "Jajapy.CTMC.bw_untimed_refines",
    "Jajapy.CTMC.bw_untimed_monotone",
    "Jajapy.GoHMM.bw_update_spec",
    "Jajapy.GoHMM.bw_step_sigma",
    "Jajapy.GoHMM.bw_step_outcome",
    "Jajapy.GoHMM.bw_step_total",
    "Jajapy.GoHMM.one_state_step",
    "Jajapy.GoHMM.one_state_two",
    "Jajapy.GoHMM.one_state_first_sigma",
    "Jajapy.GoHMM.one_state_ends",
    "Jajapy.PCTMC.bw_update_spec",
    "Jajapy.PCTMC.bw_update_untimed_spec",
    "Jajapy.PCTMC.exModel_step"
   ],
   "note": "All model types; PCTMC: the estimation of parameters, for rates that are monomials (bw_update_spec, bw_update_untimed_spec). GoHMM: the new standard deviation is computed around the old mean (bw_step_sigma); with one state the model has the mean of the data after one iteration but its standard deviation only after two (one_state_two, one_state_first_sigma). HMM with one state: the relative frequencies of the data after one iteration (HMM.one_state_step)."
  },
  {
   "property": "C39",
   "status": "partial",
   "theorems": [
    "Jajapy.GoHMM.bw_step_valid",
    "Jajapy.GoHMM.fit_valid",
    "Jajapy.GoHMM.bw_step_means",
    "Jajapy.GoHMM.fit_means",
    "Jajapy.GoHMM.bw_step_monotone_partial",
    "Jajapy.GoHMM.fit_monotone_partial",
    "Jajapy.GoHMM.bw_step_sigma_pos",
    "Jajapy.GoHMM.likelihood_decreases",
    "Jajapy.GoHMM.one_state_best"
   ],
   "note": "Rows, standard deviations and means: proved. The likelihood can decrease when a standard deviation becomes 0 (likelihood_decreases); otherwise it does not (the partial theorems)."
  },
  {
   "property": "C60",
   "status": "partial",
   "theorems": [
    "Jajapy.CTMC.bw_untimed_exit_rate",
    "Jajapy.CTMC.exit_rate_changed"
   ],
   "note": "Violated: the exit rate of every visited state becomes 1."
  },
  {
   "property": "C55",
   "status": "partial",
   "theorems": [
    "Jajapy.FMScheduler.follows_iff",
    "Jajapy.FMScheduler.getProbability_law",
    "Jajapy.FMScheduler.run_follows",
    "Jajapy.FMScheduler.getSequenceStates_broken"
   ],
   "note": "getSequenceStates always raises AttributeError on a non-empty sequence (getSequenceStates_broken); the rest is proved."
  },
  {
   "property": "C13",
   "status": "partial",
   "theorems": [
    "Jajapy.Create.baseMCInit_iff",
    "Jajapy.Create.mkMC_ok_iff",
    "Jajapy.Create.mkMC_total",
    "Jajapy.Create.mkMC_raises",
    "Jajapy.Create.mkCTMC_ok_iff",
    "Jajapy.Create.mkCTMC_total",
    "Jajapy.Create.mkCTMC_raises",
    "Jajapy.Create.mkMDP_ok_iff",
    "Jajapy.Create.mkMDP_total",
    "Jajapy.Create.mkMDP_raises",
    "Jajapy.Create.fromLabels_distribution",
    "Jajapy.Create.mkHMM_ok_iff_partial",
    "Jajapy.Create.mkHMM_spec",
    "Jajapy.Create.hmm_accepts_bad_sum",
    "Jajapy.Create.hmm_accepts_bad_length",
    "Jajapy.Create.mkGoHMM_ok_iff"
   ],
   "note": "Labelled models: proved. Violated for HMMs: an initial distribution of sum 1.3 or of the wrong length is accepted (hmm_accepts_bad_sum, hmm_accepts_bad_length)."
  },
  {
   "property": "C14",
   "status": "partial",
   "theorems": [
    "Jajapy.Create.stateIds_spec",
    "Jajapy.Create.stateIdsCTMC_spec",
    "Jajapy.Create.stateIdsMDP_spec",
    "Jajapy.Create.createMC_spec",
    "Jajapy.Create.createCTMC_spec",
    "Jajapy.Create.createMDP_spec",
    "Jajapy.Create.createMC_ok_iff",
    "Jajapy.Create.createMC_stochastic",
    "Jajapy.Create.createMC_initial_partial",
    "Jajapy.Create.createMC_wrong_initial_state",
    "Jajapy.Create.createMC_enters_init",
    "Jajapy.Create.createCTMC_empty_initial",
    "Jajapy.Create.createHMM_spec",
    "Jajapy.Create.createHMM_unknown_state",
    "Jajapy.Create.createGoHMM_always_raises",
    "Jajapy.CreatePCTMC.createPCTMC_spec_partial",
    "Jajapy.CreatePCTMC.initTrans_spec",
    "Jajapy.CreatePCTMC.createPCTMC_ok_iff",
    "Jajapy.CreatePCTMC.createPCTMC_gap_enters_init",
    "Jajapy.CreatePCTMC.createPCTMC_ids_from_one",
    "Jajapy.CreatePCTMC.createPCTMC_labels_bigger"
   ],
   "note": "Violated: createPCTMC takes the ids for row numbers, so that a gap sends a transition to the added initial state (createPCTMC_gap_enters_init); the initial state is a position among the sorted ids instead of an id (createMC_wrong_initial_state); a list of length nb+1 makes 'init' enter itself (createMC_enters_init); createGoHMM always raises."
  },
  {
   "property": "C15",
   "status": "partial",
   "theorems": [
    "Jajapy.Create.createMC_labelling_partial",
    "Jajapy.Create.createMC_not_repeatable",
    "Jajapy.Create.createMC_refused_mutates",
    "Jajapy.Create.createCTMC_not_repeatable",
    "Jajapy.Create.createMDP_not_repeatable",
    "Jajapy.CreatePCTMC.createPCTMC_not_repeatable"
   ],
   "note": "Violated: 'init' is appended to the caller's labelling, so that repeating a successful call always raises (\u2026_not_repeatable)."
  },
  {
   "property": "C16",
   "status": "proved",
   "theorems": [
    "Jajapy.Create.labelsForRandomModel_spec",
    "Jajapy.Create.MC_random_spec",
    "Jajapy.Create.MC_random_refuses_init",
    "Jajapy.Create.CTMC_random_spec",
    "Jajapy.Create.CTMC_random_one_state",
    "Jajapy.Create.CTMC_random_exit_rate_not_integer",
    "Jajapy.Create.CTMC_random_refuses_init",
    "Jajapy.Create.HMM_random_spec",
    "Jajapy.Create.GoHMM_random_spec",
    "Jajapy.Create.MDP_random_spec",
    "Jajapy.Create.MDP_random_refuses_init",
    "Jajapy.Create.MDP_random_initial_not_deterministic",
    "Jajapy.Create.MDP_random_deterministic_raises"
   ],
   "note": "Two sentences of the docstrings are wrong: exit rates are not integers (CTMC_random_exit_rate_not_integer), the added state of a deterministic MDP is not deterministic (MDP_random_initial_not_deterministic)."
  },
  {
   "property": "C18",
   "status": "partial",
   "theorems": [
    "Jajapy.Create.updateLabelling_partial",
    "Jajapy.Create.updateLabelling_refused",
    "Jajapy.Create.updateLabelling_appends",
    "Jajapy.Create.updateLabelling_inconsistent",
    "Jajapy.Create.updateLabelling_wrong_length"
   ],
   "note": "Violated: the initial distribution is not recomputed (updateLabelling_inconsistent), the length is not checked when 'init' is present (updateLabelling_wrong_length)."
  },
  {
   "property": "C11",
   "status": "proved",
   "theorems": [
    "Jajapy.Files.loadSet_saveSet",
    "Jajapy.Files.loadSet_float_times"
   ],
   "note": "Printing and literal_eval over characters; floats through the contract FloatIO (repr is parsed back), of which decIO is an instance. loadSet_float_times: a set whose multiplicities are an array of floats cannot be loaded."
  },
  {
   "property": "C12",
   "status": "partial",
   "theorems": [
    "Jajapy.Files.loadSet_cut",
    "Jajapy.Files.loadSet_cut_boundary",
    "Jajapy.Files.loadSet_cut_multiplicity",
    "Jajapy.Files.loadMC_cut",
    "Jajapy.Files.loadCTMC_cut",
    "Jajapy.Files.loadMDP_cut",
    "Jajapy.Files.loadHMM_cut",
    "Jajapy.Files.loadGoHMM_cut",
    "Jajapy.Files.loadPCTMC_cut",
    "Jajapy.Files.literalEval_garbage"
   ],
   "note": "Every strict prefix of a model file raises; a set file cut at a record boundary gives a prefix of the records. Cut elsewhere, the last multiplicity can be wrong (loadSet_cut_multiplicity)."
  },
  {
   "property": "C17",
   "status": "partial",
   "theorems": [
    "Jajapy.Files.loadMC_saveMC",
    "Jajapy.Files.loadCTMC_saveCTMC",
    "Jajapy.Files.loadMDP_saveMDP",
    "Jajapy.Files.loadHMM_saveHMM",
    "Jajapy.Files.loadGoHMM_saveGoHMM",
    "Jajapy.Files.loadMC_wrong_header",
    "Jajapy.Files.loadCTMC_accepts_MC",
    "Jajapy.Files.loadMC_name_on_several_lines",
    "Jajapy.Files.loadMC_name_with_carriage_returns",
    "Jajapy.Files.literalEvalDict_repr",
    "Jajapy.Files.literalEvalDict_cut",
    "Jajapy.Files.loadPCTMC_savePCTMC_partial",
    "Jajapy.Files.loadPCTMC_wrong_header",
    "Jajapy.Files.loadPCTMC_loses_sync"
   ],
   "note": "For PCTMCs everything but the synchronous transitions, which save does not write (loadPCTMC_loses_sync). A name with a line break is not refused and makes another model load (loadMC_name_on_several_lines); loadCTMC does not refuse the file of an MC."
  },
  {
   "property": "C43",
   "status": "partial",
   "theorems": [
    "Jajapy.Prep.prepare_spec",
    "Jajapy.Prep.prepare_HMM",
    "Jajapy.Prep.prepares_spec",
    "Jajapy.Prep.mixed_traces_not_prepared",
    "Jajapy.Prep.shared_trace_prepared_twice",
    "Jajapy.Prep.prepared_actions_are_labels",
    "Jajapy.Prep.prepared_timed_labels",
    "Jajapy.PCTMC.prepare_without",
    "Jajapy.PCTMC.prepare_shows",
    "Jajapy.PCTMC.withInit_agrees"
   ],
   "note": "Proved: the traces of a set in which no trace has the label get it in front exactly once over any history of calls. Violated: when some trace has it the others do not get it (mixed_traces_not_prepared); a list object stored twice gets it twice; in traces of actions and labels and in timed traces the labels end up where actions or times are expected."
  },
  {
   "property": "C44",
   "status": "partial",
   "theorems": [
    "Jajapy.Prep.usable_not_refused_partial",
    "Jajapy.Prep.refused_iff",
    "Jajapy.Prep.unusable_accepted",
    "Jajapy.Prep.list_never_MDP",
    "Jajapy.Prep.fit_HMM_accepts_actions"
   ],
   "note": "Usable data is never refused; exactly four unusable pairs are refused, the others are accepted (unusable_accepted), and fit learns a model from them (fit_HMM_accepts_actions)."
  },
  {
   "property": "C57",
   "status": "partial",
   "theorems": [
    "Jajapy.Prep.reuse_partial",
    "Jajapy.Prep.reuse_disturbed",
    "Jajapy.Prep.params_outcome"
   ],
   "note": "Proved for undisturbed histories; in all other histories the call to fit raises (reuse_disturbed). The estimation of parameters on a learner whose fit was never called raises AttributeError (params_outcome)."
  },
  {
   "property": "C59",
   "status": "partial",
   "theorems": [
    "Jajapy.Prep.fit_list_unchanged_partial",
    "Jajapy.Prep.fit_set_unchanged_partial",
    "Jajapy.Prep.fit_returns_callers_object",
    "Jajapy.Prep.fit_changes_traces",
    "Jajapy.Prep.fit_changes_callers_model"
   ],
   "note": "Violated: the model returned is the caller's object, modified (fit_returns_callers_object, fit_changes_callers_model), and the traces of a Set without the initial label are modified (fit_changes_traces). Proved: lists of traces are not modified."
  },
  {
   "property": "C45",
   "status": "partial",
   "theorems": [
    "Jajapy.PCTMC.newValues_spec",
    "Jajapy.PCTMC.instantiate_spec",
    "Jajapy.PCTMC.instantiate_partial",
    "Jajapy.PCTMC.instantiate_accepts_negative",
    "Jajapy.PCTMC.instantiate_stuck",
    "Jajapy.PCTMC.randomInstantiation_spec",
    "Jajapy.PCTMC.randomInstantiation_diverges",
    "Jajapy.PCTMC.randomInstantiation_default",
    "Jajapy.PCTMC.randomInstantiation_below_documented"
   ],
   "note": "Violated: the default bounds of randomInstantiation are 0.01 and 0.3, the documentation says 0.1 and 5.0 (randomInstantiation_below_documented). Violated: instantiate checks the rates under the old values, so that a negative rate is accepted (instantiate_accepts_negative) and every later call is refused (instantiate_stuck)."
  },
  {
   "property": "C46",
   "status": "partial",
   "theorems": [
    "Jajapy.Expr.eval_spec",
    "Jajapy.Expr.eval_congr",
    "Jajapy.PCTMC.mkPCTMC_ok_iff",
    "Jajapy.PCTMC.mkPCTMC_wf",
    "Jajapy.PCTMC.evaluate_spec",
    "Jajapy.PCTMC.isInstantiated_spec",
    "Jajapy.PCTMC.e_spec",
    "Jajapy.PCTMC.methods_spec_partial",
    "Jajapy.PCTMC.lkl_spec",
    "Jajapy.PCTMC.methods_symbolic",
    "Jajapy.PCTMC.toCTMC_spec",
    "Jajapy.PCTMC.timedSum_spec",
    "Jajapy.PCTMC.logLikelihood_spec_partial",
    "Jajapy.PCTMC.logLikelihood_impossible",
    "Jajapy.PCTMC.logLikelihood_untimed",
    "Jajapy.PCTMC.logLikelihood_refused",
    "Jajapy.PCTMC.tau_absorbing",
    "Jajapy.PCTMC.next_spec"
   ],
   "note": "sympy's evaluation by a contract (DESIGN.md). Violated: logLikelihood of untimed traces raises, a timed trace of density 0 raises, tau from an absorbing state is not a probability (tau_absorbing)."
  },
  {
   "property": "C47",
   "status": "proved",
   "theorems": [
    "Jajapy.PCTMC.reduceForTraces_spec",
    "Jajapy.PCTMC.removeUnreachable_spec",
    "Jajapy.PCTMC.removeUnusedTrans_spec",
    "Jajapy.PCTMC.reduceForTraces_loses_init",
    "Jajapy.PCTMC.removal_changes_exit_rate"
   ],
   "note": "reduceForTraces_loses_init: with traces that do not contain 'init' the initial state is removed."
  },
  {
   "property": "C48",
   "status": "partial",
   "theorems": [
    "Jajapy.Compose.compose_spec_partial",
    "Jajapy.Compose.composeRaw_spec",
    "Jajapy.Compose.compose_init_first",
    "Jajapy.Compose.compose_second_larger",
    "Jajapy.Compose.compose_double_loop",
    "Jajapy.Compose.compose_overflow",
    "Jajapy.PCompose.compose_two_partial",
    "Jajapy.PCompose.compose_three_partial",
    "Jajapy.PCompose.compose_all_partial",
    "Jajapy.PCompose.prod_total",
    "Jajapy.PCompose.compose_values_lost",
    "Jajapy.PCompose.compose_self_loop_lost",
    "Jajapy.PCompose.compose_raises",
    "Jajapy.PCompose.compose_symbolic_init",
    "Jajapy.PCompose.compose_four",
    "Jajapy.PCompose.compose_two_inits"
   ],
   "note": "synchronousCompositionCTMCs: proved for components whose initial state is the last one, n2 <= n1+1, at most one component with self-loops, at most 256 expressions. Violated otherwise (four counterexamples). synchronousCompositionPCTMCs: proved for two and three components, and for any number without synchronous transitions, under conditions on sizes and self-loops. Violated otherwise (PCompose counterexamples): the values of the second component's parameters are lost, a self-loop of the first component is lost, ValueError when a synchronised transition is added to a parametric one, TypeError for a symbolic initial rate, wrong rates with four components."
  },
  {
   "property": "C49",
   "status": "proved",
   "theorems": [
    "Jajapy.Alergia.createPTA_words",
    "Jajapy.Alergia.createPTA_inj",
    "Jajapy.Alergia.createPTA_ends",
    "Jajapy.Alergia.createPTA_prefixes",
    "Jajapy.Alergia.createPTA_duplicates"
   ],
   "note": "createPTA_duplicates: the counts are wrong when the same trace is stored twice in the set."
  },
  {
   "property": "C50",
   "status": "proved",
   "theorems": [
    "Jajapy.Alergia.fit_wellFormed",
    "Jajapy.Alergia.fit_frequencies",
    "Jajapy.Alergia.fit_twoInits"
   ],
   "note": "For every outcome of the tests. Otherwise fit raises SyntaxError, only if 'init' is a label of a training trace. fit_twoInits: an 'init' inside a trace is not always noticed."
  },
  {
   "property": "C51",
   "status": "proved",
   "theorems": [
    "Jajapy.Alergia.mergeStates_spec",
    "Jajapy.Alergia.fit_frequencies"
   ],
   "note": "For every compatibility test that accepts only equal labels."
  },
  {
   "property": "C61",
   "status": "partial",
   "theorems": [
    "Jajapy.Alergia.compatible_iff_partial",
    "Jajapy.Alergia.compatible_overlooks"
   ],
   "note": "Proved for words over the alphabet of the tree. Violated: this alphabet misses labels, and the futures behind them are not compared (compatible_overlooks)."
  },
  {
   "property": "C62",
   "status": "partial",
   "theorems": [
    "Jajapy.Alergia.fit_generates_partial",
    "Jajapy.Alergia.fit_generates_hoeffding_partial",
    "Jajapy.Alergia.fit_emptyLabel"
   ],
   "note": "Proved for traces without the empty label, when no trace contains 'init' or all start with it. Violated with the empty label (fit_emptyLabel)."
  },
  {
   "property": "C53",
   "status": "proved",
   "theorems": [
    "Jajapy.Active.getActionState_law",
    "Jajapy.Active.getActionState_total",
    "Jajapy.Active.getActionState_unvisited",
    "Jajapy.Active.getActionState_single"
   ],
   "note": "getActionState_unvisited: in a state with counts 0 the first action is always proposed (division 0/0)."
  },
  {
   "property": "C54",
   "status": "partial",
   "theorems": [
    "Jajapy.Active.mergeModels_partial",
    "Jajapy.Active.rate_has_no_effect",
    "Jajapy.Active.round_not_mixture",
    "Jajapy.Active.half_rate",
    "Jajapy.Active.fit_stochastic",
    "Jajapy.Active.fit_total",
    "Jajapy.Active.start_first_call"
   ],
   "note": "Violated: old and new hypothesis are the same object, so that the rate has no effect (rate_has_no_effect, half_rate). Proved: the mixture of two distinct models, and that the result of the active learning is stochastic for every rate."
  },
  {
   "property": "C63",
   "status": "proved",
   "theorems": [
    "Jajapy.Active.run_belief",
    "Jajapy.Active.belief_spec",
    "Jajapy.Active.belief_distribution",
    "Jajapy.Active.getAction_law"
   ],
   "note": ""
  },
  {
   "property": "C64",
   "status": "partial",
   "theorems": [
    "Jajapy.Active.addTraces_spec",
    "Jajapy.Active.addTraces_sampled",
    "Jajapy.Active.strategy_spec",
    "Jajapy.Active.coin_law",
    "Jajapy.Active.strategy_single_process",
    "Jajapy.Active.strategy_impossible",
    "Jajapy.Active.addTraces_impossible"
   ],
   "note": "Violated with one process: a ValueError is raised as soon as a trace is possible in the hypothesis (strategy_single_process)."
  },
  {
   "property": "C52",
   "status": "partial",
   "theorems": [
    "Jajapy.IOAlergia.fit_frequencies_partial",
    "Jajapy.IOAlergia.wrong_action",
    "Jajapy.IOAlergia.merged_counts_lost"
   ],
   "note": "Violated: the row of an action is stored at its position among the actions allowed in the state (wrong_action); the counts of common successors are not added when states are merged (merged_counts_lost). Proved: for states whose allowed actions are the first ones, the probabilities are the frequencies after the state's own prefix, completed by the counts inherited for unseen observations."
  },
  {
   "property": "C65",
   "status": "proved",
   "theorems": [
    "Jajapy.IOAlergia.tree_states",
    "Jajapy.IOAlergia.tree_transitions"
   ],
   "note": ""
  },
  {
   "property": "C66",
   "status": "proved",
   "theorems": [
    "Jajapy.IOAlergia.fit_returns",
    "Jajapy.IOAlergia.fit_returns_epsilon",
    "Jajapy.IOAlergia.fit_no_action",
    "Jajapy.IOAlergia.fit_empty",
    "Jajapy.IOAlergia.epsilonTest_total",
    "Jajapy.IOAlergia.epsilonTest_eq"
   ],
   "note": "fit_returns holds for every total test; fit_returns_epsilon for the code's one with 0 < epsilon <= 2. Without any action an IndexError is raised (fit_no_action, fit_empty)."
  },
  {
   "property": "C67",
   "status": "partial",
   "theorems": [
    "Jajapy.IOAlergia.test_meaning_partial",
    "Jajapy.IOAlergia.merged_alike_partial",
    "Jajapy.IOAlergia.test_ignores_unseen"
   ],
   "note": "Violated: an observation seen from one state only is not tested (test_ignores_unseen). Proved: the exact meaning of the test on all graphs reached by the loop."
  },
  {
   "property": "C68",
   "status": "partial",
   "theorems": [
    "Jajapy.IOAlergia.fit_traces_partial",
    "Jajapy.IOAlergia.fit_one_action",
    "Jajapy.IOAlergia.wrong_action",
    "Jajapy.IOAlergia.second_start_lost",
    "Jajapy.IOAlergia.init_doubled"
   ],
   "note": "Proved when all traces start with the same observation and each state's actions are the first ones (in particular for sets with one action: fit_one_action). Violated otherwise (second_start_lost, wrong_action)."
  },
  {
   "property": "C56",
   "status": "partial",
   "theorems": [
    "Jajapy.Storm.mc_round_trip_partial",
    "Jajapy.Storm.ctmc_round_trip_partial",
    "Jajapy.Storm.mdp_round_trip_partial",
    "Jajapy.Storm.mdp_round_trip_same",
    "Jajapy.Storm.ctmc_absorbing",
    "Jajapy.Storm.deadlock_lost",
    "Jajapy.Storm.actions_swapped"
   ],
   "note": "Proved: the identical model comes back, for MCs and CTMCs without the label 'deadlock' (and without absorbing state), for MDPs when Python lists the set of action names in their order. Violated otherwise (ctmc_absorbing, deadlock_lost, actions_swapped)."
  },
  {
   "property": "C69",
   "status": "partial",
   "theorems": [
    "Jajapy.Storm.ofMC_spec",
    "Jajapy.Storm.ofMDP_spec",
    "Jajapy.Storm.ofCTMC_spec",
    "Jajapy.Storm.choices_unlabelled"
   ],
   "note": "Violated: only the choices of the first state get an action label (choices_unlabelled); for an absorbing state of a CTMC the entries are nan, so ofCTMC_spec assumes exit rates that are not 0."
  },
  {
   "property": "C70",
   "status": "partial",
   "theorems": [
    "Jajapy.Storm.toMC_spec",
    "Jajapy.Storm.toCTMC_spec",
    "Jajapy.Storm.toMDP_spec_partial",
    "Jajapy.Storm.toPCTMC_spec_partial",
    "Jajapy.Storm.two_initial_states",
    "Jajapy.Storm.actions_swapped"
   ],
   "note": "toMC_spec and toCTMC_spec are complete for models with one initial state. MDPs: the names of the actions can be permuted (actions_swapped). PCTMCs: fewer than 65535 transitions."
  },
  {
   "property": "C71",
   "status": "partial",
   "theorems": [
    "Jajapy.PCompose.compose_two_partial",
    "Jajapy.PCompose.compose_all_partial",
    "Jajapy.PCompose.compose_three_default",
    "Jajapy.PCompose.compose_twice"
   ],
   "note": "Violated: a composition of three models with synchronous transitions leaves them in the default argument of the constructor (compose_three_default), and the same call then returns other rates (compose_twice). Proved: with two models the result of a successful call is the composition whatever the default argument contains, and the argument is not changed; likewise for any number of models without synchronous transitions."
  },
  {
   "property": "C72",
   "status": "partial",
   "theorems": [
    "Jajapy.PCTMC.fitParameters_monotone_partial",
    "Jajapy.PCTMC.fitParameters_untimed_monotone_partial",
    "Jajapy.PCTMC.estimate_step_monotone",
    "Jajapy.PCTMC.estimate_monotone_partial",
    "Jajapy.PCTMC.estimate_untimed_step_monotone",
    "Jajapy.PCTMC.estimate_untimed_monotone_partial",
    "Jajapy.PCTMC.estimate_total",
    "Jajapy.PCTMC.estimate_untimed_total",
    "Jajapy.PCTMC.exModel_fit",
    "Jajapy.PCTMC.exLoops_fit",
    "Jajapy.PCTMC.estimate_sum_decreases",
    "Jajapy.PCTMC.estimate_quartic_fails",
    "Jajapy.PCTMC.estimate_unused",
    "Jajapy.PCTMC.estimate_cofactor_fails"
   ],
   "note": "Proved for any number of states, traces, parameters and iterations when the rates are monomials in the estimated parameters (parameters may be shared by transitions); untimed: with a positive rate without these parameters in each state. Violated by rates that are sums (estimate_sum_decreases); the call can raise when the powers of a parameter differ (estimate_quartic_fails), when a parameter is not used (estimate_unused), when another factor is a power (estimate_cofactor_fails)."
  },
  {
   "property": "C73",
   "status": "proved",
   "theorems": [
    "Jajapy.PCTMC.fitParameters_frame",
    "Jajapy.PCTMC.fitParameters_unknown",
    "Jajapy.PCTMC.estimate_frame"
   ],
   "note": "A parameter without value that was not asked for keeps having none when no bounds for random values are given."
  },
  {
   "property": "C74",
   "status": "partial",
   "theorems": [
    "Jajapy.Prep.params_outcome"
   ],
   "note": "Violated: on a new learner the call always raises AttributeError; params_outcome gives the outcome for every history of calls."
  },
  {
   "property": "C75",
   "status": "partial",
   "theorems": [
    "Jajapy.PCTMC.fitNonInstantiated_changes",
    "Jajapy.PCTMC.fitParameters_frame"
   ],
   "note": "Violated: all the parameters of the model are estimated (fitNonInstantiated_changes)."
  },
  {
   "property": "C76",
   "status": "partial",
   "theorems": [
    "Jajapy.Prism.saveMC_describes",
    "Jajapy.Prism.saveCTMC_describes",
    "Jajapy.Prism.saveMDP_describes",
    "Jajapy.Prism.savePCTMC_describes_partial",
    "Jajapy.Prism.save_no_initial",
    "Jajapy.Prism.name_with_space",
    "Jajapy.Prism.label_number",
    "Jajapy.Prism.two_initial",
    "Jajapy.Prism.savePCTMC_sync",
    "Jajapy.Prism.savePCTMC_range",
    "Jajapy.Prism.savePCTMC_s"
   ],
   "note": "The file is read by a lexer and a parser of the Prism language written in Spec/Prism. Violated for names that are not Prism names (name_with_space, label_number), for a parameter named s (savePCTMC_s) and for models without a state of initial probability 1 (IndexError: two_initial). PCTMC: synchronous transitions are not written (savePCTMC_sync), the range of the variable has one value too many (savePCTMC_range)."
  },
  {
   "property": "C77",
   "status": "partial",
   "theorems": [
    "Jajapy.Prism.mc_prism_round_trip_partial",
    "Jajapy.Prism.ctmc_prism_round_trip_partial",
    "Jajapy.Prism.mdp_prism_round_trip_partial",
    "Jajapy.Prism.mc_prism_dead",
    "Jajapy.Prism.mdp_prism_mixed",
    "Jajapy.Prism.pctmc_prism_round_trip_partial",
    "Jajapy.Prism.pctmc_prism_instance_partial",
    "Jajapy.Prism.pctmc_prism_value_lost"
   ],
   "note": "Storm's builder is specified by Built / BuiltMDP in Spec/Prism and BuiltP in Spec/PrismParam (the numbering of the states is arbitrary; a model always exists). Violated for states without transition (they get a loop: mc_prism_dead) and for MDPs (the names of the actions are lost and different actions are merged: mdp_prism_mixed). For PCTMCs the rates agree for all the values of the parameters that extend the given ones, but parameters with a value are no longer parameters (pctmc_prism_value_lost), and if all of them have values a CTMC is loaded (pctmc_prism_instance_partial). Missing: the label 'deadlock', 65535 transitions or more for PCTMCs."
  },
  {
   "property": "C78",
   "status": "partial",
   "theorems": [
    "Jajapy.PCTMC.fit_default_raises",
    "Jajapy.PCTMC.fit_untimed_raises",
    "Jajapy.PCTMC.fit_long_raises",
    "Jajapy.PCTMC.fit_kept",
    "Jajapy.PCTMC.fit_short_monotone_partial",
    "Jajapy.PCTMC.fit_short_total",
    "Jajapy.PCTMC.fit_decreases"
   ],
   "note": "What is kept holds in full (fit_kept). Violated otherwise: the default value of fixed_parameters raises (fit_default_raises), so do untimed sets (fit_untimed_raises) and traces with at least two dwell times (fit_long_raises: the two tables have different lengths); with one dwell time numpy repeats the shorter row, and the likelihood can decrease (fit_decreases). The monotone part holds for such traces when no transition leads between two states with the first label (fit_short_monotone_partial, fit_short_total)."
  },
  {
   "property": "C79",
   "status": "partial",
   "theorems": [
    "Jajapy.MC.call_file",
    "Jajapy.MC.call_prism_partial",
    "Jajapy.MC.call_returns_partial",
    "Jajapy.MC.call_storm_monotone_partial",
    "Jajapy.MC.call_prism_raises",
    "Jajapy.MDP.call_file",
    "Jajapy.MDP.call_prism_partial",
    "Jajapy.MDP.call_returns_partial",
    "Jajapy.MDP.call_prism_raises",
    "Jajapy.CTMC.call_file",
    "Jajapy.CTMC.call_prism_partial",
    "Jajapy.CTMC.call_returns_partial",
    "Jajapy.CTMC.call_prism_raises",
    "Jajapy.CTMC.fit_exit",
    "Jajapy.CTMC.call_storm_nan",
    "Jajapy.HMM.call_file",
    "Jajapy.HMM.call_returns_partial",
    "Jajapy.GoHMM.call_file",
    "Jajapy.GoHMM.call_returns_partial",
    "Jajapy.PCTMC.call_file_partial",
    "Jajapy.PCTMC.call_prism_partial",
    "Jajapy.PCTMC.call_returns_partial",
    "Jajapy.PCTMC.call_prism_raises",
    "Jajapy.PCTMC.call_storm_nan",
    "Jajapy.PCTMC.fitParametersData_spec",
    "Jajapy.call_no_iteration"
   ],
   "note": "The file of output_file holds for the five kinds of model without parameters, and for PCTMCs except for the synchronous transitions, which are never written. Violated: output_file_prism raises an exception after the learning when no state has the initial probability 1 (call_prism_raises), return_data with max_it=0 raises (call_no_iteration), the Storm model of a CTMC or PCTMC with a state that is never left contains nan (call_storm_nan). The rest holds outside these cases. The models are those built by the constructors with labels that Storm and Prism accept, as in C53, C54, C76."
  },
  {
   "property": "C80",
   "status": "partial",
   "theorems": [
    "Jajapy.Alergia.call_eq",
    "Jajapy.Alergia.call_storm_generates_partial",
    "Jajapy.Alergia.call_prism_raises",
    "Jajapy.Alergia.call_prism_error",
    "Jajapy.IOAlergia.call_returns",
    "Jajapy.IOAlergia.call_prism_raises",
    "Jajapy.IOAlergia.call_prism_error",
    "Jajapy.Active.call_file",
    "Jajapy.Active.call_prism_partial",
    "Jajapy.Active.call_returns_partial",
    "Jajapy.Active.call_data",
    "Jajapy.Active.call_data_raises",
    "Jajapy.Active.call_data_error",
    "Jajapy.Active.call_prism_raises",
    "Jajapy.Active.call_no_iteration",
    "Jajapy.Active.callList_raises",
    "Jajapy.Active.sampled_length"
   ],
   "note": "Violated: output_file_prism of Alergia and IOAlergia always raises; return_data with the conversion to Storm raises in the active learning, and so do a list of traces, max_it=0 and output_file_prism with a spread initial distribution. The rest holds outside these cases; call_storm_generates_partial supposes the labels of C62 and no label 'deadlock'."
  },
  {
   "property": "C81",
   "status": "partial",
   "theorems": [
    "Jajapy.MC.fit_observed",
    "Jajapy.MC.bw_step_observed",
    "Jajapy.MC.fit_observed_exact_partial",
    "Jajapy.MC.fit_observed_converges_partial",
    "Jajapy.MC.fit_observed_between",
    "Jajapy.MC.frequencies_best",
    "Jajapy.MC.observed_not_reached",
    "Jajapy.MDP.bw_step_observed",
    "Jajapy.MDP.fit_observed",
    "Jajapy.MDP.frequencies_best",
    "Jajapy.MDP.fit_observed_best",
    "Jajapy.CTMC.bw_step_observed",
    "Jajapy.CTMC.fit_observed",
    "Jajapy.CTMC.frequencies_best",
    "Jajapy.CTMC.fit_observed_best"
   ],
   "note": "Holds for MDPs and timed CTMCs (for the largest likelihood of a CTMC: time is spent in every state that is left, otherwise there is no largest one). Violated by MCs (observed_not_reached): the learner counts an unobserved move after the end of each trace. fit_observed gives the learned probability in closed form for every number of iterations: it converges geometrically to the frequencies, and is exact for the states that end no trace."
  },
  {
   "property": "C82",
   "status": "partial",
   "theorems": [
    "Jajapy.CTMC.next_law_partial",
    "Jajapy.CTMC.next_interval_partial",
    "Jajapy.CTMC.next_state_law",
    "Jajapy.CTMC.time_law_partial",
    "Jajapy.CTMC.time_mean",
    "Jajapy.CTMC.run_law",
    "Jajapy.CTMC.run_law_partial",
    "Jajapy.CTMC.run_law_close_partial",
    "Jajapy.CTMC.runTimed_law_partial",
    "Jajapy.CTMC.next_rate_zero",
    "Jajapy.CTMC.time_bounded",
    "Jajapy.CTMC.run_impossible"
   ],
   "note": "Exact for waiting times below 1024, and for all times when all rates are positive. Transitions of rate 0 run with the constant 1024: they win with probability exp(-1024*exit); run_law gives the exact law of untimed runs with this defect, run_law_close_partial bounds the distance to the likelihood."
  },
  {
   "property": "C83",
   "status": "proved",
   "theorems": [
    "Jajapy.MDP.run_uniform_law",
    "Jajapy.MDP.run_fm_law",
    "Jajapy.MDP.run_uniform_returns",
    "Jajapy.MDP.run_fm_returns",
    "Jajapy.MDP.run_uniform_likelihood",
    "Jajapy.MDP.run_length",
    "Jajapy.MDP.run_uniform_refused"
   ],
   "note": "Valid transition function: rows of sum 1 or 0, no duplicate in the list of actions. The memoryless scheduler cannot be used by run (TypeError, see C20)."
  },
  {
   "property": "C84",
   "status": "partial",
   "theorems": [
    "Jajapy.MC.generateSet_binomial",
    "Jajapy.MC.generateSet_frequencies",
    "Jajapy.HMM.generateSet_binomial",
    "Jajapy.HMM.generateSet_frequencies",
    "Jajapy.MC.generateSet_geo_binomial",
    "Jajapy.MC.generateSet_geo_frequencies",
    "Jajapy.HMM.generateSet_geo_binomial",
    "Jajapy.HMM.generateSet_geo_frequencies",
    "Jajapy.MDP.generateSet_uniform_binomial",
    "Jajapy.MDP.generateSet_uniform_frequencies",
    "Jajapy.MDP.generateSet_fm_binomial",
    "Jajapy.MDP.generateSet_fm_frequencies",
    "Jajapy.MDP.generateSet_one_uniform_binomial",
    "Jajapy.MDP.generateSet_one_uniform_frequencies",
    "Jajapy.MDP.generateSet_one_fm_binomial",
    "Jajapy.MDP.generateSet_one_fm_frequencies",
    "Jajapy.CTMC.generateSet_binomial",
    "Jajapy.CTMC.generateSet_frequencies",
    "Jajapy.CTMC.generateSet_likelihood_partial",
    "Jajapy.CTMC.generateSet_timed_binomial_partial",
    "Jajapy.CTMC.generateSet_timed_frequencies_partial",
    "Jajapy.exMC_two_traces"
   ],
   "note": "MC and HMM with a fixed number of steps: the calls of run read consecutive blocks of one sequence of independent numbers. MDP: both for calls that use independent random numbers and, generateSet_one_*, for calls that read one sequence of numbers, a random number of them each. CTMC and 'geo': the calls use independent random numbers. GoHMMs are in C91, timed traces of CTMCs also in C95, PCTMCs in C96. For a CTMC with rates equal to 0 the limit is not the likelihood (C82)."
  },
  {
   "property": "C85",
   "status": "partial",
   "theorems": [
    "Jajapy.MC.evaluation_limit",
    "Jajapy.MC.evaluation_ranks",
    "Jajapy.MC.possible_of_support",
    "Jajapy.MC.evaluation_prefers_impossible",
    "Jajapy.HMM.evaluation_limit",
    "Jajapy.HMM.evaluation_ranks",
    "Jajapy.MDP.evaluation_limit_uniform",
    "Jajapy.MDP.evaluation_limit_fm",
    "Jajapy.exMC_ranks",
    "Jajapy.exMC_prefers"
   ],
   "note": "The limit holds, with the traces impossible for the evaluated model counted as 0. Violated: because of these, on the data of any chain that is not deterministic the chain with one state and an arbitrary label, even one that never occurs, gets a strictly larger logLikelihood than the generating chain (evaluation_prefers_impossible). Proved: the generating model wins against every valid model for which its traces are possible (evaluation_ranks); exMC_ranks and exMC_prefers are concrete cases."
  },
  {
   "property": "C86",
   "status": "partial",
   "theorems": [
    "Jajapy.MC.learning_limit",
    "Jajapy.MDP.learning_limit_uniform",
    "Jajapy.MDP.learning_limit_fm",
    "Jajapy.MDP.possible_of_support",
    "Jajapy.exMC_endRate",
    "Jajapy.exMC_learning_bias",
    "Jajapy.exMDP_learning"
   ],
   "note": "Holds for MDPs after one iteration already. For Markov chains it holds when the number of iterations grows with the set; with a fixed number k of iterations the limit is G + r^k (M - G), with G the probability in the generating model, M in the initial model and r < 1 the proportion of the visits of the state that are at the end of a trace (the transition out of the last state of a trace is counted as if it followed the current model). Violated with a fixed budget: exMC_learning_bias. CTMCs with timed traces are in C92."
  },
  {
   "property": "C87",
   "status": "proved",
   "theorems": [
    "Jajapy.MC.likelihood_renamed",
    "Jajapy.MC.fit_renamed",
    "Jajapy.HMM.likelihood_renamed",
    "Jajapy.HMM.fit_renamed",
    "Jajapy.MDP.likelihood_renamed",
    "Jajapy.MDP.fit_renamed",
    "Jajapy.CTMC.likelihood_renamed",
    "Jajapy.CTMC.logLikelihoodTimed_renamed",
    "Jajapy.CTMC.fit_renamed",
    "Jajapy.CTMC.fit_renamed_untimed",
    "Jajapy.GoHMM.likelihood_renamed",
    "Jajapy.GoHMM.fit_renamed",
    "Jajapy.MC.exists_renamed",
    "Jajapy.HMM.exists_renamed",
    "Jajapy.MDP.exists_renamed",
    "Jajapy.CTMC.exists_renamed",
    "Jajapy.GoHMM.exists_renamed",
    "Jajapy.MC.fit_symmetric",
    "Jajapy.HMM.fit_symmetric",
    "Jajapy.twinHMM_fit"
   ],
   "note": "Exact arithmetic. The alphabet of a HMM and the list of actions of an MDP have no duplicates. The renamed models exist (exists_renamed). twinHMM_fit: two states that are the same are never separated by learning."
  },
  {
   "property": "C88",
   "status": "partial",
   "theorems": [
    "Jajapy.CTMC.density_renamed",
    "Jajapy.CTMC.fit_units",
    "Jajapy.GoHMM.lik_renamed",
    "Jajapy.GoHMM.fit_units_partial",
    "Jajapy.GoHMM.step_sigma_units",
    "Jajapy.GoHMM.units_matter",
    "Jajapy.GoHMM.units_matter_zero",
    "Jajapy.CTMC.units_matter_untimed"
   ],
   "note": "CTMC with timed traces: proved for every unit. GoHMM: for models whose probabilities and deviations are all positive and sets that vary in each component (fit_units_partial). False for a state that is not visited: the code takes the square root of its standard deviation, so that it is multiplied by the square root of the factor (step_sigma_units, units_matter); false for a standard deviation 0 (units_matter_zero) and for a CTMC learned from untimed traces (units_matter_untimed)."
  },
  {
   "property": "C89",
   "status": "proved",
   "theorems": [
    "Jajapy.IOAlergia.runSeq_reads",
    "Jajapy.IOAlergia.runSeq_tree",
    "Jajapy.IOAlergia.runSeq_kept",
    "Jajapy.IOAlergia.runSeq_odd",
    "Jajapy.IOAlergia.runSeq_training"
   ],
   "note": "The docstring speaks of a trace, but a trace with its first observation is never accepted (runSeq_training), and a last action without observation may raise IndexError (runSeq_odd)."
  },
  {
   "property": "C90",
   "status": "proved",
   "theorems": [
    "Jajapy.GoHMM.run_law",
    "Jajapy.GoHMM.run_density",
    "Jajapy.GoHMM.run_almostSurely",
    "Jajapy.GoHMM.lik_integral"
   ],
   "note": "Contract of numpy.random.normal: mu + sigma z with independent standard normal z. With a standard deviation 0 the traces have no density; run_law still gives their law."
  },
  {
   "property": "C91",
   "status": "proved",
   "theorems": [
    "Jajapy.GoHMM.generateSet_binomial",
    "Jajapy.GoHMM.generateSet_frequencies",
    "Jajapy.GoHMM.generateSet_distinct",
    "Jajapy.GoHMM.evaluation_limit",
    "Jajapy.GoHMM.evaluation_ranks"
   ],
   "note": "The calls of run use independent random numbers. The exceptional null set depends on the competing model. Distinctness needs observations with at least one entry. At least two steps (the one-observation case of generateSet is C23)."
  },
  {
   "property": "C92",
   "status": "partial",
   "theorems": [
    "Jajapy.CTMC.learning_limit",
    "Jajapy.CTMC.shownRate_pos",
    "Jajapy.CTMC.shownRate_zero",
    "Jajapy.CTMC.twoRates_learned"
   ],
   "note": "Holds for all transitions of positive rate. Violated for the first transition of rate 0 of a state: the simulator gives it the constant time 1024, and its learned rate tends to q exp(-1024 q)/(1 - exp(-1024 q)) > 0, with q the exit rate (shownRate_zero; concrete case twoRates_learned). The calls of run use independent random numbers."
  },
  {
   "property": "C93",
   "status": "partial",
   "theorems": [
    "Jajapy.MC.tau_states",
    "Jajapy.MC.a_states",
    "Jajapy.MC.getLabel_states",
    "Jajapy.MC.b_states",
    "Jajapy.MC.pi_countsFromEnd",
    "Jajapy.MC.next_countsFromEnd",
    "Jajapy.MC.runFrom_negative",
    "Jajapy.MC.next_refused",
    "Jajapy.CTMC.e_states",
    "Jajapy.CTMC.l_states",
    "Jajapy.CTMC.tau_states",
    "Jajapy.CTMC.expectedTime_states",
    "Jajapy.CTMC.getLabel_states",
    "Jajapy.CTMC.lkl_states_partial",
    "Jajapy.CTMC.lkl_negative",
    "Jajapy.CTMC.next_countsFromEnd",
    "Jajapy.CTMC.next_accepted",
    "Jajapy.MDP.tau_states",
    "Jajapy.MDP.a_states",
    "Jajapy.MDP.getLabel_states",
    "Jajapy.MDP.getActions_negative",
    "Jajapy.MDP.next_countsFromEnd",
    "Jajapy.MDP.next_refused",
    "Jajapy.HMM.a_states",
    "Jajapy.HMM.tau_states",
    "Jajapy.HMM.b_zero",
    "Jajapy.HMM.getAlphabet_states",
    "Jajapy.HMM.next_countsFromEnd",
    "Jajapy.HMM.runFrom_negative",
    "Jajapy.HMM.next_refused",
    "Jajapy.GoHMM.a_states",
    "Jajapy.GoHMM.tau_states",
    "Jajapy.GoHMM.b_negative",
    "Jajapy.GoHMM.mu_countsFromEnd",
    "Jajapy.PCTMC.getLabel_states",
    "Jajapy.PCTMC.e_states",
    "Jajapy.PCTMC.tau_string",
    "Jajapy.PCTMC.tau_anyDestination",
    "Jajapy.PCTMC.transitionExpression_negative",
    "Jajapy.PCTMC.methods_refuse",
    "Jajapy.PCTMC.lkl_refuses",
    "Jajapy.PCTMC.float_refused"
   ],
   "note": "Holds for the methods that check their argument (*_states). Violated by the others, which count negative numbers from the end (*_countsFromEnd, *_negative), by lkl with a negative time and by PCTMC.tau and PCTMC.expected_time on a string or out of a state without transitions. Violated for the states returned by next: MC, MDP and HMM return a numpy integer, which the other methods refuse with a TypeError, whatever the model and the draw (next_refused); CTMC returns an int (next_accepted). HMM.b answers 0 for an integer that is not a state, as its documentation says (b_zero)."
  },
  {
   "property": "C94",
   "status": "partial",
   "theorems": [
    "Jajapy.PCTMC.next_spec",
    "Jajapy.PCTMC.next_law",
    "Jajapy.PCTMC.next_state_law",
    "Jajapy.PCTMC.time_law",
    "Jajapy.PCTMC.next_absorbing",
    "Jajapy.PCTMC.next_refused",
    "Jajapy.PCTMC.run_law_partial",
    "Jajapy.PCTMC.runTimed_law_partial"
   ],
   "note": "Proved for every state that can be left (next_law, next_state_law, time_law) and for the runs of the models all of whose states can be left. Violated by absorbing states: the simulator jumps to the state 0 after an infinite time (next_absorbing), whatever the model, instead of staying. Unlike CTMC.next (C82) there is no restriction on the times: a transition of rate 0 never wins."
  },
  {
   "property": "C95",
   "status": "partial",
   "theorems": [
    "Jajapy.CTMC.generateSet_timed_binomial_partial",
    "Jajapy.CTMC.generateSet_timed_frequencies_partial",
    "Jajapy.CTMC.evaluation_limit",
    "Jajapy.CTMC.evaluation_value_partial",
    "Jajapy.CTMC.evaluation_ranks_partial",
    "Jajapy.CTMC.evaluation_floor"
   ],
   "note": "Proved for the CTMCs all of whose rates are positive, and for sets of times below 1024 (the counts) in any CTMC. Missing: the CTMCs with rates equal to 0, for which the simulator does not follow the model (C82): there the limit exists and is the expectation over what the simulator returns (evaluation_limit). A model that cannot produce the traces is reported as -9999 whatever the set (evaluation_floor), as in C85."
  },
  {
   "property": "C96",
   "status": "partial",
   "theorems": [
    "Jajapy.PCTMC.generateSet_timed_binomial_partial",
    "Jajapy.PCTMC.generateSet_timed_frequencies_partial",
    "Jajapy.PCTMC.evaluation_limit_partial",
    "Jajapy.PCTMC.evaluation_ranks_partial",
    "Jajapy.PCTMC.evaluation_refused"
   ],
   "note": "Proved for the generators all of whose states can be left, with rates equal to 0 allowed (unlike C95, see C94), and for the candidates that can produce all the traces of the generator. Violated for the other candidates: from some size on logLikelihood raises ValueError (evaluation_refused). Missing: generators with an absorbing state, whose traces have infinite times (C94)."
  },
  {
   "property": "C97",
   "status": "proved",
   "theorems": [
    "Jajapy.PCTMC.fitParameters_observed",
    "Jajapy.PCTMC.estimate_observed",
    "Jajapy.PCTMC.expectedUses_unique",
    "Jajapy.PCTMC.estimate_proportional",
    "Jajapy.PCTMC.estimate_best",
    "Jajapy.PCTMC.exModel_learn",
    "Jajapy.PCTMC.exModel_best"
   ],
   "note": "fitParameters_observed is about the whole call, the other theorems about the estimation itself. exModel_learn and exModel_best are a concrete case. That the call returns is the subject of C72-C74 (parameters of the third category can make it fail)."
  },
  {
   "property": "C98",
   "status": "proved",
   "theorems": [
    "Jajapy.PCTMC.fitParameters_limit",
    "Jajapy.PCTMC.parameters_limit",
    "Jajapy.PCTMC.exModel_limit"
   ],
   "note": "fitParameters_limit is about the calls that return; parameters_limit shows that the estimation returns when no parameter is in the third category, and needs only the states before the transitions with the parameter to be reachable. exModel_limit is a concrete case."
  },
  {
   "property": "C99",
   "status": "proved",
   "theorems": [
    "Jajapy.MC.bw_step_strict",
    "Jajapy.MC.bw_best_fixed",
    "Jajapy.MC.logLik_deriv",
    "Jajapy.MC.bw_fixed_iff_stationary",
    "Jajapy.MC.fit_limit",
    "Jajapy.MC.fit_limit_exists",
    "Jajapy.MC.fit_tolerance",
    "Jajapy.MC.fit_converges",
    "Jajapy.MDP.bw_step_strict",
    "Jajapy.MDP.bw_best_fixed",
    "Jajapy.MDP.logLik_deriv",
    "Jajapy.MDP.bw_fixed_iff_stationary",
    "Jajapy.MDP.fit_limit",
    "Jajapy.MDP.fit_limit_exists",
    "Jajapy.MDP.fit_tolerance",
    "Jajapy.MDP.fit_converges",
    "Jajapy.HMM.bw_step_strict",
    "Jajapy.HMM.bw_best_fixed",
    "Jajapy.HMM.logLik_deriv",
    "Jajapy.HMM.bw_fixed_iff_stationary",
    "Jajapy.HMM.fit_limit",
    "Jajapy.HMM.fit_limit_exists",
    "Jajapy.HMM.fit_tolerance",
    "Jajapy.HMM.fit_converges"
   ],
   "note": "Markov chains, MDPs and HMMs. fit_converges puts the parts together for every starting point."
  },
  {
   "property": "C100",
   "status": "proved",
   "theorems": [
    "Jajapy.CTMC.bw_step_strict",
    "Jajapy.CTMC.bw_best_fixed",
    "Jajapy.CTMC.logLik_deriv",
    "Jajapy.CTMC.bw_fixed_iff_stationary",
    "Jajapy.CTMC.fit_terminates",
    "Jajapy.CTMC.fit_rates_bounded",
    "Jajapy.CTMC.fit_limit",
    "Jajapy.CTMC.fit_limit_exists",
    "Jajapy.CTMC.fit_tolerance",
    "Jajapy.CTMC.fit_converges"
   ],
   "note": "fit_terminates holds with fixed rates too."
  },
  {
   "property": "C101",
   "status": "proved",
   "theorems": [
    "Jajapy.Print.mc_print_head",
    "Jajapy.Print.mc_print_states",
    "Jajapy.Print.mc_print_section",
    "Jajapy.Print.mc_print_determines",
    "Jajapy.Print.mc_print_not_injective",
    "Jajapy.Print.ctmc_print_head",
    "Jajapy.Print.ctmc_print_section",
    "Jajapy.Print.ctmc_print_determines",
    "Jajapy.Print.mdp_print_head",
    "Jajapy.Print.mdp_print_section",
    "Jajapy.Print.mdp_print_determines",
    "Jajapy.Print.hmm_print_head",
    "Jajapy.Print.hmm_print_section",
    "Jajapy.Print.hmm_print_determines",
    "Jajapy.Print.gohmm_print_head",
    "Jajapy.Print.gohmm_print_section",
    "Jajapy.Print.gohmm_print_determines",
    "Jajapy.Print.pctmc_print_head",
    "Jajapy.Print.pctmc_print_section",
    "Jajapy.Print.pctmc_print_determines"
   ],
   "note": "The rates of a CTMC are assumed not to be negative in ctmc_print_determines. mc_print_not_injective: two different chains with the same text. PCTMCs: the texts of sympy are described by the contract SymIO."
  },
  {
   "property": "C102",
   "status": "proved",
   "theorems": [
    "Jajapy.hoeffdingBound_rejects",
    "Jajapy.hoeffdingBound_accepts",
    "Jajapy.MC.compatible_rejects",
    "Jajapy.MC.compatible_accepts",
    "Jajapy.MC.sameFutures_of_label",
    "Jajapy.MC.prefix_law",
    "Jajapy.HMM.compatible_rejects",
    "Jajapy.HMM.compatible_accepts",
    "Jajapy.HMM.prefix_law"
   ],
   "note": "About the prefix tree, before states are merged. sameFutures_of_label: the futures are the same when the words end with a label of one state only."
  },
  {
   "property": "C103",
   "status": "partial",
   "theorems": [
    "Jajapy.MC.compatible_separates_partial",
    "Jajapy.MC.compatible_separates_next",
    "Jajapy.MC.compatible_separates_branching",
    "Jajapy.HMM.compatible_separates_partial",
    "Jajapy.HMM.compatible_separates_next",
    "Jajapy.HMM.compatible_separates_branching",
    "Jajapy.createPTA_notices",
    "Jajapy.MC.compatible_never_separates",
    "Jajapy.twoWays_differ"
   ],
   "note": "Violated in general: the test only follows the labels of the alphabet of the tree, and a label first met in the rest of a new branch is not put there (createPTA_notices says exactly which labels are). MC.compatible_never_separates gives a chain and two words whose difference is never found, for any number of traces and any alpha below 2. Proved: the difference is found when it concerns the next label (separates_next), when the label that differs is neither certain nor impossible after one of the words (separates_branching), and in general when the labels in between are noticed."
  },
  {
   "property": "C104",
   "status": "proved",
   "theorems": [
    "Jajapy.MC.fit_repeats",
    "Jajapy.HMM.fit_repeats",
    "Jajapy.MDP.fit_repeats",
    "Jajapy.GoHMM.fit_repeats",
    "Jajapy.CTMC.fit_repeats",
    "Jajapy.CTMC.fit_repeats_untimed",
    "Jajapy.PCTMC.fit_repeats",
    "Jajapy.PCTMC.fitParameters_repeats",
    "Jajapy.Iface.logLikelihood_repeats",
    "Jajapy.CTMC.logLikelihoodTimed_repeats",
    "Jajapy.MDP.logLikelihood_repeats",
    "Jajapy.MC.same_tolerance"
   ],
   "note": "Equalities of results, exceptions included. MC.same_tolerance: with the same tolerance, seven times the same set takes 3 iterations instead of 2."
  },
  {
   "property": "C105",
   "status": "proved",
   "theorems": [
    "Jajapy.BW.fit_resume",
    "Jajapy.BW.fit_resume_last",
    "Jajapy.BW.fit_shorter",
    "Jajapy.BW.fit_stopped",
    "Jajapy.BW.fit_resume_error",
    "Jajapy.MC.fit_add",
    "Jajapy.HMM.fit_add",
    "Jajapy.MDP.fit_add",
    "Jajapy.CTMC.fit_add",
    "Jajapy.MC.resume_file",
    "Jajapy.MDP.resume_file",
    "Jajapy.CTMC.resume_file",
    "Jajapy.HMM.resume_file",
    "Jajapy.GoHMM.resume_file",
    "Jajapy.MC.resume_one_more"
   ],
   "note": "BW.fit_* are about any kind of model (any iteration step, failures included). MC.resume_one_more: a learning that has converged makes one iteration more when it is started again."
  },
  {
   "property": "C106",
   "status": "partial",
   "theorems": [
    "Jajapy.MC.fit_support",
    "Jajapy.HMM.fit_support",
    "Jajapy.MDP.fit_support",
    "Jajapy.CTMC.fit_support",
    "Jajapy.MC.fit_possible",
    "Jajapy.HMM.fit_possible",
    "Jajapy.MDP.fit_possible",
    "Jajapy.CTMC.fit_possible",
    "Jajapy.MC.fit_ignores",
    "Jajapy.HMM.fit_ignores",
    "Jajapy.MDP.fit_ignores",
    "Jajapy.CTMC.fit_ignores",
    "Jajapy.MC.bw_step_processes_differ"
   ],
   "note": "fit_support holds for every number of processes. fit_ignores: more than one process; with one process an impossible trace raises a TypeError (MC.bw_step_processes_differ), so the claim is false there."
  },
  {
   "property": "C107",
   "status": "partial",
   "theorems": [
    "Jajapy.MC.launch_machine_partial",
    "Jajapy.HMM.launch_machine_partial",
    "Jajapy.MDP.launch_machine_partial",
    "Jajapy.CTMC.launch_machine_partial",
    "Jajapy.MC.fit_processes",
    "Jajapy.HMM.fit_processes",
    "Jajapy.MDP.fit_processes",
    "Jajapy.CTMC.fit_processes",
    "Jajapy.BW.launch_verbose",
    "Jajapy.BW.launch_call",
    "Jajapy.BW.Machine.processes_le",
    "Jajapy.BW.Machine.processes_asked",
    "Jajapy.BW.Machine.processes_default",
    "Jajapy.BW.Machine.processes_other_systems",
    "Jajapy.BW.Machine.processes_one",
    "Jajapy.BW.launch_silent",
    "Jajapy.BW.launch_allowed",
    "Jajapy.BW.launch_warning",
    "Jajapy.BW.launch_bar",
    "Jajapy.BW.launch_recap",
    "Jajapy.MC.launch_machine_differs",
    "Jajapy.BW.launch_level_one_header"
   ],
   "note": "Two machines give the same result if the first model can generate all the traces or both machines use at least two processes. Otherwise the claim is false: MC.launch_machine_differs. At level 1 a line that is not a warning is shown (BW.launch_level_one_header)."
  },
  {
   "property": "C108",
   "status": "partial",
   "theorems": [
    "Jajapy.MC.likelihood_asHMM",
    "Jajapy.MC.oneproc_asHMM",
    "Jajapy.MC.run_asHMM",
    "Jajapy.MC.step_asHMM",
    "Jajapy.MC.fit_asHMM",
    "Jajapy.MC.likelihood_asMDP",
    "Jajapy.MC.logLikelihood_asMDP",
    "Jajapy.MC.counts_asMDP",
    "Jajapy.MC.step_asMDP",
    "Jajapy.MC.fixed_asMDP",
    "Jajapy.CTMC.likelihood_embedded",
    "Jajapy.CTMC.fit_embedded",
    "Jajapy.MC.asMDP_is",
    "Jajapy.MC.asHMM_is",
    "Jajapy.MC.kinds_ex",
    "Jajapy.MC.fit_asMDP_differs"
   ],
   "note": "Hidden Markov models (one initial state) and CTMCs on untimed traces: the whole claim. MDP with one action: the likelihoods, when an iteration succeeds, what it reports and the fixed points agree; the learned probabilities do not (MC.fit_asMDP_differs), and MC.step_asMDP says by how much: the chain mixes the row of the MDP with the old row, because it counts a move after the end of each trace."
  },
  {
   "property": "C109",
   "status": "proved",
   "theorems": [
    "Jajapy.MC.likelihood_folded",
    "Jajapy.MC.oneproc_folded",
    "Jajapy.MC.fit_part",
    "Jajapy.HMM.likelihood_folded",
    "Jajapy.HMM.oneproc_folded",
    "Jajapy.HMM.fit_part",
    "Jajapy.MDP.likelihood_folded",
    "Jajapy.MDP.oneproc_folded",
    "Jajapy.MDP.fit_part",
    "Jajapy.CTMC.likelihood_folded",
    "Jajapy.CTMC.oneproc_folded",
    "Jajapy.CTMC.waiting_folded",
    "Jajapy.CTMC.timedSum_folded",
    "Jajapy.CTMC.timedLikelihood_folded",
    "Jajapy.CTMC.fit_part",
    "Jajapy.CTMC.fit_part_untimed",
    "Jajapy.GoHMM.likelihood_folded",
    "Jajapy.GoHMM.fit_part",
    "Jajapy.MC.part_folds",
    "Jajapy.MC.split_folds",
    "Jajapy.HMM.part_folds",
    "Jajapy.HMM.split_folds",
    "Jajapy.MDP.part_folds",
    "Jajapy.MDP.split_folds",
    "Jajapy.CTMC.part_folds",
    "Jajapy.CTMC.split_folds",
    "Jajapy.GoHMM.part_folds",
    "Jajapy.GoHMM.split_folds",
    "Jajapy.foldMC_folds",
    "Jajapy.partMC_folds",
    "Jajapy.learning_unfolds"
   ],
   "note": "Folds (Spec/Folding) says that states of one model behave like states of the other. For injective maps (a part of the model that is never left) learning agrees too, and the rows of the other states are kept (except for standard deviations and fixed rates, see C34 and C40). learning_unfolds: two states that behave the same may not do so after one iteration."
  },
  {
   "property": "C110",
   "status": "proved",
   "theorems": [
    "Jajapy.MC.likelihood_near",
    "Jajapy.MC.logLikelihood_near",
    "Jajapy.MC.oneproc_near",
    "Jajapy.MC.step_near",
    "Jajapy.MC.rounds_near",
    "Jajapy.MC.rounds_continuous",
    "Jajapy.MC.total_near",
    "Jajapy.HMM.likelihood_near",
    "Jajapy.HMM.logLikelihood_near",
    "Jajapy.HMM.oneproc_near",
    "Jajapy.HMM.step_near",
    "Jajapy.HMM.rounds_near",
    "Jajapy.HMM.total_near",
    "Jajapy.MDP.likelihood_near",
    "Jajapy.MDP.logLikelihood_near",
    "Jajapy.MDP.step_near",
    "Jajapy.MDP.rounds_near",
    "Jajapy.CTMC.density_near",
    "Jajapy.CTMC.timedLikelihood_near",
    "Jajapy.CTMC.step_near",
    "Jajapy.nearMC_near",
    "Jajapy.nearHMM_near",
    "Jajapy.nearMDP_near",
    "Jajapy.nearCTMC_near"
   ],
   "note": "Near c (Spec/Near): each number is at most c times the other. For CTMCs one iteration (the bound E of the exit rates is a hypothesis for both models). Numbers are reals: this bounds the effect of rounding the parameters, not of rounding inside the algorithms."
  },
  {
   "property": "C111",
   "status": "proved",
   "theorems": [
    "Jajapy.MC.agree_of_short",
    "Jajapy.MC.agree_oneproc_of_short",
    "Jajapy.HMM.agree_of_short",
    "Jajapy.GoHMM.agree_of_short",
    "Jajapy.MDP.agree_of_short",
    "Jajapy.CTMC.agree_of_short",
    "Jajapy.CTMC.agree_of_short_untimed",
    "Jajapy.MC.short_exact",
    "Jajapy.MC.logLikelihood_blind",
    "Jajapy.fair_unfair",
    "Jajapy.fold_short",
    "Jajapy.split_short"
   ],
   "note": "The hypothesis and the conclusion are about the path sums (lik, density) of Spec; the bound is exact for Markov chains (short_exact, every n). Numbers are reals."
  },
  {
   "property": "C112",
   "status": "proved",
   "theorems": [
    "Jajapy.MC.run_continues",
    "Jajapy.HMM.run_continues",
    "Jajapy.GoHMM.run_continues",
    "Jajapy.CTMC.run_continues",
    "Jajapy.CTMC.runTimed_continues",
    "Jajapy.PCTMC.run_continues",
    "Jajapy.MDP.run_continues",
    "Jajapy.MC.lik_extend",
    "Jajapy.MC.lik_prefix",
    "Jajapy.MC.logLikelihood_cut",
    "Jajapy.HMM.lik_extend",
    "Jajapy.HMM.lik_prefix",
    "Jajapy.HMM.logLikelihood_cut",
    "Jajapy.GoHMM.lik_extend",
    "Jajapy.MDP.lik_extend",
    "Jajapy.MDP.lik_extend_le",
    "Jajapy.MDP.lik_prefix",
    "Jajapy.MDP.logLikelihood_cut",
    "Jajapy.CTMC.density_extend",
    "Jajapy.CTMC.lik_extend",
    "Jajapy.logLikelihood_cut_impossible"
   ],
   "note": "The densities of timed and Gaussian traces can grow with the length of the trace, so lik_prefix and logLikelihood_cut are about the discrete models. logLikelihood_cut is about the multi-process version (C27 relates it to the other one). Numbers are reals."
  },
  {
   "property": "C113",
   "status": "partial",
   "theorems": [
    "Jajapy.SetHeap.sets_are_values_partial",
    "Jajapy.SetHeap.others_unchanged_partial",
    "Jajapy.SetHeap.shared_list",
    "Jajapy.SetHeap.shared_list_raises",
    "Jajapy.SetHeap.fit_changes_another_set",
    "Jajapy.SetHeap.fit_changes_another_set_forever"
   ],
   "note": "Proved for the histories in which no list is given to two constructors and fit gets sets whose traces have the initial label (or vectors, or learns an HMM). Without this the claim is false of the code: two sets made from one list share it, and after s.addSet(t) the traces are shared, so that fit on s inserts 'init' into some of the traces of t."
  },
  {
   "property": "C114",
   "status": "partial",
   "theorems": [
    "Jajapy.PHeap.models_are_values_partial",
    "Jajapy.PHeap.others_unchanged_partial",
    "Jajapy.PHeap.constructor_deletes_nan",
    "Jajapy.PHeap.dictionary_is_kept",
    "Jajapy.PHeap.composition_of_one"
   ],
   "note": "Proved for the histories in which the caller does not write in a dictionary and composes at least two models at a time. Without this the claim is false of the code: the model keeps the dictionary of the caller, and the composition of one model is that very object. The constructor also deletes the entries nan from the dictionary of the caller. The default argument synchronous_transitions (C71) is part of the state of the specification. Learning is C59 and C73."
  },
  {
   "property": "C115",
   "status": "proved",
   "theorems": [
    "Jajapy.MDP.fm_observations",
    "Jajapy.MDP.fm_chain",
    "Jajapy.MDP.fm_same_law",
    "Jajapy.MDP.uniform_observations",
    "Jajapy.MDP.uniform_average"
   ],
   "note": "fm_observations needs the tables of the scheduler to be distributions and the actions of the model to be distinct; fm_chain and fm_same_law also that in each pair of states the scheduler proposes a possible action with positive probability, without which run may not return. Both sides are laws over the uniform draws of run (exact arithmetic)."
  },
  {
   "property": "C116",
   "status": "partial",
   "theorems": [
    "Jajapy.MDP.ioalergia_uniform_rejects",
    "Jajapy.MDP.ioalergia_fm_rejects",
    "Jajapy.MDP.sameResponses_of_label",
    "Jajapy.MDP.ioalergia_uniform_accepts_partial",
    "Jajapy.MDP.ioalergia_fm_accepts_partial",
    "Jajapy.MDP.ioalergia_uniform_blind",
    "Jajapy.MDP.ioalergia_never_separates",
    "Jajapy.IOAlergia.disjoint_accepted"
   ],
   "note": "The bound for wrong rejections is proved; the sum is over the numbers of steps left, of the numbers of sequences of that length. The bound for wrong acceptances is false: the code compares only the observations that were made after both histories, so that two states after which different observations are certain are never separated (ioalergia_uniform_blind, ioalergia_never_separates, disjoint_accepted). It is proved when the observation was made after both (ioalergia_uniform_accepts_partial, ioalergia_fm_accepts_partial). The theorems are about the test on the prefix tree, before any merge; the set is generated on one sequence of uniform random numbers; exact arithmetic."
  },
  {
   "property": "C117",
   "status": "partial",
   "theorems": [
    "Jajapy.MDP.ioalergia_uniform_separates_partial",
    "Jajapy.MDP.ioalergia_fm_separates_partial",
    "Jajapy.MDP.ioalergia_uniform_separates_support",
    "Jajapy.MDP.ioalergia_never_separates",
    "Jajapy.MDP.ioalergia_uniform_blind"
   ],
   "note": "Violated when the observation is impossible after one of the histories: it is then never compared (ioalergia_never_separates, ioalergia_uniform_blind). Proved when it is possible after both (separates_partial), hence for every difference when the same continuations are possible after both histories (separates_support). The theorems are about the test on the prefix tree, before any merge; the set is generated on one sequence of uniform random numbers; exact arithmetic."
  },
  {
   "property": "C118",
   "status": "proved",
   "theorems": [
    "Jajapy.MC.frequency_precision",
    "Jajapy.HMM.frequency_precision",
    "Jajapy.MDP.frequency_precision_uniform",
    "Jajapy.MDP.frequency_precision_fm",
    "Jajapy.MC.evaluation_precision",
    "Jajapy.HMM.evaluation_precision",
    "Jajapy.MDP.evaluation_precision_uniform",
    "Jajapy.MDP.evaluation_precision_fm",
    "Jajapy.MC.evaluation_winner",
    "Jajapy.HMM.evaluation_winner",
    "Jajapy.MDP.evaluation_winner_uniform",
    "Jajapy.MDP.evaluation_winner_fm",
    "Jajapy.MC.evaluation_exponential",
    "Jajapy.HMM.evaluation_exponential",
    "Jajapy.MDP.evaluation_exponential_uniform",
    "Jajapy.MC.evaluation_sample_size",
    "Jajapy.MC.lik_ge",
    "Jajapy.HMM.lik_ge"
   ],
   "note": "For MDPs the theorem on the winner compares two MDPs whose expected log-likelihoods are in that order. That the generating model wins needs that its traces are possible for the other one (C85). The set is generated on one sequence of uniform random numbers; exact arithmetic."
  },
  {
   "property": "C119",
   "status": "proved",
   "theorems": [
    "Jajapy.MC.learning_precision",
    "Jajapy.MDP.learning_precision_uniform",
    "Jajapy.MDP.learning_precision_fm",
    "Jajapy.exMC_learning_sample",
    "Jajapy.exMDP_learning_sample"
   ],
   "note": "The term (r + u)^k for Markov chains is not an artefact: the limit of the learned probability for a fixed number of iterations is not the probability of the generating chain (C86). The set is generated on one sequence of uniform random numbers; exact arithmetic."
  },
  {
   "property": "C120",
   "status": "proved",
   "theorems": [
    "Jajapy.MC.holdout",
    "Jajapy.MC.holdout_fit",
    "Jajapy.MC.selection_fit",
    "Jajapy.HMM.holdout",
    "Jajapy.HMM.holdout_fit",
    "Jajapy.HMM.selection_fit",
    "Jajapy.MDP.holdout_fit_uniform",
    "Jajapy.MDP.holdout_fit_fm",
    "Jajapy.MDP.selection_fit_uniform",
    "Jajapy.MDP.selection_fit_fm",
    "Jajapy.exMC_holdout_sample"
   ],
   "note": "Both sets are generated on one sequence of uniform random numbers, the second after the first. The learner may be any function of the first set that gives a model with nonnegative rows of sum 1 (for Markov chains: with likelihoods between 0 and 1); its own random numbers are fixed before. Exact arithmetic."
  },
  {
   "property": "C121",
   "status": "proved",
   "theorems": [
    "Jajapy.MC.alergia_learns",
    "Jajapy.MC.holdout_alergia",
    "Jajapy.MC.selection_alergia",
    "Jajapy.coinFromInit_alpha"
   ],
   "note": "Both sets are generated on one sequence of uniform random numbers, the second after the first. Exact arithmetic."
  },
  {
   "property": "C122",
   "status": "partial",
   "theorems": [
    "Jajapy.Storm.convert_back_partial",
    "Jajapy.Storm.toStormpy_spec",
    "Jajapy.Storm.pctmc_refused",
    "Jajapy.Storm.hmm_refused",
    "Jajapy.Storm.initial_model_partial",
    "Jajapy.Storm.initial_model_same",
    "Jajapy.Storm.initial_dtmc",
    "Jajapy.Storm.initial_parametric_partial",
    "Jajapy.Storm.initial_refused",
    "Jajapy.Storm.initial_given",
    "Jajapy.Storm.continue_mc",
    "Jajapy.Storm.continue_ctmc",
    "Jajapy.Storm.pctmc_no_method",
    "Jajapy.Storm.initial_mdp_renamed",
    "Jajapy.Storm.exModel_regular"
   ],
   "note": "Violated: a PCTMC has no method toStormpy (pctmc_no_method); an MDP given to fit as a Storm model loses the names of its actions, so that it cannot read its own traces (initial_mdp_renamed). The rest holds for models without the label 'deadlock' and, for CTMCs, without states that are never left."
  },
  {
   "property": "C123",
   "status": "partial",
   "theorems": [
    "Jajapy.Active.fitC_fst",
    "Jajapy.Active.fitRounds_fst",
    "Jajapy.Active.fitC_count",
    "Jajapy.Active.rounds_bounds_partial",
    "Jajapy.Active.max_it_exceeded",
    "Jajapy.Active.learning_ends",
    "Jajapy.Active.learning_returns",
    "Jajapy.Active.half_rounds"
   ],
   "note": "Violated: max_it bounds only the first training; if it is at most the number of rounds, it is always exceeded (max_it_exceeded). The rest holds; that a model is returned is proved for several processes (with one process a trace that the hypothesis cannot generate raises an exception)."
  }
 ]
}