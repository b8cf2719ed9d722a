#!/usr/bin/env python3
"""Writes properties.jsonl. Plain data; run after editing."""
import json, os
P = []
def p(id, title, statement, quantifier, why, anchors):
    P.append(dict(id=id, title=title, statement=statement, quantifier=quantifier, why_tests_cant=why, anchors=anchors))
T = "jajapy/base/tools.py"; M = "jajapy/base/Model.py"; BM = "jajapy/base/Base_MC.py"; BH = "jajapy/base/Base_HMM.py"
S = "jajapy/base/Set.py"; BW = "jajapy/base/BW.py"; PM = "jajapy/base/Parametric_Model.py"
MC = "jajapy/mc/MC.py"; AL = "jajapy/mc/Alergia.py"; HM = "jajapy/hmm/HMM.py"; GO = "jajapy/gohmm/GoHMM.py"
MD = "jajapy/mdp/MDP.py"; SC = "jajapy/mdp/Scheduler.py"; IO = "jajapy/mdp/IOAlergia.py"; AC = "jajapy/mdp/Active_BW_MDP.py"
CT = "jajapy/ctmc/CTMC.py"; PC = "jajapy/pctmc/PCTMC.py"; ST = "jajapy/with_stormpy/model_converter.py"

p("C01","Random choice follows the given distribution",
  "resolveRandom(m), for a list m of non-negative weights and a uniform draw r, returns an index i with m[i] > 0 such that r lies in the i-th cumulative interval; the set of draws for which i is returned has length exactly m[i]; it raises only when r exceeds the total weight or all weights are 0.",
  "every finite list of non-negative weights and every draw r >= 0",
  "the draw is a continuous random variable and the list is arbitrary; a sample cannot show that a zero-probability index is never returned nor that the probabilities are exact",
  [T+":resolveRandom"])
p("C02","normalize and randomProbabilities return probability vectors",
  "normalize(h) has the length of h, sums to 1 and keeps the ratios of h whenever sum(h) != 0; randomProbabilities(n) returns n strictly positive numbers summing to 1, raises ValueError for n <= 0 and TypeError for a positive non-integer, whatever the integers drawn.",
  "every list with non-zero sum; every size and every outcome of the random integers in 1..10",
  "ranges over all random outcomes and all lengths",
  [T+":normalize", T+":randomProbabilities"])
p("C03","Acceptance test for probability rows",
  "checkProbabilities(l) accepts l exactly when its sum is within 0.0005 of 1 or of 0; so a list accepted by a constructor is a (sub)distribution up to that tolerance. (It does not look at the signs of the entries.)",
  "every finite list of numbers",
  "the acceptance region is infinite and its boundary is set by round-half-even; tests only probe points",
  [T+":checkProbabilities"])
p("C04","The Hoeffding compatibility test is a sane similarity test",
  "hoeffdingBound(f1,n1,f2,n2,alpha) is symmetric in the two samples, accepts a sample against itself or against a proportional sample (0 < alpha < 2), accepts whenever one sample is empty, and accepting at some alpha implies accepting at every smaller alpha.",
  "all counts f1,n1,f2,n2 and all confidence levels alpha > 0",
  "a relation between runs on all real-valued inputs",
  [T+":hoeffdingBound", AL+":PTA.compatible"])
p("C05","A training set built from a list of traces counts them exactly",
  "Set(list_of_traces) stores every distinct trace once, in order of first occurrence, with a multiplicity equal to its number of occurrences in the list; the multiplicities add up to the length of the list.",
  "every finite list of traces",
  "for all lists, with arbitrary repetition patterns",
  [S+":Set.setFromList"])
p("C06","to_list undoes the construction of a training set",
  "Set(traces).to_list() is a permutation of traces, and for any Set s with integer multiplicities >= 1, Set(s.to_list()) is equal (isEqual) to s.",
  "every list of traces, every well formed Set",
  "round trip over an unbounded domain",
  [S+":Set.to_list", S+":Set.setFromList"])
p("C07","Merging training sets is multiset union",
  "After s1.addSet(s2) every trace has the sum of its multiplicities in s1 and s2, no trace is stored twice, and the result does not depend on the order of the merges (up to isEqual); sets of different types are refused with TypeError and s1 is left as it was.",
  "all pairs (and sequences) of Sets",
  "history property: any sequence of merges",
  [S+":Set.addSet"])
p("C08","isEqual decides equality of training sets",
  "For Sets without duplicated traces, s1.isEqual(s2) is true exactly when the types agree and every trace has the same multiplicity in both; hence it is reflexive, symmetric and transitive and insensitive to the storage order.",
  "all pairs and triples of duplicate-free Sets",
  "equivalence laws over an infinite domain",
  [S+":Set.isEqual"])
p("C09","Sorting a training set only reorders it",
  "s.sort() leaves the multiset of (trace, multiplicity) pairs unchanged and puts the traces in lexicographic order; sorting twice is the same as sorting once.",
  "every Set whose traces are comparable",
  "for all sets and orders",
  [S+":Set.sort"])
p("C10","Alphabet and action extraction are exact",
  "s.getAlphabet() contains a label iff the label occurs as an observation in some trace (for MDP traces, at an even position; for timed traces, at an even position), without duplicates; s.getActionsObservations() splits an MDP training set into exactly the actions (odd positions) and the observations (even positions).",
  "every Set of well formed traces of the three discrete types",
  "quantifies over all traces of all lengths",
  [S+":Set.getAlphabet", S+":Set.getActionsObservations"])
p("C11","Saving then loading a training set gives it back",
  "loadSet(f) after s.save(f) is s: same type, traces, order and multiplicities, for labels that are arbitrary strings (including quotes, backslashes, newlines, brackets) and for finite numbers, whenever the multiplicities are stored as integers.",
  "every Set with integer multiplicities",
  "round trip through a textual format: depends on escaping of every possible label",
  [S+":Set.save", S+":loadSet"])
p("C12","A save interrupted at any point is not mistaken for another object",
  "If writing a model file stops after any strict prefix of its bytes, loading the prefix raises instead of returning a different model. For a training set file, what is loaded from a file cut at a record boundary is a prefix of the saved records.",
  "every model / Set and every crash point during save",
  "ranges over every crash point of every save",
  [M+":Model.save", BM+":Base_MC._save", MC+":loadMC", S+":Set.save", S+":loadSet"])
p("C13","Constructors: initial distribution and validation",
  "MC/CTMC/MDP constructors give each state labelled 'init' the same initial probability, all other states 0, total 1; they raise ValueError exactly when no state is labelled 'init', when the number of labels differs from the number of states or (MC, MDP) when a row sum is rejected. The HMM-style constructor with an explicit initial distribution must reject one that does not sum to 1.",
  "every matrix and labelling",
  "all labellings/matrices; acceptance boundary",
  [BM+":Base_MC.__init__", M+":Model.__init__", MC+":MC.__init__", CT+":CTMC.__init__", MD+":MDP.__init__"])
p("C14","createMC/createMDP/createCTMC/createHMM build exactly the described model",
  "The created model has one state per state id plus one 'init' state; the probability (rate) of s->s' is the one given for (s,s') by the caller (the last one given if repeated) and 0 when none is given; the 'init' state leads to the requested initial state/distribution; no transition enters 'init'.",
  "every list of transitions, labelling and initial state",
  "for all transition lists",
  [MC+":createMC", MD+":createMDP", CT+":createCTMC", HM+":createHMM"])
p("C15","Creating a model does not alter the caller's data",
  "createMC/createMDP/createCTMC/createPCTMC leave the lists given by the caller unchanged, so that the same call can be repeated with the same result.",
  "every argument tuple and every history of calls",
  "history property over repeated calls",
  [MC+":createMC", MD+":createMDP", CT+":createCTMC", PC+":createPCTMC"])
p("C16","Random models are well formed",
  "MC_random/MDP_random/HMM_random/CTMC_random(n, labels, ...) return a model with n states plus (for labelled models) one 'init' state, every given label used when n >= number of labels, only given labels used, every row a strictly positive distribution over the n states; a label 'init' is refused.",
  "every size, label list and every outcome of the random draws",
  "ranges over all random outcomes",
  [BM+":labelsForRandomModel", MC+":MC_random", MD+":MDP_random", HM+":HMM_random", CT+":CTMC_random"])
p("C17","Saving then loading a model gives it back",
  "loadMC/loadMDP/loadHMM/loadCTMC/loadPCTMC/loadGoHMM after save returns a model with the same name, labelling, initial distribution and parameters, for every model obtained from the constructors with a one-line name.",
  "every model",
  "round trip through a textual format over all models",
  [M+":Model.save", BM+":Base_MC._save", MC+":MC.save", MC+":loadMC", MD+":MDP.save", MD+":loadMDP", HM+":HMM.save", HM+":loadHMM", CT+":CTMC.save", CT+":loadCTMC"])
p("C18","Relabelling keeps the model consistent",
  "After updateLabelling(l) the labels are l and the initial distribution is the one of a model constructed with l, so that the model behaves as its saved and reloaded copy.",
  "every model and every new labelling",
  "history property: relabel, then save, load, simulate",
  [BM+":Base_MC.updateLabelling"])
p("C19","Transition probabilities are gated by the observation and add up",
  "tau(s,s',o) is a(s,s') when state s emits o (times its emission probability for HMM) and 0 otherwise; summed over s' and over all observations it gives 1 for every state with a stochastic row; for CTMC, tau is rate/exit rate and sums to 1 over successors whenever the exit rate is not 0.",
  "every model, state and observation",
  "for all models and states",
  [MC+":MC.tau", BH+":Base_HMM.tau", CT+":CTMC.tau", MD+":MDP.tau"])
p("C20","Shape of simulated traces",
  "MC.run(n) returns n+1 labels, starting with the label of a state of positive initial probability; MDP.run(n) returns 2n+1 symbols alternating observations and actions; CTMC.run(n,timed) returns 2n+1 symbols alternating labels and waiting times; HMM.run(n) returns n observations.",
  "every model, every n and every outcome of the random draws",
  "ranges over all random outcomes and lengths",
  [MC+":MC.run", MD+":MDP.run", CT+":CTMC.run", M+":Model.run"])
p("C21","Simulation never produces an impossible trace",
  "Every trace returned by run/generateSet of a model has strictly positive probability under that model, and consecutive states are linked by transitions of positive probability (rate).",
  "every model with non-negative entries, every length and every outcome of the random draws",
  "an impossible trace may appear with tiny probability; sampling cannot exclude it",
  [MC+":MC.run", MC+":MC.next", MD+":MDP.next", CT+":CTMC.next", M+":Model.run"])
p("C22","The simulator samples from the distribution that logLikelihood computes",
  "The probability, over the uniform draws, that MC.run(n) returns the trace w is exactly the likelihood of w computed by the model.",
  "every stochastic model, every n and every trace",
  "an equality of real numbers for all models and traces; statistics only approximate it",
  [MC+":MC.run", M+":Model._computeAlphas", T+":resolveRandom"])
p("C23","generateSet returns the requested number of traces",
  "The multiplicities of generateSet(set_size, n) add up to set_size and every stored trace has the requested length.",
  "every set size, length specification and every outcome of the draws",
  "ranges over all random outcomes",
  [M+":Model.generateSet", MD+":MDP.generateSet"])
p("C24","MDP simulation respects the scheduler and the model",
  "In a trace of MDP.run every action is one the model allows in the current state and is the last one proposed by the scheduler, and the scheduler is fed with every observation in order.",
  "every MDP, scheduler behaviour and outcome of the draws",
  "history property over arbitrary schedulers",
  [MD+":MDP.run", SC+":FiniteMemoryScheduler"])
p("C25","The likelihood of a trace is the sum over hidden state paths",
  "exp of the log-likelihood of a single trace is the sum, over every sequence of states, of initial probability times transition probabilities times emission probabilities (MC, HMM, MDP given the actions).",
  "every model and every trace of every length",
  "the sum ranges over exponentially many paths; equality for all models and traces",
  [M+":Model._computeAlphas", MD+":MDP._computeAlphas", M+":Model._logLikelihood_oneproc"])
p("C26","Trace likelihoods form a probability distribution",
  "For each n the likelihoods of all traces of n observations sum to 1 and each lies in [0,1] (for an MDP: for each fixed sequence of actions allowed everywhere).",
  "every stochastic model and every length",
  "sum over all traces for all models",
  [M+":Model._computeAlphas", MD+":MDP._computeAlphas"])
p("C27","Single-process and multi-process likelihood agree",
  "logLikelihood gives the same value whether it runs in one process (which reuses the forward table of the common prefix with the previous trace) or in several, for every training set that the model can generate and every model whose rows sum to 1.",
  "every model and training set, in any storage order",
  "the cached computation depends on the whole history of traces processed",
  [M+":Model._logLikelihood_oneproc", M+":Model._updateAlphaMatrix", M+":Model._logLikelihood_multiproc", MD+":MDP._logLikelihood_oneproc", MD+":MDP._updateAlphaMatrix"])
p("C28","Set likelihood is the weighted mean and ignores storage order",
  "logLikelihood(set) is the mean of the trace log-likelihoods weighted by multiplicity; it is unchanged by reordering the set, and merging two sets gives the weighted mean of their values.",
  "every model and all sets of possible traces",
  "all permutations of all sets",
  [M+":Model.logLikelihood", S+":Set.addSet"])
p("C29","A model that cannot generate the data is never scored as perfect",
  "logLikelihood of a training set containing impossible traces is strictly smaller than 0 / does not look like certainty.",
  "every model and training set",
  "needs all sets mixing possible and impossible traces",
  [M+":Model._logLikelihood_multiproc", M+":Model._logLikelihood_oneproc", CT+":CTMC.logLikelihood"])
p("C30","Timed CTMC likelihood is the density of the timed trace",
  "CTMC.logLikelihood of a timed trace is the log of the sum over state paths of initial probability times product of rate * exp(-exit rate * waiting time) along the path, gated by the labels.",
  "every CTMC and timed trace",
  "equality for all models, traces and real waiting times",
  [CT+":CTMC._computeAlphas_timed", CT+":CTMC.logLikelihood"])
p("C31","The embedded Markov chain of a CTMC",
  "CTMC.toMC() returns the chain whose transition probabilities are the ones of the race between the rates, it gives every untimed trace the same likelihood as the CTMC, and it leaves the CTMC unchanged.",
  "every CTMC with positive exit rates, every trace",
  "for all models; side effects on the source object",
  [CT+":CTMC.toMC", CT+":CTMC.tau"])
p("C32","Forward and backward tables are consistent",
  "During learning, for every position k of a trace the sum over states of forward(k)*backward(k) is the likelihood of the trace; so state occupancies at each position sum to 1 and expected transition counts out of a state equal its expected occupancy.",
  "every model, trace and position",
  "an identity at each of unboundedly many positions",
  [BW+":BW._computeAlphas", BW+":BW._computeBetas", BW+":BW._computeAlphas_MDP", BW+":BW._computeBetas_MDP", BW+":BW._computeAlphas_timed", BW+":BW._computeBetas_timed"])
p("C33","Learning preserves stochasticity",
  "After any number of Baum-Welch iterations every transition row (MC, HMM, each MDP action row) that summed to 1 still sums to 1 with non-negative entries, and every emission row of an HMM sums to 1.",
  "every initial model, training set and number of iterations",
  "invariant over all iteration counts",
  [BW+":BW._update_MC", BW+":BW._update_HMM", BW+":BW._update_MDP", BW+":BW._processWork_MC"])
p("C34","Learning keeps the structure of the model",
  "A transition (emission) of probability 0 stays 0 after learning, a state that no training trace visits keeps its row, the labels and the number of states do not change.",
  "every initial model, training set and number of iterations",
  "invariant over all iteration counts",
  [BW+":BW._update_MC", BW+":BW._update_HMM", BW+":BW._update_MDP", BW+":BW._update_CTMC"])
p("C35","Baum-Welch on Markov chains never decreases the likelihood",
  "One iteration of BW on an MC never decreases the log-likelihood of the training set; hence the sequence of values monitored by fit is non-decreasing.",
  "every MC, every training set, every iteration",
  "a convexity theorem over all models and data",
  [BW+":BW._bw", BW+":BW._processWork_MC", BW+":BW._update_MC"])
p("C36","Baum-Welch on HMMs never decreases the likelihood",
  "One iteration of BW on an HMM (joint update of transitions and emissions) never decreases the log-likelihood of the training set.",
  "every HMM, every training set, every iteration",
  "a convexity theorem over all models and data",
  [BW+":BW._processWork_HMM", BW+":BW._update_HMM"])
p("C37","Baum-Welch on MDPs never decreases the likelihood",
  "One iteration of BW on an MDP never decreases the log-likelihood of the training traces given their actions.",
  "every MDP, every training set, every iteration",
  "a convexity theorem over all models and data",
  [BW+":BW._processWork_MDP", BW+":BW._update_MDP"])
p("C38","Baum-Welch on timed CTMCs never decreases the likelihood",
  "One iteration of BW on a CTMC with timed traces and no fixed parameter never decreases the log-density of the training set.",
  "every CTMC, every timed training set, every iteration",
  "a convexity theorem over all models and data",
  [BW+":BW._processWork_CTMC", BW+":BW._update_CTMC"])
p("C39","Baum-Welch on Gaussian HMMs",
  "One iteration of BW on a GoHMM keeps the transition rows stochastic, gives non-negative variances, new means inside the convex hull of the observations, and never decreases the log-density of the training set.",
  "every GoHMM, training set and iteration",
  "for all real-valued data",
  [BW+":BW._processWork_GoHMM", BW+":BW._update_GoHMM"])
p("C40","Fixed parameters are left alone",
  "BW.fit on a CTMC with fixed_parameters never changes the rate of a transition marked as fixed.",
  "every CTMC, mask, training set and number of iterations",
  "invariant over all iteration counts, including states the data never visits",
  [BW+":BW._update_CTMC", BW+":BW.fit"])
p("C41","The learning loop stops when it should",
  "fit performs at least one and at most max_it iterations (max_it >= 1), stops at the first iteration whose improvement is smaller than epsilon, and for discrete models stops after a number of iterations bounded by -(initial log-likelihood)/epsilon + 2 even with max_it infinite.",
  "every model, training set, epsilon > 0 and max_it",
  "termination for all inputs",
  [BW+":BW._bw"])
p("C42","Learning does not depend on the number of processes or the order of traces",
  "One iteration gives the same new model whatever the number of worker processes and whatever the order in which traces are stored, and storing a trace with multiplicity k equals storing it k times.",
  "every model, training set, schedule of workers and permutation of traces",
  "all schedules and permutations",
  [BW+":BW._runProcesses", BW+":BW._update_MC"])
p("C43","Preparation of the training set adds the initial label exactly once",
  "Before learning a labelled model, every trace that lacks the 'init' label gets it as its first observation, exactly once even if fit is called repeatedly on the same Set, and the traces stay well formed for their type.",
  "every training set and every history of fit calls",
  "history property on a mutable argument",
  [BW+":BW._getTrainingSet", BW+":BW._preparation"])
p("C44","Incompatible training data is refused",
  "fit raises when the type of the training set cannot be used to learn the type of the model.",
  "every pair (type of data, type of model)",
  "complete decision table",
  [BW+":BW._preparation"])
p("C45","Instantiating a parametric CTMC validates the new rates",
  "PCTMC.instantiate(p,v) returns True and installs v exactly when all the rates are non-negative under the new values, and otherwise returns False and leaves the model unchanged.",
  "every PCTMC and every history of instantiations",
  "history property over all expressions and values",
  [PC+":PCTMC.instantiate", PC+":PCTMC._checkRates", PM+":Parametric_Model.instantiate"])
p("C46","A fully instantiated parametric CTMC is the CTMC of its evaluated rates",
  "Once every parameter has a value, the rate of s->s' is its expression evaluated at the values, and exit rates, likelihoods and conversion to CTMC agree with the CTMC having these rates; evaluation only depends on the parameters that occur in the expression.",
  "every PCTMC and every valuation",
  "for all expressions",
  [PM+":Parametric_Model.transitionValue", PM+":Parametric_Model.isInstantiated", PC+":PCTMC.e", PC+":PCTMC.tau", ST+":PCTMCtoCTMC"])
p("C47","Removing unused states and transitions keeps the remaining model",
  "When fit_parameters (or the composition) drops states and renumbers transition expressions, every remaining pair of states keeps the same rate expression.",
  "every model and every set of states removed",
  "index-shifting for all sizes",
  [BW+":BW.fit_parameters", PC+":synchronousCompositionPCTMCs"])
p("C48","Synchronous composition interleaves and synchronises",
  "In the composition of two CTMCs (or of several PCTMCs, for all values of the parameters), the rate from (i,j) to (i',j') is the rate of i->i' when only the first moves, of j->j' when only the second moves, the product for synchronised actions, and the composed labels combine the component labels. The parameters keep their values.",
  "every pair (list) of components",
  "for all components and sizes",
  [CT+":synchronousCompositionCTMCs", PC+":synchronousComposition2PCTMCs"])
p("C49","The prefix tree counts prefixes",
  "The tree that Alergia builds gives to each prefix the number of training traces having this prefix, and to each node the number of traces ending there.",
  "every training set in which each distinct trace is stored once, with its multiplicity",
  "for all sets of traces",
  [AL+":PTA", AL+":createPTA"])
p("C50","Alergia returns a well formed Markov chain",
  "The transition matrix built from the final tree has non-negative rows that sum to 1 (or 0 for leaves), frequencies proportional to the counts, and labels taken from the training set plus 'init'.",
  "every training set and alpha",
  "for all inputs",
  [AL+":PTA.toMC", AL+":Alergia.fit"])
p("C51","State merging conserves traces and terminates",
  "Merging and folding in Alergia conserve the total number of traces, and the red/blue loop terminates for every input.",
  "every training set and every outcome of the compatibility tests",
  "termination and conservation along all executions",
  [AL+":PTA.merge", AL+":PTA.fold", AL+":Alergia.fit"])
p("C52","IOAlergia attributes each transition to its action",
  "In the MDP returned by IOAlergia, the probability of s -a-> s' is the relative frequency of s' among the successors observed after action a in s.",
  "every training set of MDP traces",
  "for all sets of traces, including states where only some actions were observed",
  [IO+":IOFPTA.cleanMDP", IO+":IOAlergia._buildIOFPTA"])
p("C53","The active learning scheduler proposes actions with probabilities adding to 1 and favours rare actions",
  "For at least two actions and non-zero counts, the exploration distribution of the active scheduler is a probability distribution and gives at least as much weight to an action with a smaller count.",
  "every count table",
  "for all tables",
  [AC+":ActiveLearningScheduler.getActionState"])
p("C54","The learning rate mixes old and new models",
  "In active learning with learning rate lr the new hypothesis is (1-lr)*old + lr*updated, which is again stochastic.",
  "every pair of models, every lr",
  "side effects on shared objects; all models",
  [AC+":Active_BW_MDP._mergeModels", AC+":Active_BW_MDP.fit"])
p("C55","Finite-memory schedulers follow their transition table",
  "After feeding observations o1..ok a FiniteMemoryScheduler is in the state obtained by following its transition table; reset brings it back to the initial state; in each state it proposes an action with the probability its table (and getProbability) gives; getSequenceStates returns the states visited.",
  "every scheduler and every sequence of observations",
  "history property",
  [SC+":FiniteMemoryScheduler"])
p("C56","Conversion to Storm and back",
  "Converting an MC, CTMC or MDP to a Storm sparse model and back returns a model with the same labels and transition probabilities (rates).",
  "every model with positive exit rates",
  "round trip over all models",
  [ST+":jajapyModeltoStormpy", ST+":stormpyModeltoJajapy"])
p("C57","A learner can be reused",
  "The result of fit on a learner object depends only on the arguments of that call, not on the fits performed before with the same object.",
  "every sequence of calls of fit on the same object",
  "a history property: state kept in the object between calls",
  [BW+":BW.fit", BW+":BW._preparation"])
p("C58","One Baum-Welch iteration computes posterior expected frequencies",
  "One iteration replaces the probability of every transition by (expected number of uses of the transition)/(expected number of visits of its source), the expectations being taken over all the paths that generate the training traces, weighted by their probability and multiplicity; states that no path visits keep their row; the reported value is the log-likelihood of the training set under the model before the update.",
  "every model, every training set",
  "the expectation ranges over exponentially many hidden paths of traces of any length",
  [BW+":BW._processWork_MC", BW+":BW._update_MC", BW+":BW._processWork_HMM", BW+":BW._update_HMM"])
p("C59","Learning does not modify the caller's model and training set",
  "BW.fit returns a new model; the initial model and the training set passed by the caller are the same after the call as before.",
  "every initial model, training set and number of iterations",
  "side effects on the caller's objects, for all inputs",
  [BW+":BW.fit", BW+":BW._getInitialModel", BW+":BW._getTrainingSet"])
p("C60","Untimed traces say nothing about exit rates",
  "Learning a CTMC from untimed traces changes its jump probabilities only: the exit rate of every state is the same after learning as before.",
  "every CTMC and untimed training set",
  "for all models and sets",
  [BW+":BW._processWork_CTMC", BW+":BW._update_CTMC"])
p("C61","Alergia merges only states with compatible futures",
  "Two states are merged only if they have the same label and, after every sequence of labels that was observed from both, the frequencies of the next label pass the Hoeffding test.",
  "every training set, every alpha, every pair of states compared during the merging",
  "ranges over all words and all graphs reached during the merging",
  [AL+":PTA.compatible", AL+":PTA.__init__"])
p("C62","The chain learnt by Alergia can generate its training traces",
  "Every training trace has a positive probability in the learnt Markov chain (read from the initial state, with 'init' in front).",
  "every training set, every outcome of the compatibility tests",
  "for all sets and all sequences of merges",
  [AL+":Alergia.fit", AL+":PTA.merge", AL+":PTA.fold", AL+":PTA.toMC"])
p("C63","The active scheduler tracks the state of the hypothesis",
  "While a trace is generated with the active scheduler, the state from which the next action is chosen is drawn from the distribution of the hypothesis' current state given the labels and actions so far; after the trace the count table has grown by the expected number of times each action was done in each state.",
  "every hypothesis, every system under learning, every trace and every sequence of random draws",
  "the distribution sums over all hidden paths of traces of any length",
  [AC+":ActiveLearningScheduler.getAction", AC+":ActiveLearningScheduler.addObservation", AC+":ActiveLearningScheduler.reset"])
p("C64","The sample of an active learning round",
  "One round of active learning draws exactly nb_sequences traces of the requested length, all of positive probability in the system under learning; the uniform scheduler is used with probability 1-epsilon_greedy; the exploration starts with the expected counts of the training set, for any number of processes.",
  "every hypothesis, system, training set, number of processes and sequence of draws",
  "ranges over all draws and histories of rounds",
  [AC+":Active_BW_MDP._addTraces", AC+":Active_BW_MDP._strategy", AC+":Active_BW_MDP._computeProbas"])
p("C65","IOAlergia's prefix tree counts the prefixes of the traces",
  "Before merging, IOAlergia has one state for each prefix of a training trace that ends with an observation; the counts of the states and of the transitions are the numbers of training traces with the prefix, and there is a transition exactly where one prefix extends the other by an action and an observation.",
  "every training set of MDP traces",
  "ranges over all sets of traces and all prefixes",
  [IO+":IOAlergia._buildIOFPTA", IO+":IOFPTA_state.transitionsAdd"])
p("C66","IOAlergia ends with a well-formed MDP",
  "For every training set of MDP traces with at least one action and every epsilon, IOAlergia ends and returns an MDP: every row is a distribution or zero, there is an added state 'init', the actions are those of the traces, and every other state carries an observation of the traces.",
  "every training set, every outcome of the compatibility tests",
  "termination and invariants of a loop that rewrites a graph",
  [IO+":IOAlergia.fit", IO+":IOFPTA.merge", IO+":IOFPTA.cleanMDP"])
p("C67","IOAlergia merges only states with compatible futures",
  "Two states are merged only if they carry the same observation and, after every sequence of actions and observations, the frequencies of the next observation for every action done in both pass the Hoeffding test; a state is kept apart only if there is no such state.",
  "every training set, every epsilon, every pair of states compared during the merging",
  "ranges over all words and all graphs reached during the merging",
  [IO+":IOFPTA.compatible", IO+":IOFPTA.hoeffding", IO+":IOAlergia.fit"])
p("C68","The MDP learnt by IOAlergia can generate its training traces",
  "Every training trace is possible in the learnt MDP, read after 'init' and a first action.",
  "every training set, every outcome of the compatibility tests",
  "for all sets and all sequences of merges",
  [IO+":IOAlergia.fit", IO+":IOFPTA.merge", IO+":IOFPTA.cleanMDP"])
p("C69","The Storm model is the same model",
  "The Storm model built from an MC, CTMC, MDP or instantiated PCTMC has the same states in the same order with the same labels, for every state the same actions with their names, and a transition exactly where the probability (rate) is not 0, with this value (for a CTMC divided by the exit rate, which is stored apart).",
  "every model",
  "ranges over all models, sizes and transitions",
  [ST+":jajapyModeltoStormpy", ST+":MCtoStormpy", ST+":MDPtoStormpy", ST+":CTMCtoStormpy"])
p("C70","A model read from Storm or from a Prism file is the same model",
  "The jajapy model made from a Storm model (as loadPrism does) generates the same sequences of labels with the same probabilities, preceded by 'init' when the initial state has other labels; it has the same rates (CTMC), the same probabilities for each action (MDP), the same expressions and parameters (PCTMC). The label of a state is its sorted labels joined by '_', without 'init' and 'deadlock'.",
  "every Storm model with one initial state",
  "ranges over all models and all traces",
  [ST+":stormpyModeltoJajapy", ST+":loadPrism"])
p("C71","Composing models has no hidden state",
  "The composition of a list of PCTMCs depends only on these models: repeating the call in the same program, or composing other models before, does not change the result.",
  "every list of components, every history of calls",
  "ranges over all sequences of calls in a program",
  [PC+":synchronousCompositionPCTMCs", PC+":PCTMC.__init__"])
p("C72","Estimating parameters never makes the training set less likely",
  "Whenever `fit_parameters` returns, the log-likelihood of the training set under the returned values of the parameters is at least the one under the values at the beginning; it returns for every parametric CTMC whose parameters have values and every training set with a trace of positive likelihood.",
  "every parametric CTMC, set of traces (timed or untimed), list of parameters to estimate, bound on the iterations",
  "ranges over all models, rate expressions, traces and iteration counts; the update of a parameter shared by several transitions has no closed form",
  [BW+":BW.fit_parameters", BW+":BW._update_PCTMC", BW+":BW._processWork_PCTMC", BW+":BW._sortParameters"])
p("C73","Estimating parameters changes nothing else",
  "After `fit_parameters` the model has the rate expressions, labels and initial distribution of the given one on the states whose label is observed, the parameters that were not asked for keep their values, and the returned dictionary contains the values of the requested parameters in the model; a name that the model does not declare is refused.",
  "every parametric CTMC, training set, list of names, bounds for random values, bound on the iterations",
  "ranges over all models and histories of updates",
  [BW+":BW.fit_parameters", PC+":PCTMC.instantiate", PC+":PCTMC.randomInstantiation"])
p("C74","The estimation of parameters works on any learner",
  "`fit_parameters` can be called on a new `BW()` object, and its result does not depend on the earlier calls on the same object.",
  "every history of calls on a learner",
  "ranges over all sequences of calls",
  [BW+":BW.fit_parameters", BW+":BW._bw", BW+":BW.__init__"])
p("C75","Fitting the non-instantiated parameters keeps the others",
  "`fit_nonInstantiatedParameters` changes only parameters that had no value.",
  "every parametric CTMC and training set",
  "ranges over all models, valuations and traces",
  [BW+":BW.fit_nonInstantiatedParameters"])
p("C76","A saved Prism file describes the model",
  "`savePrism` writes a file in the Prism language, and the program in it is the model: its type, the initial state, the probability or rate of each transition (with the action, for an MDP; with the parameters and their values, for a parametric CTMC), and the states where each label holds.",
  "every MC, MDP, CTMC and parametric CTMC with one initial state",
  "ranges over all models, sizes, labels and numbers; the text has to be parsed",
  ["jajapy/base/Base_MC.py:Base_MC._savePrism", "jajapy/mc/MC.py:MC.savePrism", "jajapy/mdp/MDP.py:MDP.savePrism", "jajapy/ctmc/CTMC.py:CTMC.savePrism", PC+":PCTMC.savePrism"])
p("C77","Saving to Prism and loading back keeps the model",
  "`loadPrism` applied to the file written by `savePrism` gives a model with the same behaviour: the same trace probabilities for an MC, the same rates on the reachable states for a CTMC, the same actions and probabilities on the reachable states for an MDP, the same rates on the reachable states for all the values of the parameters for a PCTMC.",
  "every MC, CTMC, MDP and PCTMC with one initial state, every numbering of the states that Storm may choose",
  "ranges over all models and all orders of exploration in Storm",
  ["jajapy/base/Base_MC.py:Base_MC._savePrism", "jajapy/with_stormpy/model_converter.py:loadPrism", "jajapy/with_stormpy/model_converter.py:stormpyModeltoJajapy"])
p("C78","Fitting a parametric CTMC",
  "`fit` on a parametric CTMC returns a model with the same states, labels, transitions and rate expressions (constants only change if asked, fixed parameters keep their values), under which the training set is at least as likely as under the initial values; it returns for timed and untimed training sets, with and without fixed parameters.",
  "every parametric CTMC, training set, choice of the fixed parameters, bound on the iterations",
  "ranges over all models, traces of all lengths and iteration counts",
  [BW+":BW.fit", BW+":BW._preparation", BW+":BW._processWork_PCTMC", BW+":BW._update_PCTMC", BW+":BW._computeAlphas_timed_matrix", BW+":BW._computeBetas_timed_matrix"])
p("C79","The files and the value of a learning call are the learnt model",
  "When `fit` returns, the file given by `output_file` is loaded back as the learnt model, the file given by `output_file_prism` is a Prism program of the learnt model, the returned value is the learnt model (or a Storm model with the same behaviour, under `stormpy_output`) and, with `return_data`, the number of iterations and the log-likelihood of the last one; `fit` returns whenever the learning succeeds.",
  "every initial MC, MDP, CTMC, PCTMC, HMM or GoHMM, training set, options, bounds on the iterations",
  "ranges over all models, traces and combinations of options; the texts of the files have to be parsed",
  [BW+":BW._bw", BW+":BW.fit", "jajapy/base/Base_MC.py:Base_MC._savePrism", "jajapy/with_stormpy/model_converter.py:jajapyModeltoStormpy"])
p("C80","The files and the value of a call of the other learners are the learnt model",
  "When the learning of Alergia, IOAlergia or Active_BW_MDP succeeds, `fit` returns the learnt model (or a Storm model with the same behaviour, under `stormpy_output`), the files given by `output_file` and `output_file_prism` hold the learnt model and, with `return_data`, the log-likelihood is the one of the final hypothesis on all traces, given and sampled. The Storm model of Alergia generates every training trace. By default the sampled traces are as long as the first trace.",
  "every training set, statistical test, hypothesis, sequence of samples, learning rate and combination of options",
  "ranges over all sets, models, random samples and combinations of options",
  ["jajapy/mc/Alergia.py:Alergia.fit", "jajapy/mdp/IOAlergia.py:IOAlergia.fit", "jajapy/mdp/Active_BW_MDP.py:Active_BW_MDP.fit"])
p("C81","Learning a model whose states are observed gives the observed frequencies",
  "When the states of the initial model have pairwise different labels and the training traces are possible in it, so that the traces show all moves, `fit` with at least one iteration returns the maximum-likelihood model on these labels: for a MC and a MDP the probability of a move is its observed frequency among the departures from the state (with the action), for a timed CTMC the rate is the number of jumps divided by the time spent in the state; rows without data are kept.",
  "every initial MC, MDP or CTMC with distinct labels, training set, number of iterations and options",
  "ranges over all models, traces of all lengths, multiplicities, iteration counts, and over all competing models",
  [BW+":BW.fit", BW+":BW._processWork_MC", BW+":BW._processWork_MDP", BW+":BW._processWork_CTMC", BW+":BW._update_MC", BW+":BW._update_MDP", BW+":BW._update_CTMC"])
p("C82","Law of the simulator of CTMCs",
  "Over independent random numbers, one step of the simulation of a CTMC from a state s goes to s' after a time t with the joint density rate(s,s')*exp(-exit(s)*t); hence the time spent is exponential with mean `expected_time(s)`, the next state is chosen with probability rate/exit, the probability that `run(number_steps)` returns an untimed trace is the likelihood of that trace, and the probability that the timed run shows given labels with waiting times in given sets is the integral of the density that `logLikelihood` reports.",
  "every CTMC, number of steps, label sequence and measurable sets of waiting times",
  "a statement about the probability of every event, for models with any number of states and traces of any length",
  ["jajapy/ctmc/CTMC.py:CTMC.next", "jajapy/ctmc/CTMC.py:CTMC.run", "jajapy/ctmc/CTMC.py:CTMC.expected_time", "jajapy/ctmc/CTMC.py:CTMC.logLikelihood"])

p("C83","Law of the simulator of MDPs",
"For a model with a valid transition function, `run(number_steps, scheduler)` returns the trace [o0,a0,...,ot] with the probability sum over the paths of the product of the initial probability, of the probabilities of the actions and of the probabilities of the moves, where the probability of an action is that of the scheduler (UniformScheduler: uniform on its list; FiniteMemoryScheduler: the row of its current memory state, updated by the observations) conditioned on being possible in the current state. The result does not depend on previous runs of the scheduler. run returns with probability 1 when the scheduler proposes a possible action with positive probability in each state. When all the actions are possible everywhere, the uniform scheduler gives a trace the probability that the likelihood methods report, divided by the number of sequences of actions.",
"all models with a valid transition function, all lists of actions, all finite-memory schedulers with valid tables, all numbers of steps, all traces",
"a statement about a probability distribution with an unbounded number of retries; tests can only sample it",
["jajapy/mdp/MDP.py: MDP.run, MDP.next, MDP.getActions","jajapy/mdp/Scheduler.py: UniformScheduler, FiniteMemoryScheduler"])

p("C84","Law of the generated sets",
"`generateSet(set_size, number_steps)` on a valid model returns a set in which the number of copies of a trace has the binomial law of parameters set_size and the probability of the trace under the simulator: its likelihood for an MC or an HMM (also with distribution='geo', times the probability of its length), its probability under the scheduler for an MDP, its probability in the simulated chain for a CTMC. When set_size grows, the proportion of every trace of the set tends to that probability, with probability 1.",
"all valid models, all numbers of steps that give traces of at least two symbols (MC: 1, HMM: 2, CTMC: 1, MDP: 0), all set sizes, all traces, all geometric parameters",
"a statement about the distribution of sets of every size and about a limit with probability 1; tests can only sample sets of some sizes",
["jajapy/base/Model.py: Model.generateSet, Model.run","jajapy/mdp/MDP.py: MDP.generateSet, MDP.run","jajapy/mc/MC.py: MC.run","jajapy/ctmc/CTMC.py: CTMC.run","jajapy/base/Base_HMM.py: Base_HMM.next"])

p("C85","Comparing models on generated data",
"On a set generated by a valid Markov chain or hidden Markov model with `generateSet(set_size, number_steps)`, the `logLikelihood` of every model tends, with probability 1 as set_size grows, to the expected logarithm of its likelihood of one trace. Hence the comparison of `logLikelihood` identifies the generating model: from some set size on, it is strictly larger than the `logLikelihood` of every valid MC or HMM that gives another likelihood to at least one trace of that length. For data of an MDP under a scheduler the `logLikelihood` of every MDP tends to the expected logarithm of its likelihood.",
"all valid generating models, all numbers of steps, all competing models with any number of states, all large enough set sizes",
"a limit with probability 1 and a comparison with infinitely many competing models",
["jajapy/base/Model.py: Model.generateSet, Model.logLikelihood","jajapy/base/Model.py: Model._logLikelihood_multiproc","jajapy/mdp/MDP.py: MDP.generateSet"])

p("C86","Learning from generated data recovers the generating model",
"Let the training sets be generated by a valid model whose states have pairwise different labels (a Markov chain with `generateSet`, or an MDP with `generateSet` under a uniform or finite-memory scheduler), and let the initial model have the same labels and give a positive likelihood to every trace of the generating model. Then with probability 1 `BW().fit` succeeds for every set size and every option, and the learned probability of every transition from a state (for an MDP: and for an action) that the traces leave tends to its probability in the generating model as set_size grows.",
"all such generating models, initial models, numbers of steps, schedulers and options, all large enough set sizes",
"a limit with probability 1 over an unbounded number of generated traces",
["jajapy/base/BW.py: BW.fit, BW._bw","jajapy/base/BW.py: BW._processWork_MC, BW._processWork_MDP","jajapy/base/Model.py: Model.generateSet","jajapy/mdp/MDP.py: MDP.generateSet"])

p("C87","The numbers of the states and the names of the labels do not matter",
"Let one model be the other with its states numbered in another order, its labels (observations, actions) replaced through an injective map and its alphabet or its list of actions listed in any order (MC, HMM, MDP, CTMC; for a GoHMM only the states are renumbered, and observations may be translated or negated with the means). Then every trace has the same likelihood in the one as its renamed version in the other, `logLikelihood` of a set and of the renamed set are equal, and `BW().fit` from the one on a set and from the other on the renamed set raise the same exception or stop after the same number of iterations with the same log-likelihood and with models that are again the same up to this renaming. In particular, states that play the same role in the initial model play the same role in the learned one.",
"all models of the five classes, all permutations of the states, all injective renamings, all training sets, all numbers of processes, all stopping thresholds and iteration limits",
"a relation between two runs on every pair of models and every set; tests compare a few runs, in floating point",
["jajapy/base/BW.py: BW.fit, BW._bw","jajapy/base/BW.py: BW._processWork_MC, BW._processWork_HMM, BW._processWork_MDP, BW._processWork_CTMC, BW._processWork_GoHMM","jajapy/base/Model.py: Model.logLikelihood"])

p("C88","The units of measurement do not matter",
"Measure time in another unit: divide all the rates of a CTMC by a > 0 and multiply all the waiting times of a timed training set by a. Or measure the observations of a GoHMM in other units: replace every observation x by a x + b, every mean by a mu + b, every standard deviation by |a| sigma. Then the density of a trace is divided by a for each waiting time (each observation), and `BW().fit` raises the same exception or stops after the same number of iterations with the same model in the other unit, its log-likelihood shifted by the average number of waiting times (observations) of a trace times log a. For a GoHMM this needs that all states are visited and that the standard deviations stay positive; for a CTMC it needs timed traces.",
"all valid CTMCs and timed sets with non-negative waiting times, all GoHMMs and sets, all units, all stopping thresholds and iteration limits",
"a relation between two runs over all real scale factors",
["jajapy/base/BW.py: BW.fit, BW._processWork_CTMC, BW._processWork_GoHMM","jajapy/base/BW.py: BW._update_GoHMM, BW._update_CTMC","jajapy/ctmc/CTMC.py: CTMC.e, CTMC.lkl, CTMC.expected_time","jajapy/gohmm/GoHMM.py: GoHMM.b"])

p("C89","`runSeq` tells which sequences the automaton can produce",
"For every sequence action, observation, ..., action, observation, `runSeq` of the automaton of IOAlergia returns True exactly if the sequence leads from an initial state through transitions of the automaton, before, during and after the merging. On the prefix tree these are the sequences that follow the first observation of a training trace, and their prefixes. Merging states never loses a sequence. A sequence that ends with an action, in particular a training trace itself (which starts with an observation), is never accepted: the answer is False or an IndexError.",
"all training sets, all compatibility tests, all moments of the learning, all sequences",
"quantifies over all sets, all orders of merging and sequences of any length",
["jajapy/mdp/IOAlergia.py: IOFPTA.runSeq","jajapy/mdp/IOAlergia.py: IOFPTA.successor"])


p("C90","Law of the simulator of GoHMMs",
"For a valid GoHMM, `run(number_steps)` returns a trace with probability 1, and the probability that its observations lie in given sets is the sum over the paths of the product of the initial probability, the transition probabilities and the normal probabilities of the sets. If all the standard deviations are positive, the traces of `run` have the likelihood of the model as density: the probability that the trace lies in any measurable set of traces is the integral of the likelihood over this set. In particular the likelihoods of all the traces of a length integrate to 1.",
"all valid GoHMMs of any size and dimension, all numbers of steps, all measurable sets of traces",
"a statement about a continuous probability law for every model and number of steps; tests can only sample some traces",
["jajapy/gohmm/GoHMM.py: GoHMM.next_obs","jajapy/base/Base_HMM.py: Base_HMM.next","jajapy/base/Model.py: Model.run","jajapy/gohmm/GoHMM.py: GoHMM.b"])

p("C91","Sets generated by GoHMMs, and comparing GoHMMs on them",
"For a valid GoHMM with positive standard deviations `generateSet(set_size, number_steps)` returns, with probability 1, a set of set_size traces without repetition. The number of its traces that belong to a measurable set of traces has the binomial law of parameters set_size and the integral of the likelihood over this set; their proportion tends to this integral. As set_size grows, the `logLikelihood` of every valid GoHMM with positive standard deviations tends with probability 1 to the expected logarithm of its likelihood of one trace, and if it gives another likelihood to at least one trace then from some set size on it is strictly smaller than the `logLikelihood` of the generating model.",
"all valid generating and competing GoHMMs with positive standard deviations, with any numbers of states, all dimensions, all numbers of steps (at least two), all measurable sets of traces",
"limits with probability 1 and a comparison with infinitely many competing models",
["jajapy/base/Model.py: Model.generateSet, Model.logLikelihood","jajapy/base/Model.py: Model._logLikelihood_multiproc","jajapy/gohmm/GoHMM.py: GoHMM.next_obs, GoHMM.b"])


p("C92","Learning from generated timed traces recovers the rates",
"Let the training sets be generated by a valid CTMC whose states have pairwise different labels and can all be left, with `generateSet(set_size, number_steps, timed=True)`, and let the initial model have the same labels and allow every move of the simulator. Then with probability 1 `BW().fit` succeeds for every set size and every option, and as set_size grows the learned rate of every transition that is not fixed, from every state that can be reached in fewer than number_steps steps, tends to its rate in the generating model, after one iteration already.",
"all such generating models, initial models, numbers of steps, sets of fixed transitions and options, all large enough set sizes",
"a limit with probability 1 over an unbounded number of generated traces with continuous times",
["jajapy/base/BW.py: BW.fit, BW._bw","jajapy/base/BW.py: BW._processWork_CTMC, BW._update_CTMC","jajapy/base/Model.py: Model.generateSet","jajapy/ctmc/CTMC.py: CTMC.run, CTMC.next"])


p("C93","Only states are accepted as states",
"A method that takes a state ID answers about the state with this number when it is given one of the numbers 0 … nb_states-1, and raises an exception for every other value: TypeError for a value that is not an integer, IndexError for an integer that is negative or too big. It never answers about another state. The state that `next` returns can be passed to every method of the model.",
"all models of every class, all values passed as state IDs (integers of every sign and size, numpy integers, floats, strings, None), all other arguments, all random draws",
"unbounded number of models, arguments and draws",
["jajapy/base/Model.py: Model._checkStateIndex, Model.pi, Model.run","jajapy/base/Parametric_Model.py: Parametric_Model._checkStateIndex, Parametric_Model.transitionExpression, Parametric_Model.getLabel","jajapy/mc/MC.py: MC.tau, MC.a, MC.next, MC.run","jajapy/ctmc/CTMC.py: CTMC.e, CTMC.l, CTMC.lkl, CTMC.tau, CTMC.expected_time, CTMC.next","jajapy/mdp/MDP.py: MDP.tau, MDP.a, MDP.getActions, MDP.next","jajapy/hmm/HMM.py: HMM.b, HMM.tau, HMM.getAlphabet","jajapy/base/Base_HMM.py: Base_HMM.a, Base_HMM.next_state","jajapy/gohmm/GoHMM.py: GoHMM.b, GoHMM.mu","jajapy/pctmc/PCTMC.py: PCTMC.e, PCTMC.l, PCTMC.tau","jajapy/base/tools.py: resolveRandom"])


p("C94","The simulator of an instantiated parametric CTMC follows its evaluated rates",
"In an instantiated PCTMC, from a state with at least one transition of positive rate, `next` goes to each state with the probability that `tau` reports, and the time spent is exponential with the exit rate as parameter, jointly: the density of going to s' after a time t is rate(s,s')·exp(-exit(s)·t). A state without transitions is never left. The probability that `run` returns a trace is its likelihood in the CTMC of the evaluated rates, and the law of the timed traces returned by `run(timed=True)` has the density whose logarithm `logLikelihood` reports. A state one of whose rates has no value is refused.",
"all instantiated PCTMCs without negative rates, all states, all sets of times, all lengths, all traces; probabilities over independent standard exponential draws",
"a law of probability over continuous draws, for every model and trace length",
["jajapy/pctmc/PCTMC.py: PCTMC.next, PCTMC.run, PCTMC.tau, PCTMC._logLikelihood_oneproc"])


p("C95","Sets of timed traces generated by a CTMC separate it from other CTMCs",
"In a set of timed traces generated by a CTMC, the number of traces with given observations and times in given intervals follows the binomial law whose parameter is the integral of the density of the model over these intervals, and the proportion of these traces converges to this parameter as the set grows. The log-likelihood that `logLikelihood` reports on this set for any CTMC converges to the expectation of the logarithm of its density; on a large enough set the generating model has a strictly better log-likelihood than any model that gives another density to some traces.",
"all CTMCs without absorbing state as generators, all CTMCs as candidates, all lengths, all sequences of observations, all sets of times; probabilities over independent exponential draws",
"a statement about the limit of random sets of traces with continuous times",
["jajapy/base/Model.py: Model.generateSet","jajapy/ctmc/CTMC.py: CTMC.run, CTMC.next, CTMC.logLikelihood, CTMC._computeAlphas_timed"])


p("C96","Sets of timed traces generated by an instantiated parametric CTMC separate it from other instantiations",
"In a set of timed traces generated by an instantiated PCTMC, the number of traces with given observations and times in given sets follows the binomial law whose parameter is the integral of the density of the model, and the proportion of these traces converges to it. The log-likelihood reported by `logLikelihood` on this set for an instantiated PCTMC converges to the expectation of the logarithm of its density; on a large enough set the generating model has a strictly better log-likelihood than any model, in particular any other instantiation, that gives another density to some traces.",
"all instantiated PCTMCs without absorbing state as generators, all instantiated PCTMCs as candidates, all lengths, all sequences of observations, all sets of times; probabilities over independent exponential draws",
"a statement about the limit of random sets of traces with continuous times",
["jajapy/base/Model.py: Model.generateSet","jajapy/pctmc/PCTMC.py: PCTMC.next, PCTMC.run, PCTMC.logLikelihood, PCTMC._logLikelihood_oneproc"])


p("C97","The values that the estimation of parameters returns when the states can be recognised",
"When the states of the PCTMC have pairwise different labels, all of them are observed and all the training traces are possible, `fit_parameters` gives to each estimated parameter which does not share a transition with another estimated one the only value for which the expected number of uses of the parameter in the observed times equals the observed number of uses (for a parameter of degree 1, the number of uses divided by the expected number for the value 1), whatever the initial positive values and the number of iterations; a parameter whose transitions start in states where no time is spent keeps its value. If no transition contains two estimated parameters and time is spent in each state that is left, no other values give the training set a larger likelihood.",
"all PCTMCs with monomial rates and pairwise different labels, all sets of timed traces of positive density showing all the labels, all positive initial values, all numbers of iterations, all tolerances",
"the returned value has to be compared with all other real values, for all models and traces",
["jajapy/base/BW.py: BW.fit_parameters, BW.fit_nonInstantiatedParameters"])
p("C98","Learning the parameters of a PCTMC from its own timed traces",
"With probability 1, as the number of timed traces generated by an instantiated PCTMC with pairwise different labels grows, the values that `fit_parameters` returns, started on the same PCTMC with any other positive values of the estimated parameters, tend to the values in the generator, for each estimated parameter which does not share a transition with another estimated one, whatever the number of iterations.",
"all instantiated PCTMCs with monomial rates and pairwise different labels whose states can all be left and reached within the length of the traces, all positive initial values that leave each transition possible, all lengths, all numbers of iterations, all tolerances; probabilities over independent exponential draws",
"a statement about the limit of random sets of traces with continuous times",
["jajapy/base/Model.py: Model.generateSet","jajapy/pctmc/PCTMC.py: PCTMC.next, PCTMC.run","jajapy/base/BW.py: BW.fit_parameters, BW.fit_nonInstantiatedParameters"])


p("C99","What Baum-Welch converges to",
"Learning a Markov chain, a Markov decision process or a hidden Markov model: an iteration that changes the model strictly increases the log-likelihood of the training set, so a model of maximal likelihood is left unchanged; an iteration leaves the model unchanged exactly when the model is a stationary point of the log-likelihood (all its derivatives along which the distributions still add up to 1 are 0). Along the models learned with more and more iterations the log-likelihood converges, limits of subsequences exist, and each of them is a stationary point with this log-likelihood, left unchanged by one more iteration. The same holds for limits of the models learned with tolerances `epsilon` that tend to 0.",
"all Markov chains, all MDPs, all HMMs, all training sets with a possible trace, all numbers of iterations, all tolerances, all subsequences, all directions in which the probabilities can be moved",
"a statement about limits of infinitely many learned models and about all competing models",
[BW+":BW.fit", BW+":BW._bw", BW+":BW._processWork_MC", BW+":BW._update_MC", BW+":BW._processWork_MDP", BW+":BW._update_MDP", BW+":BW._processWork_HMM", BW+":BW._update_HMM"])
p("C100","What Baum-Welch converges to on timed traces",
"Learning a CTMC, no rate of which is fixed, from timed traces whose waiting times are positive: an iteration that changes a rate strictly increases the density of the training set, so a CTMC of maximal density is left unchanged; an iteration leaves the rates unchanged exactly when they are a stationary point of the log-density. With a positive tolerance `epsilon` learning ends without a limit on the number of iterations. No learned rate exceeds both the largest initial rate and the inverse of the least waiting time. Along the models learned with more and more iterations the log-density converges, limits of subsequences exist, and each of them is a stationary point with this log-density, left unchanged by one more iteration; and so for tolerances that tend to 0.",
"all CTMCs, all sets of timed traces with positive waiting times and a possible trace, all numbers of iterations, all tolerances, all subsequences, all directions in which the rates can be moved",
"a statement about limits of infinitely many learned models and about all competing models",
[BW+":BW.fit", BW+":BW._bw", BW+":BW._processWork_CTMC", BW+":BW._update_CTMC"])


p("C101","What print shows of a model",
"The text of a model (`print(model)`, `str(model)`) starts with its name and its initial distribution (the state of probability 1 if there is one, else the states of probability at least 0.001, rounded to three digits). Then each state has a section, with its label if states have labels, that lists exactly the transitions whose probability exceeds 0.0001 (for a CTMC: with the rates, after the expected waiting time, `inf` for an absorbing state), then for an HMM the observations whose probability exceeds 0.0001 and for a GoHMM the means and deviations of its distributions. The text of a parametric CTMC has one more line per parameter with a value (rounded to five digits) and an empty line after the name; the section of a state has the expected waiting time if all the parameters of its transitions have values, then one line per transition with its expression, followed by its value if it has parameters and all of them have values. So two models with the same text have the same name, states and labels, and differ at most in what is below the thresholds and in rounding; two parametric CTMCs with the same text have the same transitions with the same expressions.",
"all Markov chains, CTMCs, MDPs, HMMs, GoHMMs and parametric CTMCs of any size with finite numbers, all names, labels, actions and observations without line breaks",
"a statement about pairs of models of all sizes, and about texts in which names, labels and observations are arbitrary strings",
[M+":Model.__str__", MC+":MC._stateToString", CT+":CTMC._stateToString", MD+":MDP._stateToString", BH+":Base_HMM._stateToString", HM+":HMM._stateToString", GO+":GoHMM._stateToString", PM+":Parametric_Model.__str__", PC+":PCTMC._stateToString"])


p("C102","How often Alergia's compatibility test is wrong",
"The parameter `alpha` of Alergia bounds the errors of its test. When the training set is generated from a Markov chain or a hidden Markov model with `generateSet`: if two words that end with the same label have the same continuations with the same probabilities in the model, the states they reach in the prefix tree are declared incompatible with a probability of at most `2*alpha` for each word over the labels that the rest of the traces can contain. If the probability of some label after one word and after the other differ by at least `2*(sqrt(1/n1)+sqrt(1/n2))*sqrt(log(2/alpha)/2)`, where `n1` and `n2` are the numbers of training traces with these prefixes, the states are declared compatible with a probability of at most `2*alpha`. The same holds for `hoeffdingBound` on the counts of any two events among independent experiments.",
"all Markov chains and HMMs of any size with string labels, all numbers and lengths of training traces, all pairs of words, all alpha in (0,2]",
"a statement about probabilities: no finite number of runs can establish it, and the sizes of the compared samples are themselves random",
[T+":hoeffdingBound", AL+":PTA.compatible", AL+":Alergia.createPTA", M+":Model.generateSet"])


p("C103","With enough traces Alergia tells different pasts apart",
"When the training set is generated from a Markov chain or a hidden Markov model with `generateSet` and two words can be continued in the model with different probabilities, Alergia's test declares the states that they reach in the prefix tree incompatible as soon as the set is large enough, with probability one and for every `alpha`.",
"all Markov chains and HMMs of any size with string labels, all pairs of words that can occur, all alpha in (0,2], all sequences of random numbers outside a set of probability zero",
"a statement about arbitrarily large training sets and all sequences of random numbers but a negligible set",
[AL+":PTA.__init__", AL+":PTA.compatible", AL+":Alergia.createPTA", T+":hoeffdingBound", M+":Model.generateSet"])


p("C104","Only the proportions of the traces matter",
"Multiplying the multiplicities of all the traces of a training set by the same positive number changes neither the value of `logLikelihood` nor what Baum-Welch learns: every iteration gives the same model, the log-likelihood of the whole set that it reports is multiplied by that number, and with the tolerance multiplied by that number the number of iterations is the same. With the same tolerance it can be larger, since the tolerance is compared with a sum over the traces.",
"all training sets, all positive numbers, all models of every kind (MC, HMM, MDP, GoHMM, CTMC with timed or untimed traces and fixed rates, PCTMC with `fit` and `fit_parameters`), all tolerances, all numbers of iterations, all numbers of processes, failures included",
"an equality of two whole learnings for every training set and factor",
[BW+":BW.fit", BW+":BW._bw", BW+":BW.fit_parameters", M+":Model.logLikelihood", MD+":MDP.logLikelihood", CT+":CTMC.logLikelihood", S+":Set"])


p("C105","Learning can be interrupted and resumed",
"A learning stopped by `max_it` and started again from the model it returned continues the first one: it gives the model, the log-likelihood and (counting both) the number of iterations that a single learning with a larger `max_it` gives, provided the stopping test was not already met; if the learning had stopped by itself, a larger `max_it` changes nothing and a new learning makes at least one more iteration. With epsilon at most 0, `a+b` iterations are `a` iterations followed by `b`. The same holds when the intermediate model is saved to a file and loaded again.",
"all models of every kind, all training sets, all tolerances, all numbers of iterations, all numbers of processes, failures in any iteration included",
"an equality between two runs of any length",
[BW+":BW.fit", BW+":BW._bw", MC+":loadMC", MD+":loadMDP", CT+":loadCTMC"])
p("C106","Traces that the first model cannot generate do not count",
"A trace that a model cannot generate (probability or density 0) cannot be generated by any model learned from it by Baum-Welch, a trace of the training set that it can generate can still be generated by the model learned, and the traces of the training set that it cannot generate have no influence: two training sets in which the traces possible for the first model have the same multiplicities give the same learning.",
"all models (MC, HMM, MDP, CTMC with timed traces), all training sets, tolerances, numbers of iterations and of processes, all traces",
"an invariant of every learning, over all traces",
[BW+":BW.fit", BW+":BW._processWork_MC", BW+":BW._processWork_HMM", BW+":BW._processWork_MDP", BW+":BW._processWork_CTMC", BW+":BW._runProcesses"])


p("C107","The result of a learning does not depend on the machine",
"`fit` with the same traces, the same first model and the same options returns the same model, data, files and exception on every machine (any number of processors, any operating system), for every value of `processes` and of `verbose`. Never more processes than processors are used, and exactly the number asked for where that is possible. What is shown on the screen is what `verbose` asks for: nothing at level 0, warnings only at level 1, the progress bar from level 2, the recap at level 3; any other value is level 2.",
"all machines, all values of `processes` and `verbose`, all models (MC, HMM, MDP, CTMC with timed traces), training sets, tolerances and numbers of iterations",
"it compares runs on different machines; tests run on one",
[BW+":BW.fit", BW+":BW._preparation", BW+":BW._bw", BW+":BW._runProcesses", BW+":BW._endPrint"])


p("C108","One process, several kinds of model",
"The same process can be given as several kinds of model: a Markov chain is a hidden Markov model in which each state emits its own label, an MDP with one action, and the embedded chain of CTMCs. All of them give every trace (with the action written between the labels, for the MDP) the same likelihood, `run` has the same law, and learning from the same traces gives the same transition probabilities, number of iterations and reported value, or the same failure.",
"all Markov chains, hidden Markov models, MDPs with one action and CTMCs that are the same process, all training sets, numbers of processes, tolerances and numbers of iterations",
"it compares different classes of the library on all models; tests compare each class with fixed numbers",
["jajapy/mc/MC.py:MC.tau", "jajapy/hmm/HMM.py:HMM.tau", "jajapy/mdp/MDP.py:MDP.tau", "jajapy/ctmc/CTMC.py:CTMC.tau", BW+":BW._processWork_MC", BW+":BW._processWork_HMM", BW+":BW._processWork_MDP", BW+":BW._processWork_CTMC"])


p("C109","States that behave the same, states that cannot be reached",
"If every state of a model behaves like a state of another one (same label or emissions, and the probabilities or rates of going to the states that behave alike add up to those of the other model), the two models give every trace and every set of traces the same likelihood: splitting or merging states that behave the same changes nothing that can be observed. If one model is the other one without states that cannot be reached, learning from the same traces moreover gives the same parameters for the states they share, with the same number of iterations and reported value, or the same failure. (Learning can make states that behaved the same behave differently.)",
"all pairs of Markov chains, hidden Markov models, MDPs, CTMCs and GoHMMs, all maps between their states, all traces and training sets, numbers of processes, tolerances and numbers of iterations",
"it compares models of different sizes on all traces; tests use fixed models",
[M+":Model.logLikelihood", M+":Model._computeAlphas", "jajapy/ctmc/CTMC.py:CTMC._computeAlphas_timed", "jajapy/mdp/MDP.py:MDP._computeAlphas", BW+":BW._processWork_MC", BW+":BW._processWork_HMM", BW+":BW._processWork_MDP", BW+":BW._processWork_CTMC", BW+":BW._processWork_GoHMM", BW+":BW._update_MC"])


p("C110","Small errors in the parameters matter little",
"If the probabilities or rates of two models with the same structure agree up to a factor c, then the likelihood of every trace agrees up to c for each parameter that the trace uses (for timed traces moreover up to a factor exp((c-1) E d), E a bound of the exit rates and d the duration), the reported log-likelihood of a set differs by at most the mean number of parameters used times log c, and one iteration of Baum-Welch raises the same exception or gives models that agree up to a factor that depends only on c and on the longest trace: after any number of iterations the learnt models are as near as wanted if the first ones are near enough. If the rows of two Markov chains or hidden Markov models differ by at most a, the probabilities of all the traces with t+1 symbols together differ by at most t times a (plus the change of the initial distribution and of the emissions).",
"all pairs of Markov chains, hidden Markov models, MDPs and CTMCs, all factors, traces, training sets and numbers of iterations",
"it bounds the effect of every perturbation of every model on all traces; tests compare a few numbers",
[M+":Model.logLikelihood", M+":Model._computeAlphas", "jajapy/ctmc/CTMC.py:CTMC._computeAlphas_timed", "jajapy/mdp/MDP.py:MDP._computeAlphas", BW+":BW._processWork_MC", BW+":BW._processWork_HMM", BW+":BW._processWork_MDP", BW+":BW._processWork_CTMC", BW+":BW._update_MC"])


p("C111","Short traces tell models apart",
"Two models with m and n states that give the same probability to all short traces give the same probability to all traces, and logLikelihood returns the same value (or raises the same exception) for all sets. Short means: fewer than m+n symbols for Markov chains, hidden Markov models and untimed traces of CTMCs; fewer than m+n actions for MDPs; fewer than m+n waiting times for timed traces of CTMCs; at most m+n vectors for Gaussian observations. For Markov chains the bound is exact. The values of logLikelihood alone do not tell models apart, as impossible and certain traces count the same.",
"all pairs of models with any numbers of states, all traces and sets",
"the conclusion is about infinitely many traces of every pair of models; tests compare finitely many traces of a few models",
[M+":Model.logLikelihood", M+":Model._computeAlphas", "jajapy/ctmc/CTMC.py:CTMC._computeAlphas_timed", "jajapy/mdp/MDP.py:MDP._computeAlphas", M+":Model._logLikelihood_oneproc"])


p("C112","A longer trace continues a shorter one",
"Runs: with the same random draws, run(j) returns the first symbols of what run(k) returns for all k >= j, and raises an exception only if run(k) raises it (all kinds of models, timed and untimed). Likelihoods: the probability of a non-empty trace is the sum of the probabilities of its continuations by one symbol (MC, HMM, untimed CTMC; for MDPs by one action that is available in all states and one observation; the integral for Gaussian observations; for timed traces of CTMCs without absorbing states the sum over the next observation of the integrals over the next waiting time). So a longer trace is never more probable, a possible trace of a MC or HMM has a possible continuation, and keeping only the first symbols of the traces of a set of possible traces never lowers logLikelihood (MC, HMM, MDP). With impossible traces in the set it can.",
"all models, traces, lengths, random draws and sets of traces",
"the continuations of a trace are infinitely many, and for Gaussian observations and timed traces uncountably many",
[M+":Model.run", M+":Model.logLikelihood", M+":Model._computeAlphas", "jajapy/ctmc/CTMC.py:CTMC.run", "jajapy/ctmc/CTMC.py:CTMC._computeAlphas_timed", "jajapy/mdp/MDP.py:MDP.run", "jajapy/mdp/MDP.py:MDP._computeAlphas", "jajapy/mc/MC.py:MC.run", "jajapy/pctmc/PCTMC.py:PCTMC.run"])


p("C113","Sets of traces behave as values",
"Whatever sequence of constructors, addSet, sort (also called by logLikelihood) and fit is run on any number of Set objects, each call changes the object it is made on only, and what the objects contain and which calls raise is what it would be if the objects shared nothing.",
"all histories of calls on any number of Set objects, including calls that raise and addSet of a set to itself",
"sharing of the lists of traces shows only after a later call on another object, so it depends on the whole history",
["jajapy/base/Set.py:Set.__init__", "jajapy/base/Set.py:Set.addSet", "jajapy/base/Set.py:Set.sort", "jajapy/base/BW.py:BW._getTrainingSet", "jajapy/base/Model.py:Model.logLikelihood"])


p("C114","Parametric models behave as values",
"Whatever sequence of constructors, instantiate, randomInstantiation and synchronousCompositionPCTMCs is run on any number of parametric CTMCs, also with one dictionary of values given to several constructors, each call changes the model it is made on only, and what the models are and which calls raise is what it would be if the models shared nothing. The composition and its first component share their dictionary of values, but instantiating one of them does not change the other.",
"all histories of calls on any number of models and dictionaries, including calls that raise",
"sharing of a dictionary shows only after a later call on another model, so it depends on the whole history",
["jajapy/base/Parametric_Model.py:Parametric_Model.__init__", "jajapy/base/Parametric_Model.py:Parametric_Model.instantiate", "jajapy/pctmc/PCTMC.py:PCTMC.instantiate", "jajapy/pctmc/PCTMC.py:PCTMC.randomInstantiation", "jajapy/pctmc/PCTMC.py:synchronousCompositionPCTMCs", "jajapy/pctmc/PCTMC.py:synchronousComposition2PCTMCs"])


p("C115","An MDP under a scheduler is a Markov chain",
"Under a finite-memory scheduler or a uniform scheduler, the observations of the traces generated by MDP.run have the law of the traces generated by MC.run of one Markov chain: its states are the pairs of a state of the MDP and a memory state of the scheduler, its moves average the rows of the possible actions with the probabilities of the scheduler, renormalised to the actions possible in the state. The probability of a sequence of observations is the likelihood that this chain reports.",
"all MDPs, all finite-memory schedulers and lists of actions, all numbers of steps and sequences of observations",
"an equality of two probability laws over infinitely many draws, with an unbounded number of rejected proposals",
["jajapy/mdp/MDP.py:MDP.run", "jajapy/mdp/Scheduler.py:FiniteMemoryScheduler", "jajapy/mdp/Scheduler.py:UniformScheduler", "jajapy/mc/MC.py:MC", "jajapy/base/Model.py:Model.run"])


p("C116","How often IOAlergia's test is wrong",
"IOAlergia merges two states of the prefix tree when a test says that they respond in the same way to the actions. On a training set generated by an MDP under a scheduler, two states that do respond in the same way are declared different with a probability of at most 2*epsilon for each sequence of actions and observations that fits in the rest of the traces; two states after which an observation has clearly different probabilities (more than twice the bound of the test) are declared compatible with a probability of at most 2*epsilon.",
"all MDPs, uniform and finite-memory schedulers, pairs of histories, values of epsilon, numbers and lengths of traces",
"a bound on the probability of an error over all random training sets of any size; the sizes of the samples that the test compares are themselves random",
["jajapy/mdp/IOAlergia.py:IOAlergia.fit", "jajapy/mdp/IOAlergia.py:IOFPTA.compatible", "jajapy/mdp/IOAlergia.py:IOFPTA.hoeffding", "jajapy/mdp/MDP.py:MDP.generateSet"])


p("C117","With enough traces IOAlergia tells different responses apart",
"On a training set generated by an MDP under a scheduler, if after one history and after another one the same actions can be followed by an observation with different probabilities, IOAlergia's test declares the states that they reach in the prefix tree incompatible as soon as the set is large enough, with probability one and for every epsilon.",
"all MDPs, uniform and finite-memory schedulers, pairs of histories, values of epsilon, lengths of traces; all sufficiently large numbers of traces, for almost every sequence of random numbers",
"a statement about the limit of an infinite sequence of random training sets",
["jajapy/mdp/IOAlergia.py:IOAlergia.fit", "jajapy/mdp/IOAlergia.py:IOFPTA.compatible", "jajapy/mdp/IOAlergia.py:IOFPTA.hoeffding", "jajapy/mdp/MDP.py:MDP.generateSet"])


p("C118","How precise an evaluation on N generated traces is",
"On a set of N traces generated by a model, the proportion of a trace is within t of its probability with a probability of at least 1 - 2 exp(-2 N t^2). The log-likelihood of any model on that set is within t of its expected value with a probability of at least 1 - 2 exp(-2 N t^2 / B^2), where exp(-B) is a lower bound of the likelihoods it does not give as 0. The generating model has a larger log-likelihood than a different model, for which its traces are possible, with a probability that tends to 1 exponentially fast with N.",
"all sizes of the set, all precisions, all generating Markov chains, hidden Markov models and MDPs with a uniform or finite-memory scheduler, all evaluated models, lengths of traces",
"a bound on the probability of a bad sample, for every size; a test only sees one sample",
["jajapy/base/Model.py:Model.logLikelihood", "jajapy/base/Model.py:Model.generateSet", "jajapy/mdp/MDP.py:MDP.generateSet", "jajapy/mdp/MDP.py:MDP._logLikelihood_multiproc", "jajapy/mc/MC.py:MC.run", "jajapy/base/Model.py:Model.run", "jajapy/mdp/MDP.py:MDP.run"])


p("C119","How precise what BW().fit learns from N generated traces is",
"A model whose states have pairwise different labels generates N traces and BW().fit starts from a model with the same labels for which these traces are possible. For an MDP, after at least one iteration, the learned probabilities of all transitions for an action x in a state s are within t of those of the generating model with a probability of at least 1 - 2 n exp(-2 N (t v)^2 / steps^2), where v is the mean number of times that a trace does x in s; for several pairs of a state and an action, the failures are added. For a Markov chain, after k iterations, a learned probability is within t + (r + u)^k, where r is the proportion of the visits of the state that are at the end of a trace, with a probability of at least 1 - 2 exp(-2 N (t leave)^2 / steps^2) - exp(-2 N (u visit)^2 / (steps + 1)^2).",
"all sizes of the set, all precisions, all generating and initial models as described, schedulers (uniform, finite-memory), lengths of traces, stopping thresholds, iteration budgets and numbers of processes above 1",
"a bound on the probability of a bad sample, for every size; a test only sees one sample",
["jajapy/base/BW.py:BW.fit", "jajapy/base/BW.py:BW._processWork_MC", "jajapy/base/BW.py:BW._processWork_MDP", "jajapy/base/Model.py:Model.generateSet", "jajapy/mdp/MDP.py:MDP.generateSet"])


p("C120","Learned models compared on a test set generated after the training set",
"A model generates N traces, then N' further traces. Several models are learned from the first set, for instance by BW().fit from several initial models of any sizes, and their log-likelihoods are computed on the second set. With a probability of at least 1 - 2 k exp(-2 N' t^2), where k is the number of learned models, all these log-likelihoods are within t B of the log-likelihoods on unlimited data, where B is the larger of 1 and minus the logarithm of the smallest likelihood other than 0 that the learned model gives to a trace. Therefore the model with the largest log-likelihood on the second set is, on unlimited data, not much worse than the others. That the models depend on the random first set makes no difference.",
"all sizes of the two sets, all precisions, all generating models, numbers and sizes of initial models, schedulers (uniform, finite-memory), lengths of traces, stopping thresholds, iteration budgets and numbers of processes; also all other ways of learning a model from the first set",
"a bound on the probability of a bad sample, for every size and every learner; a test only sees one sample",
["jajapy/base/Model.py:Model.generateSet", "jajapy/mdp/MDP.py:MDP.generateSet", "jajapy/base/Model.py:Model.logLikelihood", "jajapy/base/BW.py:BW.fit"])


p("C121","The parameter alpha of Alergia chosen on a test set generated after the training set",
"A Markov chain whose traces start with 'init' generates N traces, then N' further traces. Alergia().fit is called on the first set with k values of alpha. Each call returns a Markov chain that can generate every trace of the first set. With a probability of at least 1 - 2 k exp(-2 N' t^2), the log-likelihoods of all k chains on the second set are within t B of the ones on unlimited data, where exp(-B) is the smallest likelihood other than 0 that the chain gives to a trace. Therefore the value of alpha with the largest log-likelihood on the second set is, on unlimited data, not much worse than the others.",
"all sizes of the two sets, all precisions, all generating Markov chains over nonempty labels that start in 'init', all numbers of values of alpha and all values in (0, 2], all lengths of traces and numbers of processes",
"a bound on the probability of a bad sample, for every size and every generating chain; a test only sees one sample",
["jajapy/mc/Alergia.py:Alergia.fit", "jajapy/base/Model.py:Model.generateSet", "jajapy/base/Model.py:Model.logLikelihood"])


p("C122","Any model can be given to Storm, and a Storm model to the learner",
"jajapyModeltoStormpy converts every MC, CTMC, MDP and every PCTMC whose parameters have values; it raises a ValueError for the other PCTMCs and a TypeError for HMMs and GoHMMs. The method toStormpy is the same conversion, with a RuntimeError if stormpy is not installed. stormpyModeltoJajapy gives the model back, for a PCTMC the CTMC of its rates. BW().fit with a Storm model as initial_model starts the learning from the model that the Storm model was made from, as if this one had been given; in particular the Storm model that a call of fit returns can be given to the next call.",
"all models of the six classes, sizes, labels, values of the parameters, orders of Python's sets, and for the second part all training sets, thresholds and iteration budgets",
"a statement about every model of every class; a conversion that fails for one class or one structure is not seen on the models of a test",
["jajapy/base/Base_MC.py:Base_MC.toStormpy", "jajapy/with_stormpy/model_converter.py:jajapyModeltoStormpy", "jajapy/with_stormpy/model_converter.py:stormpyModeltoJajapy", "jajapy/base/BW.py:BW._getInitialModel"])


p("C123","Number of iterations of the active learning",
"Active_BW_MDP().fit reports as learning_rounds the number of all Baum-Welch iterations: those of the first training, on the given set, and of the training of each round, on the given set and all traces sampled so far if lr is 0, otherwise on the traces sampled in this round. It stops after at most max_it iterations. With epsilon > 0 it ends also without max_it, and with lr=0 it returns a model if the initial model can generate one trace of the given set.",
"all initial models, training sets, learning rates, numbers of rounds, sampled traces, thresholds and iteration budgets",
"the number of iterations and the end of the learning depend on the traces sampled in all rounds; a test runs a few rounds on one system",
["jajapy/mdp/Active_BW_MDP.py:Active_BW_MDP.fit", "jajapy/base/BW.py:BW._bw"])

out = os.path.join(os.path.dirname(__file__), "..", "properties.jsonl")
with open(out, "w") as f:
    for q in P: f.write(json.dumps(q) + "\n")
assert len({q["id"] for q in P}) == len(P)
print(len(P))
