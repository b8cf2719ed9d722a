# Formal model of jajapy: design

## Layout

* `properties.jsonl` — the properties (C01, C02, …) in English (written by `scripts/gen_properties.py`).
* `lean/Verif/Model/*.lean` — the model of the code, function by function, each definition citing file and lines of `/repo`.
* `lean/Verif/Spec/*.lean` — small specifications, written independently of the model (paths, multiset counts, …).
* `lean/Verif/Lemmas/*.lean` — helper lemmas.
* `lean/Verif/Props/*.lean` — the property theorems, each followed by a non-vacuity `example`.
* `MANIFEST.json` — property → theorem names. `seeded/LOG.jsonl` — log of seeded bugs.

## Modelling decisions

* **Numbers.** Python/numpy floats are modelled by the elements of an arbitrary linearly ordered field `K`
  (so the model runs on `ℚ` and the theorems hold for `ℚ` and `ℝ`), and by `ℝ` where `exp`/`log` occur.
  Rounding errors, overflow, underflow, `inf` and `nan` are *not* modelled, except that a division whose divisor may
  be 0 is modelled by an explicit error/`nan` branch where the code's behaviour depends on it.
* **Arrays.** A numpy array of shape (n,m) is a function `Fin n → Fin m → K`; where shape errors matter (constructors,
  creation functions, files) nested lists are used. The table filled by a loop over the positions of a trace is the
  list of its rows.
* **Exceptions** are values of `Except Err _`.
* **Randomness.** `random()` is an argument: a draw `r`, or a stream of draws. Properties quantify over all draws.
  Statements about probabilities use Lebesgue measure on the draws (C22, C63, C83) or the exponential law (C82, C92, C94, C95, C96).
  `numpy.random.exponential(scale)` is modelled as `scale` times a standard exponential draw.
* **Mutation.** A method that changes `self` or an argument returns the new value of everything it changes.
  Where aliasing between objects matters (toMC, Active_BW_MDP) a small heap is modelled.
* **Processes.** `multiprocessing.Pool` is modelled as evaluating the tasks on copies and returning the results in task order.
* **Files.** A file is the list of characters written; `str`/`repr` and `ast.literal_eval` are modelled for the values that are saved.

## Plan per property

| property | model | proof |
|---|---|---|
| C01 | `resolveRandom` as list recursion on cumulative sums, draw as argument | case analysis by induction; Lebesgue measure of the preimage |
| C02, C03 | `normalize`, `randomProbabilities`, `checkProbabilities` with round-half-even on exact numbers | algebra |
| C04 | `hoeffdingBound` over ℝ | algebra, monotonicity of log/sqrt |
| C05–C10 | `Set` as lists of traces and multiplicities | induction, counting |
| C11, C12, C17 | printer `repr` and parser `literal_eval` over characters, file save/load | round-trip and prefix lemmas on the parser |
| C13–C16, C18 | constructors and creation functions with explicit errors and mutated arguments | case analysis, list lemmas; negation by witness where the code mutates arguments (C15, C18) |
| C19–C24 | `tau`, `next`, `run`, `generateSet` with draws as arguments | induction on the number of steps; measure of the draws for C22 |
| C25–C31 | likelihood functions (one/multi process, discrete/timed) | induction on the trace: forward table = path sum; cache invariant for the one-process version |
| C32–C42 | Baum-Welch per model type: tables, per-trace statistics, update, loop | path-sum lemmas, log-sum inequality for monotonicity, invariants over iterations |
| C58 (HMM and GoHMM with one state) | the iteration of C58 with one state | every path stays in the state, so the expected counts are sums over the data. HMM: relative frequencies after one iteration. GoHMM: mean of the data after one iteration, standard deviation of the data after two; the third (HMM) or fourth (GoHMM) iteration gains nothing, so the loop ends |
| C36 and C39 (one state) | the learning of C58 with one state | a step from any other one-state model does not decrease its likelihood (C36, C39) and ends in the same model (C58), so the learned model has maximal likelihood |
| C58 and C33, C34 (PCTMC) | one iteration of the estimation of parameters | the update of a parameter equals the estimate of `Spec/PIter.lean`, written with posterior probabilities of state paths; rates stay non-negative and absent transitions absent |
| C43, C44 | training set preparation and compatibility test | idempotence, full decision table |
| C45–C48 | expressions as syntax trees, PCTMC functions, pruning, composition | structural induction, index-shift invariants |
| C49–C51 | Alergia's tree and red/blue loop | invariants, termination measure |
| C52 | IOAlergia's tree and conversion | witness for the wrong action index; partial theorem when all actions are allowed |
| C65–C68 | IOAlergia's tree, test, merging and loop on a store of numbered states | graph invariants kept by every merge (acyclic part, red part), exact meaning of the test, counting of prefixes; witnesses for the disagreements |
| C53–C55 | active scheduler, merging of models, finite memory scheduler | algebra, folds; witness for aliasing |
| C56, C69, C70 | Storm sparse model as data (labels, rows of entries, exit rates), the two conversions | round trip algebra; invariant of the loop that collects parameters; path sums for the added state; witnesses for the order of a Python set |
| C48 (PCTMC), C71 | the composition of parametric CTMCs, with the default argument of the constructor as an explicit state and the iteration orders of sets as parameters | invariant of the matrix under construction (one expression per cell), refinement to a product of systems for every valuation; witnesses of history dependence |
| C72–C75 | the estimation of parameters: powers, categories, per-trace sums, new values (closed form, or greatest root of a polynomial), loop, reduction of the model | the rates after an iteration are the old ones times powers of the factors of the parameters; weighted arithmetic-geometric inequality for the gain; invariants over iterations; witnesses |
| C76, C77 | `savePrism` of all model types: the characters of the file. Specification: a lexer and a parser of the part of the Prism language that is used, the meaning of a program, and what Storm builds from it (states that can be reached in any numbering, labels, deadlocks) | the words and then the commands are read back by induction over the rows and the labels; the built model is the restriction of the given one to the reachable states, then C70; sums over an injective renumbering |
| C78 | `fit` on a PCTMC: the tables of `_computeAlphas_timed_matrix` and `_computeBetas_timed_matrix` with their lengths, numpy products with repetition of arrays of length 1, the update of constants | lengths of the tables; on traces with one dwell time equality with the iteration of C72 when no label repeats, then C72; counterexample by calculation; the frame by an invariant of the loop |
| C79 | the end of `_bw`: options, the two files, the Storm conversion, the returned data, on top of the loop of `fit` and the texts of C53, C54, C76 | invariants of the loop (rows, labels, absorbing states) that meet the hypotheses of the round trips |
| C80 | the ends of `fit` of Alergia, IOAlergia and Active_BW_MDP: files, Storm conversion, returned data, a list instead of a set, the default length of the samples | on top of C50, C54, C62, C66, C79; probabilities of the Storm model from a state by linearity |
| C81 | the iterations of Baum-Welch on models with distinct labels, against counts read off the traces (Spec/Observable) | the tables on a trace that determines its path; closed form of the iterates of a MC; Gibbs' inequality row by row for the largest likelihood |
| C82 | `next` and `run` of a CTMC over independent exponential draws (Spec/Clocks: product measures of Mathlib's exponential law) | conditioning on the clock that wins (Fubini), induction on the steps; the constant 1024 of the missing transitions is part of the law |
| C83 | `run` of an MDP with the uniform scheduler and with finite-memory schedulers over independent uniform draws; the specification (Spec/MDPSim) is a randomised policy with memory and a sum over paths | the set of draws that return a trace is the fixpoint of a retry equation; its measure is solved for (rejection sampling), then induction on the steps; a scheduler object is related to its policy by `Behaves` |
| C84 | `generateSet` called on the simulators of C22, C82, C83; Spec/Streams: the random numbers of the calls are independent (`callsLaw`); Spec/Geometric: the law of `numpy.random.geometric` | the counts of C23 turn the set into a sum of indicators; binomial law of independent events; strong law of large numbers (Mathlib) for every trace of a countable set; for MC and HMM the calls read blocks of one sequence (`blocks_law`: the blocks of a sequence of independent numbers are independent); for the MDP, whose calls read a random number of draws, Lemmas/StopStream: the result of a call is independent of the draws that are left (the strong Markov property of a sequence of independent numbers), Spec/GenerateOne says which draws each call reads |
| C85 | `generateSet` followed by `_logLikelihood_multiproc` on the generated set; Spec/Evaluation: expected logarithm of the likelihood | the proportions of C84 and the average of C25 give the limit for all models at once; likelihoods of the traces of one length sum to 1 (law of the simulator); strict Gibbs inequality from log x <= x-1 for the ranking; a one-state chain for the violation |
| C86 | `generateSet` followed by `fit` on the generated set, for MC and MDP; Spec/Consistency: expected counts | closed form of `fit` for observable states (C81), proportions of C84 give the limits of the counts, expected counts by induction on the length of the traces, their quotient is the probability in the generating model |
| C87 | the five classes, `logLikelihood`, `fit`; Spec/Renaming: when a model is the renamed version of another one | the recursions commute with a permutation of the states, sums over states are invariant; both runs of the loop advance together (`fit_same`) |
| C88 | CTMC (timed) and GoHMM; Spec/Renaming with scale factors | densities are scaled by a constant per symbol, which cancels in the normalised counts; the loop only compares differences of log-likelihoods, which are unchanged |
| C89 | Model/IOAlergiaRun: `runSeq` | at any visited configuration every state has at most one successor per action and observation, so the greedy loop decides readability; `runSeq_kept` from the fact that merging keeps all runs (the invariant of C65-C68) |
| C90 | Model/GoHMM: `run` with uniform and standard normal draws; Spec/GoHMMSim: the law of the draws (`goLaw`), the law of an observation (product of `gaussianReal`) | induction on the number of steps over the product measure; density of `gaussianReal`, then a pi-system argument from boxes to all measurable sets |
| C91 | `generateSet` on the simulator of C90, then `_logLikelihood_multiproc`; Spec/GoHMMEval: expected logarithm of the likelihood as an integral | binomial law and strong law of large numbers for the calls; integrability of the logarithm of the likelihood from a quadratic bound and the moments of normal laws; strict Gibbs inequality with the continuity of the likelihood |
| C92 | `generateSet(timed=True)` on the timed simulator of C82, then `fit`; Spec/ConsistencyCTMC: reachable states, the rate shown by the simulator | closed form of `fit` for observable states (C81); the expected number of jumps and the expected time along a simulated path, both by induction on the steps, have the quotient of the expectations of one step; strong law of large numbers |
| C93 | Model/StateArgs: `_checkStateIndex` and every method with a state argument, on values of every kind, with Python's and numpy's indexing; Spec/StateArgs: the documented exceptions | case analysis on the argument; the methods without a check are shown to count from the end |
| C94 | `PCTMC.next`, `run`, `run(timed=True)` over the draws of C82 (Spec/Clocks, Spec/PCTMCSim) | conditioning on the clock that wins among those of positive rate (Lemmas/RaceFree), then as C82 on the CTMC of the evaluated rates |
| C95 | `generateSet(timed=True)` on the simulator of C82, then `logLikelihood` of any CTMC; Spec/TimedEval: the expected logarithm of a density | the returned trace as a random variable (Lemmas/TimedLaw: its times have the density of the model on every sequence of observations); the density is continuous, positive everywhere or zero, with a logarithm bounded by an affine function of the times (Lemmas/TimedDensity); strong law of large numbers; Gibbs' inequality for densities |
| C96 | `generateSet(timed=True)` on the simulator of C94, then `PCTMC.logLikelihood`; Spec/PCTMCEval: a set of traces as the simulator writes it | as C95, on the CTMC of the evaluated rates; the traces of positive probability are those of positive density |
| C97 | `fitParameters` of C72; Spec/PLearn: observed and expected numbers of uses of a parameter, from the counts and times of Spec/Observable | each iteration multiplies the value by the solution of a balance equation (Lemmas/PStep, PUpdate); with pairwise different labels the expected counts are the observed ones and do not depend on the iteration; monotonicity of the equation; concavity of the log-likelihood |
| C98 | `generateSet(timed=True)` on the simulator of C94, then `fitParameters` | Lemmas/Walker: the law of large numbers for the times and jumps of a walk given by its steps; the root of a converging sequence of increasing functions converges |
| C99 | `fit`, `stepMC`, `stepMDP` and `stepHMM` as in C33-C41; Spec/Stationary: the model moved in a direction, stationary points | the gain of an iteration bounds the squared distance it covers ((√a-√b)² ≤ a·log(a/b)-a+b), so it is 0 only at fixed points; the gains of a bounded increasing sequence tend to 0 (Lemmas/Climb); the distance is continuous in the model; the log-likelihood lies above a function with the same value and a known derivative |
| C100 | `fit` and `stepTimed` as in C33-C41; Spec/Stationary | as C99; the density of a trace is bounded over all rates because E·exp(-Et) ≤ 1/t |
| C101 | Model/Print, Model/PrintPCTMC: the text as a list of characters; Spec/Print: lines of a text, section of a header, form of the lines | the text is a list of lines without line breaks (`Block`); cutting a line at its first or last separator gives back the numbers and names |
| C102 | the models of C49, C61, C84; Spec/AlergiaError: `Answers`, `SameFutures` | Hoeffding's inequality for a frequency whose denominator is random (Lemmas/Hoeffding): sum over the set of the calls in which the prefix occurs, exponential Markov inequality and Hoeffding's lemma for each; union bound over the words that are compared |
| C103 | the models of C49, C61, C84, C102; Spec/AlergiaLimit: `Noticed` | exact description of the alphabet of the prefix tree by induction over the sorted traces; law of large numbers for every prefix (countably many), so that the frequencies converge and the bound of the test tends to 0; the test ends and answers by C61. Violated in general (labels that are not in the alphabet are not followed): witness chain with two traces, partial theorem for noticed labels |
| C104 | the models of C17, C32-C40, C46, C58, C79 | the sums of a trace are multiplied by the factor, the quotients (and the roots of the polynomials of the PCTMC update) are not changed; the loop by induction on the iterations left |
| C105 | the loop of `BW.fit` for any iteration step, with the steps of the models of C32-C40; the files of C20-C23 | `loop` with fuel `a+b` is `loop` with fuel `a` then `b`; saved files by the round-trip theorems |
| C106 | the models of C17, C32-C40 | zero transitions stay zero, so the support of the likelihood shrinks at each iteration; an impossible trace contributes nothing to the sums collected |
| C107 | Model/Launch: the arguments `processes` and `verbose`, the machine, what is shown; Spec/Launch: the documented levels | the iterations agree for any two numbers of processes as long as the traces stay possible (C106); case analysis on the level |
| C108 | Spec/Kinds: when two models of different classes are the same process, the traces with the action written between the labels | the interface of the two models is equal; the counts of an iteration are compared worker by worker (the last step of a trace is split off for MDPs) |
| C109 | Spec/Folding: what it means that states of a model behave like states of another one (`Folds`), for the five classes | forward tables are the sums of the tables of the other model, by induction on the trace; for injective maps also the backward tables and the counts of every worker |
| C110 | Spec/Near: numbers and models that agree up to a factor; k iterations of the learning (`rounds`) | the relation is kept by sums, products and quotients; forward and backward tables by induction on the trace, counts and quotients from them; absolute errors by induction on the length, summing over the words |
| C111 | the likelihoods of C25–C31 (lik, density), no new vocabulary | the forward vectors of both models together live in a space of dimension m+n; the spans of the vectors reached by words of length at most k stop growing before the dimension (Lemmas/Short); a path with a late label shows that the bound is exact |
| C112 | Spec/Continues: a run that continues a shorter one; the set of the first symbols of the traces | induction on the number of steps for the simulators; sums and integrals of the last factor of the path sums for the likelihoods |
| C113 | Model/SetHeap: a memory with traces, lists of traces and `Set` objects that refer to them; Spec/SetHeap: the same calls on values | refinement: an invariant (no list belongs to two sets) and induction on the history |
| C114 | Model/PHeap: a memory with dictionaries of values and models that refer to them; Spec/PHeap: the same calls on values | refinement: an invariant (each variable holds a model of its own) and induction on the history; the composition keeps the values of its first component |
| C115 | the models of C22 and C83; Spec/Product: the product of a model and a scheduler | the event is the disjoint union over the sequences of actions (determinism of `run`), each of which has the law of C83; induction on the observations turns the sum into the likelihood of the product chain |
| C116 | Model/IOAlergia, Model/Tools, the set generated by an MDP (C84) | the numbers that the test compares are the numbers of traces with a prefix; the probability of a prefix is that of a shorter run (C112); Hoeffding's bound for samples of random size (C102) and a union bound over the continuations |
| C117 | as C116 | the strong law of large numbers for the prefixes (C84) and the limit of the test (C103): the difference of the frequencies has a positive limit, the bound tends to 0 |
| C118 | as C84 and C85 | Hoeffding's inequality for the independent calls of `run`, for the function that maps a trace to its log-likelihood; transferred to one sequence of random numbers as in C84 |
| C119 | as C86 and C118 | the learned probabilities are ratios of counts (C81); Hoeffding's inequality for the difference of the numerator and the multiple `p + t` of the denominator, in both directions |
| C120 | as C118, with two sets generated one after the other; the learner is an arbitrary function of the first set | the calls after the first `N` have the law of all calls and are independent of the first `N` (`Lemmas/Fresh.lean`), and a generated set is a function of finitely many calls; C118 for every value of the first set, then a sum over these values, of which there are finitely many |
| C121 | as C120; the learner is the model of `Alergia.fit` with the Hoeffding test, for several values of `alpha` | C120 for this learner; its result exists and can generate the training set by the theorems on Alergia, and its likelihoods are between 0 and 1 because its rows sum to 1 or are 0 |
| C122 | the dispatch of the conversions on a type of all models (`Model/StormCalls.lean`) and `_getInitialModel` | case analysis on the class, with the round trips of C56, the conversion of C46 and the results of C79 |
| C123 | the loop of C54 with the variable `counter` (`Model/ActiveCount.lean`) | induction on the rounds; the bound and the end of each training from C41, possible traces stay possible by C106 |
| C63, C64 | the scheduler's vector, the sampling loop and the count table | induction on executions, product measure of two draws |

None of the listed properties is considered inexpressible. What a model of this kind cannot exhibit is floating-point
rounding, the operating system's processes and the Storm library itself.

## What is modelled

| file of /repo/jajapy | modelled in | not modelled |
|---|---|---|
| base/tools.py | Model/Tools | — |
| base/Set.py | Model/TSet, Model/SetHeap (sharing), Model/Files (`save`, `loadSet`) | — |
| base/Model.py | Model/Base, Model/Generate, Model/MC, Model/StateArgs, Model/Print | `rename` |
| base/Base_MC.py, base/Base_HMM.py | Model/Base, Model/Create, Model/Prism, Model/Print, Model/StormCalls (`toStormpy`) | — |
| base/Parametric_Model.py | Model/PCTMC, Model/PReduce, Model/PFiles, Model/PrintPCTMC | — |
| mc/MC.py, hmm/HMM.py, mdp/MDP.py, mdp/Scheduler.py, ctmc/CTMC.py, gohmm/GoHMM.py | Model/MC, Model/MDP, Model/CTMC, Model/GoHMM, Model/Create, Model/Files, Model/Prism, Model/Print | — |
| ctmc/CTMC.py `synchronousCompositionCTMCs` | Model/Compose | — |
| pctmc/PCTMC.py | Model/PCTMC, Model/PReduce, Model/PFiles, Model/CreatePCTMC, Model/PCompose, Model/PHeap (sharing of the dictionaries of values), Model/Prism, Model/PrintPCTMC | — |
| mc/Alergia.py | Model/Alergia, Model/FinishOthers | `pprint` |
| mdp/IOAlergia.py | Model/IOAlergia, Model/IOAlergiaRun, Model/FinishOthers | `__str__` |
| mdp/Active_BW_MDP.py | Model/Active, Model/FinishOthers, Model/ActiveCount | the time in the returned data, the files of a call that raises an exception, the preparation of traces without 'init' |
| with_stormpy/model_converter.py | Model/Storm, Model/StormCalls | Storm's parser and model builder (`loadPrism` is `stormpyModeltoJajapy` on what they return), the reward model of `MDPtoStormpy` |
| base/BW.py | Model/BW, Model/MDP, Model/CTMC, Model/GoHMM, Model/Prep, Model/BWPCTMC (`fit_parameters`), Model/PFit (`fit` on a PCTMC), Model/Finish and Model/FinishPCTMC (output files and returned value), Model/Launch (`processes`, `verbose`, what is shown) | the text of the progress bars, running times, what is printed for PCTMCs |

Simplifications are stated in the comment of the definition concerned.

## Contracts: what is assumed of the libraries

* `random()` returns a number in [0,1); `expovariate`, `gauss`, numpy's `exponential`, `randint` return any value of their range.
* Different calls of `random()` return independent numbers; so do the calls of `geometric` (C84).
* `numpy.random.normal(mu, sigma)` returns `mu + sigma z` where the `z` are independent standard normal numbers (C90, C91).
* `FloatIO` (Model/Files.lean): `repr` of a finite float is a numeral that `literal_eval` reads back as the same float.
  `decIO` is an instance.
* `RoundIO` (Model/Print.lean): `round(x,d)` of a finite float is a finite float at most `10^-d` away. `decRound` is an instance.
* `SymIO` (Model/PrintPCTMC.lean): the text of a sympy expression satisfies `ExprIO` and has no line break and no `=`; the text of
  `round(x,5)` for a sympy number shows a number at most `10^-5` away. `polySym` is an instance.
* `ExprIO` (Model/PFiles.lean): `sympify` reads back the expression that sympy's `str` printed, for the expressions of a domain
  that is a parameter of the contract.
* sympy's `evalf(subs=...)` is the evaluation of the syntax tree (`Expr.eval`); an expression with a symbol without a value
  stays symbolic, and using it as a number raises TypeError.
* `args` of a sympy product or sum are its terms, here from left to right; `polyroots` returns the complex roots of the
  polynomial with multiplicities, none for a constant; Python's `max` on numpy complex numbers is lexicographic (Model/BWPCTMC).
* numpy: storing an index in an array of type `uint8`/`uint16` is reduction modulo 256/65536 (numpy before 2.0; numpy 2 raises
  OverflowError instead).
* `multiprocessing.Pool(p).starmap/apply_async` returns the results of the tasks, in task order, on copies of the arguments;
  `Pool(0)` raises ValueError.
* stormpy keeps the labels, entries and exit rates it is given; `build_sparse_matrix` stores the entries that are not 0.
* Prism files: the Prism language is the one of Spec/Prism.lean (identifiers, reserved words, numbers, `^` for powers as in
  Storm); `repr` of a positive float is a decimal numeral with a fraction or an exponent (`Decimal`; `dec_decimal` for `decIO`);
  the text of a sympy rate, with `**` replaced by `^`, is read as the expression (`TextOf`). Storm builds a model with the
  properties `Built` / `BuiltMDP` / `BuiltP` (parametric models; the entries are any expressions with the right values).
* `list.sort` and `sorted` are `List.mergeSort`; iteration over a `set` of strings has an arbitrary order, and the model takes
  one order only where the result does not depend on it.

## Disagreements between the code and the properties

Each line is proved of the model by the theorem named.

| property | what the code does | theorem |
|---|---|---|
| C07 | merging into an empty Set makes the multiplicities floats, and `to_list` raises | `addSet_into_empty_breaks_toList` |
| C08 | `isEqual` is not symmetric on sets that store a trace twice | `isEqual_not_symmetric_with_duplicates` |
| C11 | a set with float multiplicities is saved as text that cannot be loaded | `Files.loadSet_float_times` |
| C12 | a set file cut inside the last multiplicity loads with a wrong multiplicity | `Files.loadSet_cut_multiplicity` |
| C13 | an HMM accepts an initial distribution of sum 1.3 or of a wrong length; negative entries pass the row test | `Create.hmm_accepts_bad_sum`, `Create.hmm_accepts_bad_length`, `checkProbabilities_accepts_negative` |
| C14 | the initial state is a position, not an id; a gap in the ids of a PCTMC redirects transitions; `createGoHMM` always raises | `Create.createMC_wrong_initial_state`, `CreatePCTMC.createPCTMC_gap_enters_init`, `Create.createGoHMM_always_raises` |
| C15 | creation functions append 'init' to the caller's list; the second call raises | `Create.createMC_not_repeatable` and the like |
| C16 | docstrings: integer exit rates, deterministic MDP | `Create.CTMC_random_exit_rate_not_integer`, `Create.MDP_random_initial_not_deterministic` |
| C17 | `save` drops the synchronous transitions of a PCTMC; a line break in a name makes another model load; `loadCTMC` accepts an MC | `Files.loadPCTMC_loses_sync`, `Files.loadMC_name_on_several_lines`, `Files.loadCTMC_accepts_MC` |
| C18 | `updateLabelling` keeps the old initial distribution and does not check the length | `Create.updateLabelling_inconsistent`, `Create.updateLabelling_wrong_length` |
| C20 | `MDP.run` loops for ever in a state without actions | `MDP.stuckMDP_diverges` |
| C21 | `CTMC.next`: absorbing states jump to state 0; a transition of rate 0 can win the race | `CTMC.next_absorbing`, `CTMC.next_impossible` |
| C24 | `MemorylessScheduler` cannot be used with `run` | `memorylessScheduler_breaks_run` |
| C29 | impossible traces are dropped, so that an impossible model gets the log-likelihood 0 | `impossible_scored_perfect` |
| C85 | on data of any non-deterministic chain, the one-state chain with a label that never occurs has a larger `logLikelihood` than the generating chain (traces of likelihood 0 are skipped) | `MC.evaluation_prefers_impossible`, `exMC_prefers` |
| C86 | with a fixed number of iterations a Markov chain learned from generated data keeps a bias towards the initial model, however large the set is | `MC.learning_limit`, `exMC_learning_bias` |
| C88 | the unit of the observations matters for a Gaussian state that is not visited (the square root of its standard deviation is taken), for a standard deviation 0 (weight 1 in every unit), and the unit of the rates for a CTMC learned from untimed traces | `GoHMM.units_matter`, `GoHMM.units_matter_zero`, `CTMC.units_matter_untimed` |
| C89 | `runSeq(trace)` is documented for traces, but a trace with its first observation is never accepted; a last action without observation raises IndexError if the action is possible | `IOAlergia.runSeq_training`, `IOAlergia.runSeq_odd` |
| C92 | from data of a CTMC without loops at state 0, a loop of rate `q exp(-1024 q)/(1-exp(-1024 q))` is learned | `CTMC.shownRate_zero`, `CTMC.twoRates_learned` |
| C93 | `MC.next`, `MDP.next`, `HMM.next` return a numpy integer, which `a`, `tau` and `getLabel` refuse | `MC.next_refused`, `MDP.next_refused`, `HMM.next_refused` |
| C93 | `pi`, `next`, `next_obs`, `next_state`, `run(…, current)`, `getActions`, `GoHMM.b`, `GoHMM.mu`, `transitionExpression` answer about another state for a negative number | `MC.pi_countsFromEnd`, `MC.next_countsFromEnd`, `MC.runFrom_negative`, `MDP.getActions_negative`, `GoHMM.b_negative`, … |
| C93 | `CTMC.lkl(s, t)` with `t < 0`, `PCTMC.tau("x", …)`, `PCTMC.tau` out of a state without transitions accept anything | `CTMC.lkl_negative`, `PCTMC.tau_string`, `PCTMC.tau_anyDestination` |
| C93 | the documentation of `HMM.a` and `HMM.tau` promises 0 for a value that is not a state: an exception is raised | `HMM.a_states`, `HMM.tau_states` |
| C94 | from an absorbing state `PCTMC.next` goes to the state 0 after a time `inf`, and `run` goes on from there | `PCTMC.next_absorbing` |
| C96 | `PCTMC.logLikelihood` raises ValueError (math domain error) on a large enough set generated by another model, as soon as this model can produce observations that the candidate cannot | `PCTMC.evaluation_refused` |
| C30, C46 | -9999 is reported when all densities are 0 or 1; for a PCTMC an impossible trace or untimed traces raise | `CTMC.certain_scored_impossible`, `PCTMC.logLikelihood_impossible`, `PCTMC.logLikelihood_untimed` |
| C31 | `toMC` normalises the CTMC's own matrix | `CTMC.toMC_destroys` |
| C34 | standard deviations of unvisited states of a GoHMM become their square roots | `GoHMM.unvisited_changed` |
| C39 | the likelihood of a GoHMM can decrease when a standard deviation becomes 0 | `GoHMM.likelihood_decreases` |
| C40 | a fixed rate is doubled when no time is spent in its source | `CTMC.fixed_rate_changed` |
| C42 | an impossible trace makes the single-process run raise | `MC.bw_step_processes_differ` |
| C43 | traces without the initial label do not get it if another trace has it; MDP and timed traces are shifted | `Prep.mixed_traces_not_prepared`, `Prep.prepared_actions_are_labels` |
| C44 | most unusable pairs of data and model are accepted | `Prep.unusable_accepted` |
| C45 | `instantiate` checks the rates under the old values | `PCTMC.instantiate_accepts_negative`, `PCTMC.instantiate_stuck` |
| C45 | the default bounds of `randomInstantiation` are 0.01 and 0.3, the documentation says 0.1 and 5.0 | `PCTMC.randomInstantiation_below_documented` |
| C47 | with traces without 'init' the initial state is removed | `PCTMC.reduceForTraces_loses_init` |
| C48 | wrong when an initial state is not the last, when the second component is larger, when both have self-loops, beyond 256 expressions | `Compose.compose_init_first`, `compose_second_larger`, `compose_double_loop`, `compose_overflow` |
| C48 (PCTMC) | the values of the parameters of the second component are lost; a self-loop of the first component is lost where the second has none; ValueError when a synchronised transition is added to a local one with another parameter; TypeError for a symbolic initial rate; wrong rates with four components; rates multiplied with two initial states | `PCompose.compose_values_lost`, `compose_self_loop_lost`, `compose_raises`, `compose_symbolic_init`, `compose_four`, `compose_two_inits` |
| C71 | composing three models changes the default argument `synchronous_transitions=[]` of the constructor, which changes the next composition | `PCompose.compose_three_default`, `compose_twice` |
| C49 | wrong counts if a trace is stored twice | `Alergia.createPTA_duplicates` |
| C52 | IOAlergia stores the row of an action at its position among the allowed actions; merging loses counts | `IOAlergia.wrong_action`, `IOAlergia.merged_counts_lost` |
| C53 | in a state with counts 0 the active scheduler always proposes the first action | `Active.getActionState_unvisited` |
| C54 | the learning rate has no effect: both hypotheses are the same object | `Active.rate_has_no_effect`, `Active.half_rate` |
| C55 | `getSequenceStates` raises | `FMScheduler.getSequenceStates_broken` |
| C57 | a learner whose set was changed in between raises | `Prep.reuse_disturbed` |
| C59 | `fit` returns and changes the caller's model, and prepends the label to the caller's traces | `Prep.fit_returns_callers_object`, `Prep.fit_changes_traces` |
| C60 | learning from untimed traces sets exit rates to 1 | `CTMC.exit_rate_changed` |
| C61 | the tree's alphabet misses labels, and the futures behind them are not compared | `Alergia.compatible_overlooks` |
| C103 | the tree's alphabet misses labels, and a difference behind such a label is never found, whatever the number of traces | `MC.compatible_never_separates` |
| C62 | a training trace with the empty label has probability 0 | `Alergia.fit_emptyLabel` |
| C64 | with one process the active learning raises ValueError; without Storm the first call of `fit` raises AttributeError | `Active.strategy_single_process`, `Active.start_first_call` |
| C66 | IOAlergia raises IndexError when no trace has an action | `IOAlergia.fit_no_action`, `IOAlergia.fit_empty` |
| C67 | observations made from one state only are not compared | `IOAlergia.test_ignores_unseen` |
| C68 | only the first first observation can be produced; traces that start with 'init' give two such states | `IOAlergia.second_start_lost`, `IOAlergia.init_doubled` |
| C56 | an absorbing state of a CTMC gives entries `nan`; a label 'deadlock' becomes 'empty'; the names of the actions of an MDP can be permuted | `Storm.ctmc_absorbing`, `Storm.deadlock_lost`, `Storm.actions_swapped` |
| C69 | only the choices of the first state of an MDP get an action label | `Storm.choices_unlabelled` |
| C70 | two initial states with other labels raise ValueError; the action names of an MDP are listed in the arbitrary order of a set | `Storm.two_initial_states`, `Storm.actions_swapped` |
| C72 | a rate that is a sum: an iteration makes the data less likely; a parameter with several powers gets a complex value (TypeError); an unused parameter or a factor `q**2` raises | `PCTMC.estimate_sum_decreases`, `estimate_quartic_fails`, `estimate_unused`, `estimate_cofactor_fails` |
| C74 | `fit_parameters` on a new learner raises AttributeError (`processes` and `verbose` are only set by `fit`) | `Prep.params_outcome` |
| C75 | `fit_nonInstantiatedParameters` estimates every parameter | `PCTMC.fitNonInstantiated_changes` |
| C76 | names (of the model, labels, actions, parameters) are written as they are: a file with another name than a Prism identifier, or with a parameter named `s`, cannot be read | `Prism.name_with_space`, `Prism.label_number`, `Prism.savePCTMC_s` |
| C76 | a model whose initial distribution is not concentrated in one state is refused with IndexError (the file is left incomplete) | `Prism.two_initial`, `Prism.save_no_initial` |
| C76 | PCTMC: the synchronous transitions are not written; the variable ranges over `0..n` instead of `0..n-1` | `Prism.savePCTMC_sync`, `Prism.savePCTMC_range` |
| C77 | a state without transition is loaded with a loop of value 1 | `Prism.mc_prism_dead` |
| C77 | MDP: the loaded actions are called a0, a1, … by their position among the choices of each state, so that different actions are merged | `Prism.mdp_prism_mixed` |
| C77 | PCTMC: a parameter that has a value is loaded as a number, and is no longer a parameter | `Prism.pctmc_prism_value_lost` |
| C78 | `fixed_parameters` is not given: TypeError (`param in False`); an untimed set: TypeError (one argument too many) | `PCTMC.fit_default_raises`, `PCTMC.fit_untimed_raises` |
| C78 | a possible trace with two dwell times or more: ValueError (the forward table has one column more than the backward one) | `PCTMC.fit_long_raises` |
| C78 | with one dwell time the forward values after the step are added to those before it, and the likelihood can decrease | `PCTMC.fit_decreases` |
| C79 | `output_file_prism` with an initial distribution that is not concentrated in one state: IndexError after the learning, nothing is returned | `MC.call_prism_raises`, `MDP.call_prism_raises`, `CTMC.call_prism_raises`, `PCTMC.call_prism_raises` |
| C79 | `return_data` with `max_it=0`: UnboundLocalError | `call_no_iteration` |
| C79 | a CTMC or PCTMC with a state that is never left: the Storm model that `fit` returns by default contains nan | `CTMC.call_storm_nan`, `PCTMC.call_storm_nan` |
| C122 | a PCTMC has no method `toStormpy`; an MDP given to `fit` as a Storm model gets the actions a0, a1, ..., so it cannot read its own traces | `Storm.pctmc_no_method`, `Storm.initial_mdp_renamed` |
| C123 | `max_it` of the active learning bounds only the first training: the trainings of the rounds do not get it, so the number of iterations exceeds `max_it` whenever there are at least `max_it` rounds | `Active.max_it_exceeded`, `Active.half_rounds` |
| C80 | Alergia and IOAlergia: `output_file_prism` raises AttributeError after the learning | `Alergia.call_prism_raises`, `Alergia.call_prism_error`, `IOAlergia.call_prism_raises`, `IOAlergia.call_prism_error` |
| C80 | active learning: `return_data` with `stormpy_output` (the default) raises AttributeError after all rounds | `Active.call_data_raises`, `Active.call_data_error` |
| C80 | active learning: `output_file_prism` with a spread initial distribution, `max_it=0` | `Active.call_prism_raises`, `Active.call_no_iteration` |
| C80 | active learning: a list of traces (documented) raises AttributeError after the first training | `Active.callList_raises` |
| C81 | MC with distinct labels: the learned chain is not the observed frequencies, after any number of iterations (each trace contributes an unobserved move after its end; the limit is right) | `MC.observed_not_reached`, `MC.fit_observed` |
| C107 | with the default `processes`, a call that succeeds on a machine with three processors raises TypeError on a machine with two (a training set with a trace that the first model cannot generate) | `MC.launch_machine_differs` |
| C107 | `verbose=1` (documented: warnings only) also shows the line `Learning an MC...` | `BW.launch_level_one_header` |
| C108 | the same process learned as a Markov chain and as an MDP with one action gets different probabilities: the chain counts a move after the end of each trace | `MC.fit_asMDP_differs`, `MC.counts_asMDP` |
| C112 | `logLikelihood` leaves impossible traces out of the sum, so cutting the traces of a set down can lower its value (from 0 to log(1/2) in an example); `logLikelihood_cut` supposes that the traces are possible | `logLikelihood_cut_impossible` |
| C113 | `Set(l,times)` keeps the list `l`, so two sets made from one list share it: `addSet` on one leaves the other with more traces than multiplicities, and adding that one to a third set raises half way. `s.addSet(t)` puts the trace objects of `t` into `s`; `fit` on `s` then inserts 'init' into those traces of `t` that were new to `s`, and into no others. | `SetHeap.shared_list`, `SetHeap.shared_list_raises`, `SetHeap.fit_changes_another_set`, `SetHeap.fit_changes_another_set_forever` |
| C114 | `PCTMC(…)` keeps the dictionary that it is given and deletes the entries `nan` from it, so a later change of the dictionary changes the model without the test of `instantiate`. `synchronousCompositionPCTMCs([m])` returns `m` itself: instantiating the composition instantiates `m`. | `PHeap.constructor_deletes_nan`, `PHeap.dictionary_is_kept`, `PHeap.composition_of_one` |
| C116 | IOAlergia's test does not compare an observation that was made after one of the two histories only: states after which different observations are certain are declared compatible on every training set | `MDP.ioalergia_uniform_blind`, `MDP.ioalergia_never_separates`, `IOAlergia.disjoint_accepted` |
| C117 | histories after which different observations are certain are never told apart, for any number of traces | `MDP.ioalergia_uniform_blind`, `MDP.ioalergia_never_separates` |
| C82 | CTMC: the constant 1024 given to the transitions of rate 0 wins the race with probability exp(-1024·exit rate): a trace of likelihood 0 can be returned, and no waiting time above 1024 is ever drawn in a state with such a transition | `CTMC.next_rate_zero`, `CTMC.run_impossible`, `CTMC.time_bounded` |

## Trusted base

* Lean 4.33.0's kernel; the axioms `propext`, `Classical.choice`, `Quot.sound` (checked with `#print axioms`).
* The reading of the Python code by the model, cited definition by definition.
* The modelling decisions above.
