import Verif.Lemmas.IOAlergiaErrorLaw

/-!
C116: the probability that IOAlergia's test of compatibility gives a wrong answer on a generated training set.
-/

set_option autoImplicit false
set_option linter.unusedSectionVars false

namespace Jajapy

open MeasureTheory ProbabilityTheory Spec IOAlergia Spec.IOAlergia

namespace MDP
variable {σ : Type} {n : ℕ} {sch : Sched ℝ String σ} {P : Policy σ String} {dom : σ → Prop}

theorem ioalergia_rejects_of_behaves (M : MDP ℝ String n) (hn : M.actions.Nodup) (hS : M.Stochastic) (hB : Behaves sch P dom)
    (kind : String → Kind) (steps : ℕ) (geom : ℕ → ℕ) (st0 : σ) (ht : drawsLaw {d | ∃ w, M.Returns sch steps st0 w d} = 1)
    (ε : ℝ) (h0 : 0 < ε) (h2 : ε ≤ 2) (u v : List String) (hu : u.length % 2 = 1) (hv : v.length % 2 = 1) (hlast : u.getLast? = v.getLast?)
    (hsame : SameResponses (M.runProb P) (Finset.univ.image M.labelling) u v) (N : ℕ) :
    drawsLaw.real {d | ∃ tr S, M.CollectsOne sch steps st0 d N tr ∧
        generateSetMDP kind (fun j _ => .ok (tr j)) N false none (.int steps) geom = .ok S ∧ Answers (epsilonTest ε) S u v false}
      ≤ 2 * ε * ∑ k ∈ Finset.Icc 1 ((2 * steps + 1 - max u.length v.length) / 2),
          ((M.actions.toFinset.card : ℝ) * (Finset.univ.image M.labelling).card) ^ k := by
  have hs := M.simulates_traces hn hS hB steps st0 ht
  letI := simSpace (M.outcome sch steps st0)
  refine M.one_stream_le hn hS hB kind steps geom st0 hs N _ _ ?_
  refine io_rejects_law (gen := fun s N => generateSetMDP kind (fun j _ => s j) N false none (.int steps) geom) hs.results
    (genMDP_counts kind steps geom _) (fun w hw => hw.1) M.actions.toFinset (Finset.univ.image M.labelling) (fun t ht => ht.2) ε h0 h2 u v hlast
    (fun w a o l1 l2 => ?_) N
  have key : ∀ p : List String, p.length % 2 = 1 → p.length + 2 * (w.length + 1) ≤ 2 * steps + 1 → ∀ o,
      drawsLaw.real (prefEvent (M.outcome sch steps st0) (p ++ letters w ++ [a, o])) = M.runProb P (p ++ letters w ++ [a, o]) := by
    intro p hp hl o
    refine M.prefix_law hn hS hB steps st0 ht _ ((p.length + 2 * (w.length + 1)) / 2) ?_ (by omega)
    simp only [List.length_append, letters_length, List.length_cons, List.length_nil]
    omega
  have odd : ∀ p : List String, p.length % 2 = 1 → (p ++ letters w).length % 2 = 1 := by
    intro p hp
    rw [List.length_append, letters_length]; omega
  simp only [result_pref hs]
  rw [pref_action hs (fun w hw => by rw [hw.1]; omega) (Finset.univ.image M.labelling) (odd u hu) (fun t ht i => (ht.2 i).2),
    pref_action hs (fun w hw => by rw [hw.1]; omega) (Finset.univ.image M.labelling) (odd v hv) (fun t ht i => (ht.2 i).2)]
  simp only [key u hu l1, key v hv l2]
  exact hsame w a o

theorem ioalergia_blind_of_behaves (M : MDP ℝ String n) (hn : M.actions.Nodup) (hS : M.Stochastic) (hB : Behaves sch P dom)
    (kind : String → Kind) (steps : ℕ) (geom : ℕ → ℕ) (st0 : σ) (ht : drawsLaw {d | ∃ w, M.Returns sch steps st0 w d} = 1)
    (ε : ℝ) (h0 : 0 < ε) (h2 : ε ≤ 2) (u v : List String) (hu : u.length % 2 = 1) (hv : v.length % 2 = 1) (hlast : u.getLast? = v.getLast?)
    (hdis : ∀ a o, M.runProb P (u ++ [a, o]) = 0 ∨ M.runProb P (v ++ [a, o]) = 0) (N : ℕ) :
    drawsLaw.real {d | ∃ tr S, M.CollectsOne sch steps st0 d N tr ∧
        generateSetMDP kind (fun j _ => .ok (tr j)) N false none (.int steps) geom = .ok S ∧ Answers (epsilonTest ε) S u v false} = 0 := by
  have hs := M.simulates_traces hn hS hB steps st0 ht
  letI := simSpace (M.outcome sch steps st0)
  refine le_antisymm (M.one_stream_le hn hS hB kind steps geom st0 hs N _ _ ?_) measureReal_nonneg
  refine le_of_eq (io_never_law (gen := fun s N => generateSetMDP kind (fun j _ => s j) N false none (.int steps) geom) hs.results
    (genMDP_counts kind steps geom _) (fun w hw => hw.1) M.actions.toFinset (Finset.univ.image M.labelling) (fun t ht => ht.2) ε h0 h2 u v hlast
    (fun a o l1 l2 => ?_) N)
  have key : ∀ p : List String, p.length % 2 = 1 → p.length + 2 ≤ 2 * steps + 1 →
      drawsLaw.real (prefEvent (M.outcome sch steps st0) (p ++ [a, o])) = M.runProb P (p ++ [a, o]) := by
    intro p hp hl
    exact M.prefix_law hn hS hB steps st0 ht _ ((p.length + 2) / 2) (by simp; omega) (by omega)
  rw [result_pref hs, result_pref hs, key u hu l1, key v hv l2]
  exact hdis a o

theorem ioalergia_accepts_of_behaves (M : MDP ℝ String n) (hn : M.actions.Nodup) (hS : M.Stochastic) (hB : Behaves sch P dom)
    (kind : String → Kind) (steps : ℕ) (geom : ℕ → ℕ) (st0 : σ) (ht : drawsLaw {d | ∃ w, M.Returns sch steps st0 w d} = 1)
    (ε : ℝ) (h0 : 0 < ε) (h2 : ε ≤ 2) (u v : List String) (hu : u.length % 2 = 1) (hv : v.length % 2 = 1) (hlast : u.getLast? = v.getLast?)
    (hul : u.length + 2 ≤ 2 * steps + 1) (hvl : v.length + 2 ≤ 2 * steps + 1) (a o : String) (N : ℕ) :
    drawsLaw.real {d | ∃ tr S, M.CollectsOne sch steps st0 d N tr ∧
        generateSetMDP kind (fun j _ => .ok (tr j)) N false none (.int steps) geom = .ok S ∧ Answers (epsilonTest ε) S u v true ∧
        0 < prefixCount (S.sequences.zip S.times) (u ++ [a, o]) ∧ 0 < prefixCount (S.sequences.zip S.times) (v ++ [a, o]) ∧
        2 * ((Real.sqrt (1 / prefixCount (S.sequences.zip S.times) (u ++ [a])) + Real.sqrt (1 / prefixCount (S.sequences.zip S.times) (v ++ [a]))) *
          Real.sqrt (1/2 * Real.log (2 / ε)))
          ≤ |M.runProb P (u ++ [a, o]) / (∑ o' ∈ Finset.univ.image M.labelling, M.runProb P (u ++ [a, o'])) -
            M.runProb P (v ++ [a, o]) / (∑ o' ∈ Finset.univ.image M.labelling, M.runProb P (v ++ [a, o']))|}
      ≤ 2 * ε := by
  have hs := M.simulates_traces hn hS hB steps st0 ht
  have key : ∀ p : List String, p.length % 2 = 1 → p.length + 2 ≤ 2 * steps + 1 → ∀ o,
      drawsLaw.real (prefEvent (M.outcome sch steps st0) (p ++ [a, o])) = M.runProb P (p ++ [a, o]) := by
    intro p hp hl o
    exact M.prefix_law hn hS hB steps st0 ht _ ((p.length + 2) / 2) (by simp; omega) (by omega)
  have act : ∀ p : List String, p.length % 2 = 1 → p.length + 2 ≤ 2 * steps + 1 →
      drawsLaw.real (prefEvent (M.outcome sch steps st0) (p ++ [a])) = ∑ o' ∈ Finset.univ.image M.labelling, M.runProb P (p ++ [a, o']) := by
    intro p hp hl
    rw [pref_action hs (fun w hw => by rw [hw.1]; omega) (Finset.univ.image M.labelling) hp (fun t ht i => (ht.2 i).2)]
    exact Finset.sum_congr rfl (fun o _ => key p hp hl o)
  have ratio : ∀ p : List String, p.length % 2 = 1 → p.length + 2 ≤ 2 * steps + 1 →
      0 ≤ M.runProb P (p ++ [a, o]) / (∑ o' ∈ Finset.univ.image M.labelling, M.runProb P (p ++ [a, o'])) ∧
      M.runProb P (p ++ [a, o]) / (∑ o' ∈ Finset.univ.image M.labelling, M.runProb P (p ++ [a, o'])) ≤ 1 ∧
      M.runProb P (p ++ [a, o]) = M.runProb P (p ++ [a, o]) / (∑ o' ∈ Finset.univ.image M.labelling, M.runProb P (p ++ [a, o'])) *
        ∑ o' ∈ Finset.univ.image M.labelling, M.runProb P (p ++ [a, o']) := by
    intro p hp hl
    rw [← key p hp hl, ← act p hp hl]
    have hle : drawsLaw.real (prefEvent (M.outcome sch steps st0) (p ++ [a, o])) ≤ drawsLaw.real (prefEvent (M.outcome sch steps st0) (p ++ [a])) := by
      rw [show p ++ [a, o] = (p ++ [a]) ++ [o] by simp]
      exact measureReal_mono (prefEvent_sub _ _ _)
    refine ⟨div_nonneg measureReal_nonneg measureReal_nonneg, div_le_one_of_le₀ hle measureReal_nonneg, ?_⟩
    by_cases hz : drawsLaw.real (prefEvent (M.outcome sch steps st0) (p ++ [a])) = 0
    · rw [hz, mul_zero]
      exact le_antisymm (hz ▸ hle) measureReal_nonneg
    · rw [div_mul_cancel₀ _ hz]
  obtain ⟨p0, p1, pe⟩ := ratio u hu hul
  obtain ⟨q0, q1, qe⟩ := ratio v hv hvl
  letI := simSpace (M.outcome sch steps st0)
  refine M.one_stream_le hn hS hB kind steps geom st0 hs N _ _ ?_
  refine io_accepts_law (gen := fun s N => generateSetMDP kind (fun j _ => s j) N false none (.int steps) geom) hs.results
    (genMDP_counts kind steps geom _) (fun w hw => by rw [hw.1]; omega) ε h0 h2 u v hlast a o _ _ p0 p1 q0 q1 ?_ ?_ N
  · rw [result_pref hs, result_pref hs, key u hu hul, act u hu hul]
    exact pe
  · rw [result_pref hs, result_pref hs, key v hv hvl, act v hv hvl]
    exact qe

/-! ### The uniform scheduler -/

/-- C116, **wrong rejections**, uniform scheduler: the training set is generated by the MDP with `generateSet`, on one sequence of random numbers. If after the
words `u` and `v`, which end with the same observation, the MDP responds in the same way, then the states of the prefix tree reached by `u` and `v` are
declared incompatible with a probability of at most `2*epsilon` for each sequence of actions and observations that fits in the rest of the traces. -/
theorem ioalergia_uniform_rejects (M : MDP ℝ String n) (hn : M.actions.Nodup) (hS : M.Stochastic) (acts : List String)
    (hne : acts ≠ []) (ha : ∀ s, ∃ x ∈ acts, M.Allowed s x) (kind : String → Kind) (steps : ℕ) (geom : ℕ → ℕ)
    (ε : ℝ) (h0 : 0 < ε) (h2 : ε ≤ 2) (u v : List String) (hu : u.length % 2 = 1) (hv : v.length % 2 = 1) (hlast : u.getLast? = v.getLast?)
    (hsame : SameResponses (M.runProb (uniformPolicy acts)) (Finset.univ.image M.labelling) u v) (N : ℕ) :
    drawsLaw.real {d | ∃ tr S, M.CollectsOne (uniformScheduler acts) steps () d N tr ∧
        generateSetMDP kind (fun j _ => .ok (tr j)) N false none (.int steps) geom = .ok S ∧ Answers (epsilonTest ε) S u v false}
      ≤ 2 * ε * ∑ k ∈ Finset.Icc 1 ((2 * steps + 1 - max u.length v.length) / 2),
          ((M.actions.toFinset.card : ℝ) * (Finset.univ.image M.labelling).card) ^ k :=
  M.ioalergia_rejects_of_behaves hn hS (uniformScheduler_behaves acts hne) kind steps geom ()
    (M.run_uniform_returns hn hS acts ha steps) ε h0 h2 u v hu hv hlast hsame N

/-- C116, **wrong acceptances**, uniform scheduler: if the conditional probabilities of `o` after `u` and the action `a` and after `v` and the action `a` differ by
at least `2 (√(1/n_u) + √(1/n_v)) √(½ log(2/epsilon))`, where `n_u` and `n_v` are the numbers of training traces that start with the word and the
action, *and `o` was observed in both cases*, then the states reached by `u` and `v` are declared compatible with a probability of at most
`2*epsilon`. (Without the last condition it is false: `ioalergia_uniform_blind`.) -/
theorem ioalergia_uniform_accepts_partial (M : MDP ℝ String n) (hn : M.actions.Nodup) (hS : M.Stochastic) (acts : List String)
    (hne : acts ≠ []) (ha : ∀ s, ∃ x ∈ acts, M.Allowed s x) (kind : String → Kind) (steps : ℕ) (geom : ℕ → ℕ)
    (ε : ℝ) (h0 : 0 < ε) (h2 : ε ≤ 2) (u v : List String) (hu : u.length % 2 = 1) (hv : v.length % 2 = 1) (hlast : u.getLast? = v.getLast?)
    (hul : u.length + 2 ≤ 2 * steps + 1) (hvl : v.length + 2 ≤ 2 * steps + 1) (a o : String) (N : ℕ) :
    drawsLaw.real {d | ∃ tr S, M.CollectsOne (uniformScheduler acts) steps () d N tr ∧
        generateSetMDP kind (fun j _ => .ok (tr j)) N false none (.int steps) geom = .ok S ∧ Answers (epsilonTest ε) S u v true ∧
        0 < prefixCount (S.sequences.zip S.times) (u ++ [a, o]) ∧ 0 < prefixCount (S.sequences.zip S.times) (v ++ [a, o]) ∧
        2 * ((Real.sqrt (1 / prefixCount (S.sequences.zip S.times) (u ++ [a])) + Real.sqrt (1 / prefixCount (S.sequences.zip S.times) (v ++ [a]))) *
          Real.sqrt (1/2 * Real.log (2 / ε)))
          ≤ |M.runProb (uniformPolicy acts) (u ++ [a, o]) / (∑ o' ∈ Finset.univ.image M.labelling, M.runProb (uniformPolicy acts) (u ++ [a, o'])) -
            M.runProb (uniformPolicy acts) (v ++ [a, o]) / (∑ o' ∈ Finset.univ.image M.labelling, M.runProb (uniformPolicy acts) (v ++ [a, o']))|}
      ≤ 2 * ε :=
  M.ioalergia_accepts_of_behaves hn hS (uniformScheduler_behaves acts hne) kind steps geom ()
    (M.run_uniform_returns hn hS acts ha steps) ε h0 h2 u v hu hv hlast hul hvl a o N

/-- C116, **violated**, uniform scheduler: if after `u` and after `v` (which end with the same observation) no action can be followed by the same observation,
then the states reached by `u` and `v` are never declared incompatible, however many traces there are. -/
theorem ioalergia_uniform_blind (M : MDP ℝ String n) (hn : M.actions.Nodup) (hS : M.Stochastic) (acts : List String)
    (hne : acts ≠ []) (ha : ∀ s, ∃ x ∈ acts, M.Allowed s x) (kind : String → Kind) (steps : ℕ) (geom : ℕ → ℕ)
    (ε : ℝ) (h0 : 0 < ε) (h2 : ε ≤ 2) (u v : List String) (hu : u.length % 2 = 1) (hv : v.length % 2 = 1) (hlast : u.getLast? = v.getLast?)
    (hdis : ∀ a o, M.runProb (uniformPolicy acts) (u ++ [a, o]) = 0 ∨ M.runProb (uniformPolicy acts) (v ++ [a, o]) = 0) (N : ℕ) :
    drawsLaw.real {d | ∃ tr S, M.CollectsOne (uniformScheduler acts) steps () d N tr ∧
        generateSetMDP kind (fun j _ => .ok (tr j)) N false none (.int steps) geom = .ok S ∧ Answers (epsilonTest ε) S u v false} = 0 :=
  M.ioalergia_blind_of_behaves hn hS (uniformScheduler_behaves acts hne) kind steps geom ()
    (M.run_uniform_returns hn hS acts ha steps) ε h0 h2 u v hu hv hlast hdis N

/-! ### Finite-memory schedulers -/

/-- C116, **wrong rejections**, finite-memory scheduler, in any state at the start. -/
theorem ioalergia_fm_rejects (M : MDP ℝ String n) (hn : M.actions.Nodup) (hS : M.Stochastic) (F : FMScheduler ℝ String) (m : ℕ)
    (hF : FMValid F m) (ha : ∀ s, ∀ k < m, ∃ x, M.Allowed s x ∧ 0 < (fmPolicy F).propose k x) (kind : String → Kind) (steps : ℕ)
    (geom : ℕ → ℕ) (st0 : ℕ)
    (ε : ℝ) (h0 : 0 < ε) (h2 : ε ≤ 2) (u v : List String) (hu : u.length % 2 = 1) (hv : v.length % 2 = 1) (hlast : u.getLast? = v.getLast?)
    (hsame : SameResponses (M.runProb (fmPolicy F)) (Finset.univ.image M.labelling) u v) (N : ℕ) :
    drawsLaw.real {d | ∃ tr S, M.CollectsOne F.sched steps st0 d N tr ∧
        generateSetMDP kind (fun j _ => .ok (tr j)) N false none (.int steps) geom = .ok S ∧ Answers (epsilonTest ε) S u v false}
      ≤ 2 * ε * ∑ k ∈ Finset.Icc 1 ((2 * steps + 1 - max u.length v.length) / 2),
          ((M.actions.toFinset.card : ℝ) * (Finset.univ.image M.labelling).card) ^ k :=
  M.ioalergia_rejects_of_behaves hn hS (fmScheduler_behaves F m hF) kind steps geom st0
    (M.run_fm_returns hn hS F m hF ha steps st0) ε h0 h2 u v hu hv hlast hsame N

/-- C116, **wrong acceptances**, finite-memory scheduler. -/
theorem ioalergia_fm_accepts_partial (M : MDP ℝ String n) (hn : M.actions.Nodup) (hS : M.Stochastic) (F : FMScheduler ℝ String) (m : ℕ)
    (hF : FMValid F m) (ha : ∀ s, ∀ k < m, ∃ x, M.Allowed s x ∧ 0 < (fmPolicy F).propose k x) (kind : String → Kind) (steps : ℕ)
    (geom : ℕ → ℕ) (st0 : ℕ)
    (ε : ℝ) (h0 : 0 < ε) (h2 : ε ≤ 2) (u v : List String) (hu : u.length % 2 = 1) (hv : v.length % 2 = 1) (hlast : u.getLast? = v.getLast?)
    (hul : u.length + 2 ≤ 2 * steps + 1) (hvl : v.length + 2 ≤ 2 * steps + 1) (a o : String) (N : ℕ) :
    drawsLaw.real {d | ∃ tr S, M.CollectsOne F.sched steps st0 d N tr ∧
        generateSetMDP kind (fun j _ => .ok (tr j)) N false none (.int steps) geom = .ok S ∧ Answers (epsilonTest ε) S u v true ∧
        0 < prefixCount (S.sequences.zip S.times) (u ++ [a, o]) ∧ 0 < prefixCount (S.sequences.zip S.times) (v ++ [a, o]) ∧
        2 * ((Real.sqrt (1 / prefixCount (S.sequences.zip S.times) (u ++ [a])) + Real.sqrt (1 / prefixCount (S.sequences.zip S.times) (v ++ [a]))) *
          Real.sqrt (1/2 * Real.log (2 / ε)))
          ≤ |M.runProb (fmPolicy F) (u ++ [a, o]) / (∑ o' ∈ Finset.univ.image M.labelling, M.runProb (fmPolicy F) (u ++ [a, o'])) -
            M.runProb (fmPolicy F) (v ++ [a, o]) / (∑ o' ∈ Finset.univ.image M.labelling, M.runProb (fmPolicy F) (v ++ [a, o']))|}
      ≤ 2 * ε :=
  M.ioalergia_accepts_of_behaves hn hS (fmScheduler_behaves F m hF) kind steps geom st0
    (M.run_fm_returns hn hS F m hF ha steps st0) ε h0 h2 u v hu hv hlast hul hvl a o N

end MDP

/-- C116, **violated**, for every test and every training set: two states of the prefix tree with the same observation, from which no action was followed by the
same observation, are declared compatible. -/
theorem IOAlergia.disjoint_accepted {S : TSet String} {bound : ℕ → ℕ → ℕ → ℕ → Py Bool} (hb : ∀ a b c d, ∃ v, bound a b c d = .ok v)
    (hS : Training S) (u v : List String) (b : Bool) (hlast : u.getLast? = v.getLast?)
    (hdis : ∀ a o, (∀ t ∈ S.sequences, ¬ u ++ [a, o] <+: t) ∨ ∀ t ∈ S.sequences, ¬ v ++ [a, o] <+: t) (h : Answers bound S u v b) : b = true := by
  obtain ⟨-, -, hiff⟩ := answers_iff hb hS hlast h
  rw [hiff]
  intro w a o p1 p2
  exfalso
  have hno : ∀ p : List String, (∀ t ∈ S.sequences, ¬ p <+: t) → ∀ q, prefixCount (S.sequences.zip S.times) (p ++ q) = 0 :=
    fun p hp q => prefixCount_zero (fun t ht hpre => hp t.1 (List.of_mem_zip ht).1 ((List.prefix_append p q).trans hpre))
  cases w with
  | nil =>
    simp only [letters, List.flatMap_nil, List.append_nil] at p1 p2
    rcases hdis a o with h | h
    · have := hno _ h []; rw [List.append_nil] at this; omega
    · have := hno _ h []; rw [List.append_nil] at this; omega
  | cons k w =>
    have e : ∀ u : List String, u ++ letters (k :: w) ++ [a, o] = (u ++ [k.1, k.2]) ++ (letters w ++ [a, o]) := by
      intro u; simp [letters]
    rw [e] at p1 p2
    rcases hdis k.1 k.2 with h | h
    · have := hno _ h (letters w ++ [a, o]); omega
    · have := hno _ h (letters w ++ [a, o]); omega

/-! ### When the responses are the same -/

namespace MDP
variable {σ : Type} {n : ℕ}

/-- The memory of the scheduler after it has seen the observations. -/
def memoryAfter (P : Policy σ String) (ps : List (String × String)) : σ := ps.foldl (fun m p => P.update m p.1) P.start

theorem runSuf_split (M : MDP ℝ String n) (P : Policy σ String) (l : String) (s₀ : Fin n) (hl : ∀ s, M.labelling s = l → s = s₀)
    (ps : List (String × String)) : ∀ (m : σ) (s : Fin n), ∃ C : ℝ, ∀ r, M.runSuf P m s (alternate ps l ++ r)
      = C * M.runSuf P (ps.foldl (fun m p => P.update m p.1) m) s₀ (l :: r) := by
  induction ps with
  | nil =>
    intro m s
    by_cases h : M.labelling s = l
    · obtain rfl := hl s h
      exact ⟨1, fun r => by simp [alternate]⟩
    · refine ⟨0, fun r => ?_⟩
      rw [zero_mul]
      by_contra hne
      exact h (M.runSuf_head P m s l r hne)
  | cons p ps ih =>
    intro m s
    choose C hC using fun s' => ih (P.update m p.1) s'
    refine ⟨∑ s', (if M.labelling s = p.1 then 1 else 0) * (M.choiceProb P s m p.2 * M.prob s p.2 s') * C s', fun r => ?_⟩
    show M.runSuf P m s (p.1 :: p.2 :: (alternate ps l ++ r)) = _
    rw [runSuf, Finset.sum_mul]
    refine Finset.sum_congr rfl (fun s' _ => ?_)
    rw [hC, List.foldl_cons]
    ring

/-- C116: a case in which the hypothesis of the theorems on wrong rejections holds: the two words end with a label that belongs to one state only, and they
leave the scheduler with the same memory (there is only one memory for a uniform scheduler). -/
theorem sameResponses_of_label (M : MDP ℝ String n) (P : Policy σ String) (ps qs : List (String × String)) (l : String) (s₀ : Fin n)
    (hl : ∀ s, M.labelling s = l → s = s₀) (hm : memoryAfter P ps = memoryAfter P qs) (O : Finset String) :
    SameResponses (M.runProb P) O (alternate ps l) (alternate qs l) := by
  have key : ∀ ps : List (String × String), ∃ C : ℝ, ∀ r, r.length % 2 = 0 →
      M.runProb P (alternate ps l ++ r) = C * M.runSuf P (memoryAfter P ps) s₀ (l :: r) := by
    intro ps
    choose C hC using fun s => M.runSuf_split P l s₀ hl ps P.start s
    refine ⟨∑ s, M.initialState s * C s, fun r hr => ?_⟩
    rw [M.runProb_suf P _ (by rw [List.length_append, alternate_length]; omega), Finset.sum_mul]
    exact Finset.sum_congr rfl (fun s _ => by rw [hC]; unfold memoryAfter; ring)
  obtain ⟨A, hA⟩ := key ps
  obtain ⟨B, hB⟩ := key qs
  intro w a o
  have he : ∀ o, (letters w ++ [a, o]).length % 2 = 0 := by
    intro o
    rw [List.length_append, letters_length]; simp
  simp only [List.append_assoc]
  rw [hA _ (he o), hB _ (he o), Finset.sum_congr rfl (fun o _ => hA _ (he o)), Finset.sum_congr rfl (fun o _ => hB _ (he o)), hm,
    ← Finset.mul_sum, ← Finset.mul_sum]
  ring

/-! ### Examples -/

/-- From 'x' the action 'a' stays or leads to 'y', where it stays. -/
noncomputable def responseMDP : MDP ℝ String 2 where
  actions := ["a"]
  matrix := ![![![1/2, 1/2]], ![![0, 1]]]
  labelling := ![ "x", "y" ]
  initialState := ![1, 0]

theorem responseMDP_stochastic : responseMDP.Stochastic := by
  refine ⟨fun s => ?_, by simp [responseMDP], fun s k s' => ?_, fun s k => Or.inl ?_⟩
  · fin_cases s <;> simp [responseMDP]
  · fin_cases s <;> fin_cases k <;> fin_cases s' <;> simp [responseMDP]
  · fin_cases s <;> fin_cases k <;> simp [responseMDP, Fin.sum_univ_two]; norm_num

theorem responseMDP_allowed : ∀ s, ∃ x ∈ ["a"], responseMDP.Allowed s x := by
  intro s
  refine ⟨"a", by simp, 1, ?_⟩
  rw [show responseMDP.prob s "a" 1 = responseMDP.matrix s (0 : Fin 1) 1 from responseMDP.prob_getElem (by simp [responseMDP]) s (0 : Fin 1) 1]
  fin_cases s <;> simp [responseMDP]

/-- The words `x a y` and `x a x a y` have the same responses: with `epsilon = 0.01` and traces of 3 steps the two states are separated by mistake with
a probability of at most 0.04. -/
example (N : ℕ) : drawsLaw.real {d | ∃ tr S, responseMDP.CollectsOne (uniformScheduler ["a"]) 3 () d N tr ∧
        generateSetMDP (fun _ => .str) (fun j _ => .ok (tr j)) N false none (.int 3) (fun _ => 0) = .ok S ∧
        Answers (epsilonTest (1/100)) S ["x", "a", "y"] ["x", "a", "x", "a", "y"] false} ≤ 1/25 := by
  refine (responseMDP.ioalergia_uniform_rejects (by simp [responseMDP]) responseMDP_stochastic ["a"] (by simp) responseMDP_allowed (fun _ => .str) 3
    (fun _ => 0) (1/100) (by norm_num) (by norm_num) ["x", "a", "y"] ["x", "a", "x", "a", "y"] rfl rfl rfl
    (responseMDP.sameResponses_of_label (uniformPolicy ["a"]) [("x", "a")] [("x", "a"), ("x", "a")] "y" 1
      (by intro s; fin_cases s <;> simp [responseMDP]) rfl _) N).trans ?_
  have : (Finset.univ.image responseMDP.labelling).card ≤ 2 := Finset.card_image_le
  have h2 : ((Finset.univ.image responseMDP.labelling).card : ℝ) ≤ 2 := by exact_mod_cast this
  have h3 : responseMDP.actions.toFinset.card = 1 := by simp [responseMDP]
  rw [h3]
  simp
  linarith

/-- Two states 'x': after the first one 'x' is observed again, after the second one 'y'. -/
noncomputable def blindMDP : MDP ℝ String 3 where
  actions := ["a"]
  matrix := ![![![0, 1, 0]], ![![0, 0, 1]], ![![0, 0, 1]]]
  labelling := ![ "x", "x", "y" ]
  initialState := ![1, 0, 0]

theorem blindMDP_stochastic : blindMDP.Stochastic := by
  refine ⟨fun s => ?_, by simp [blindMDP, Fin.sum_univ_succ], fun s k s' => ?_, fun s k => Or.inl ?_⟩
  · fin_cases s <;> simp [blindMDP]
  · fin_cases s <;> fin_cases k <;> fin_cases s' <;> simp [blindMDP]
  · fin_cases s <;> fin_cases k <;> simp [blindMDP, Fin.sum_univ_succ]

theorem blindMDP_prob (s s' : Fin 3) : blindMDP.prob s "a" s' = blindMDP.matrix s (0 : Fin 1) s' :=
  blindMDP.prob_getElem (by simp [blindMDP]) s (0 : Fin 1) s'

theorem blindMDP_allowed : ∀ s, blindMDP.Allowed s "a" := by
  intro s
  fin_cases s
  · exact ⟨1, by rw [blindMDP_prob]; simp [blindMDP]⟩
  · exact ⟨2, by rw [blindMDP_prob]; simp [blindMDP]⟩
  · exact ⟨2, by rw [blindMDP_prob]; simp [blindMDP]⟩

theorem blindMDP_choice (s : Fin 3) : blindMDP.choiceProb (uniformPolicy ["a"]) s () "a" = 1 := by
  classical
  have hacc : blindMDP.acceptProb (uniformPolicy ["a"]) s () = 1 := by
    unfold acceptProb
    rw [Finset.filter_true_of_mem]
    · simp [blindMDP, uniformPolicy]
    · intro x hx
      have : x = "a" := by simpa [blindMDP] using hx
      rw [this]
      exact blindMDP_allowed s
  simp only [choiceProb, if_pos (blindMDP_allowed s), hacc]
  simp [uniformPolicy]

theorem blindMDP_zero (s : Fin 3) (x : String) (hx : x ≠ "a") (s' : Fin 3) : blindMDP.prob s x s' = 0 :=
  blindMDP.prob_not_mem s x s' (by simpa [blindMDP] using hx)

theorem blindMDP_trace : blindMDP.runProb (uniformPolicy ["a"]) ["x", "a", "x", "a", "y"] = 1 := by
  rw [blindMDP.runProb_suf _ _ rfl]
  simp only [runSuf, Fin.sum_univ_three, blindMDP_prob]
  have e' : ∀ s, blindMDP.choiceProb (uniformPolicy ["a"]) s (uniformPolicy ["a"]).start "a" = 1 := blindMDP_choice
  simp only [e']
  simp [blindMDP]

/-- C116, **violated**: in this model 'y' has the probability 0 after `x` and the action 'a', and the probability 1 after `x a x` and the action 'a'
(every trace of two steps is `x a x a y`); the two states are never separated, for every `epsilon` and any number of traces. -/
theorem ioalergia_never_separates (ε : ℝ) (h0 : 0 < ε) (h2 : ε ≤ 2) (N : ℕ) :
    blindMDP.runProb (uniformPolicy ["a"]) ["x", "a", "x", "a", "y"] = 1 ∧ blindMDP.runProb (uniformPolicy ["a"]) ["x", "a", "y"] = 0 ∧
    drawsLaw.real {d | ∃ tr S, blindMDP.CollectsOne (uniformScheduler ["a"]) 2 () d N tr ∧
        generateSetMDP (fun _ => .str) (fun j _ => .ok (tr j)) N false none (.int 2) (fun _ => 0) = .ok S ∧
        Answers (epsilonTest ε) S ["x"] ["x", "a", "x"] false} = 0 := by
  have hu : ∀ a o, o ≠ "x" → blindMDP.runProb (uniformPolicy ["a"]) (["x"] ++ [a, o]) = 0 := by
    intro a o ho
    rw [show ["x"] ++ [a, o] = ["x", a, o] from rfl, blindMDP.runProb_suf _ _ (by simp)]
    by_cases ha : a = "a"
    · subst ha
      simp only [runSuf, Fin.sum_univ_three, blindMDP_prob]
      simp [blindMDP, Ne.symm ho]
    · simp only [runSuf, blindMDP_zero _ a ha]
      simp
  refine ⟨blindMDP_trace, hu "a" "y" (by decide), ?_⟩
  refine blindMDP.ioalergia_uniform_blind (by simp [blindMDP]) blindMDP_stochastic ["a"] (by simp) (fun s => ⟨"a", by simp, blindMDP_allowed s⟩)
    (fun _ => .str) 2 (fun _ => 0) ε h0 h2 ["x"] ["x", "a", "x"] rfl rfl rfl (fun a o => ?_) N
  by_cases ho : o = "x"
  · right
    subst ho
    rw [show ["x", "a", "x"] ++ [a, "x"] = ["x", "a", "x", a, "x"] from rfl, blindMDP.runProb_suf _ _ (by simp)]
    by_cases ha : a = "a"
    · subst ha
      simp only [runSuf, Fin.sum_univ_three, blindMDP_prob]
      simp [blindMDP]
    · simp only [runSuf, blindMDP_zero _ a ha]
      simp
  · left
    exact hu a o ho

/-- A training set in which the two states are in the tree: the test accepts them. -/
example : Answers half sampleUnseen ["x"] ["x", "a", "x"] true := by
  obtain ⟨A0, h1, -, h3, -⟩ := test_ignores_unseen
  refine ⟨build (sampleUnseen.sequences.zip sampleUnseen.times) (["x", "y"].insertionSort (· ≤ ·)) (["a"].insertionSort (· ≤ ·)), 0, 1,
    ⟨["a"], ["x", "y"], by decide +kernel, rfl⟩, by decide +kernel, by decide +kernel, by decide +kernel, by decide +kernel, by decide +kernel⟩

end MDP
end Jajapy
