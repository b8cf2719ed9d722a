import Verif.Lemmas.IOAlergiaLimit
import Verif.Props.IOAlergiaError

/-!
C117: with enough traces IOAlergia's test tells different responses apart.
-/

set_option autoImplicit false
set_option linter.unusedSectionVars false

namespace Jajapy

open MeasureTheory ProbabilityTheory Filter Spec IOAlergia Spec.IOAlergia

namespace MDP
variable {σ : Type} {n : ℕ} {sch : Sched ℝ String σ} {P : Policy σ String} {dom : σ → Prop}

theorem ioalergia_separates_of_behaves (M : MDP ℝ String n) (hn : M.actions.Nodup) (hS : M.Stochastic) (hB : Behaves sch P dom)
    (kind : String → Kind) (steps : ℕ) (geom : ℕ → ℕ) (st0 : σ) (ht : drawsLaw {d | ∃ w, M.Returns sch steps st0 w d} = 1)
    (ε : ℝ) (h0 : 0 < ε) (h2 : ε ≤ 2) (u v : List String) (hu : u.length % 2 = 1) (hv : v.length % 2 = 1) (hlast : u.getLast? = v.getLast?)
    (w : List (String × String)) (a o : String) (hul : u.length + 2 * (w.length + 1) ≤ 2 * steps + 1) (hvl : v.length + 2 * (w.length + 1) ≤ 2 * steps + 1)
    (p1 : 0 < M.runProb P (u ++ letters w ++ [a, o])) (p2 : 0 < M.runProb P (v ++ letters w ++ [a, o]))
    (hne : M.runProb P (u ++ letters w ++ [a, o]) / ∑ o' ∈ Finset.univ.image M.labelling, M.runProb P (u ++ letters w ++ [a, o']) ≠
      M.runProb P (v ++ letters w ++ [a, o]) / ∑ o' ∈ Finset.univ.image M.labelling, M.runProb P (v ++ letters w ++ [a, o'])) :
    ∀ᵐ d ∂drawsLaw, ∀ᶠ N in atTop, ∃ tr S, M.CollectsOne sch steps st0 d N tr ∧
      generateSetMDP kind (fun j _ => .ok (tr j)) N false none (.int steps) geom = .ok S ∧ Answers (epsilonTest ε) S u v false := by
  have hs := M.simulates_traces hn hS hB steps st0 ht
  letI := simSpace (M.outcome sch steps st0)
  have key : ∀ p : List String, p.length % 2 = 1 → p.length + 2 * (w.length + 1) ≤ 2 * steps + 1 → ∀ o,
      drawsLaw.real (prefEvent (M.outcome sch steps st0) (p ++ letters w ++ [a, o])) = M.runProb P (p ++ letters w ++ [a, o]) := by
    intro p hp hl o
    refine M.prefix_law hn hS hB steps st0 ht _ ((p.length + 2 * (w.length + 1)) / 2) ?_ (by omega)
    simp only [List.length_append, letters_length, List.length_cons, List.length_nil]
    omega
  have act : ∀ p : List String, p.length % 2 = 1 → p.length + 2 * (w.length + 1) ≤ 2 * steps + 1 →
      drawsLaw.real (prefEvent (M.outcome sch steps st0) (p ++ letters w ++ [a])) =
        ∑ o' ∈ Finset.univ.image M.labelling, M.runProb P (p ++ letters w ++ [a, o']) := by
    intro p hp hl
    rw [pref_action hs (fun w hw => by rw [hw.1]; omega) (Finset.univ.image M.labelling)
      (by rw [List.length_append, letters_length]; omega) (fun t ht i => (ht.2 i).2)]
    exact Finset.sum_congr rfl (fun o _ => key p hp hl o)
  refine M.one_stream_ae hn hS hB kind steps geom st0 hs _ ?_
  refine io_separates_law (gen := fun s N => generateSetMDP kind (fun j _ => s j) N false none (.int steps) geom) hs.results
    (genMDP_counts kind steps geom _) (fun w hw => by rw [hw.1]; omega) ε h0 h2 u v hu hv hlast w a o ?_ ?_ ?_
  · rw [result_pref hs, key u hu hul]; exact p1
  · rw [result_pref hs, key v hv hvl]; exact p2
  · simp only [result_pref hs]
    rw [key u hu hul, act u hu hul, key v hv hvl, act v hv hvl]
    exact hne

/-- C117, uniform scheduler: the training set is generated by the MDP with `generateSet`, on one sequence of random numbers. If, for some actions and
observations `w` in between, the conditional probability of the observation `o` after the action `a` is not the same after `u` and after `v`,
*and it is positive in both cases*, then the states of the prefix tree reached by `u` and `v` are declared incompatible as soon as the set is large enough,
with probability one, for every `epsilon`. (Without the last condition it is false: `ioalergia_never_separates`.) -/
theorem ioalergia_uniform_separates_partial (M : MDP ℝ String n) (hn : M.actions.Nodup) (hS : M.Stochastic) (acts : List String)
    (hne : acts ≠ []) (ha : ∀ s, ∃ x ∈ acts, M.Allowed s x) (kind : String → Kind) (steps : ℕ) (geom : ℕ → ℕ)
    (ε : ℝ) (h0 : 0 < ε) (h2 : ε ≤ 2) (u v : List String) (hu : u.length % 2 = 1) (hv : v.length % 2 = 1) (hlast : u.getLast? = v.getLast?)
    (w : List (String × String)) (a o : String) (hul : u.length + 2 * (w.length + 1) ≤ 2 * steps + 1) (hvl : v.length + 2 * (w.length + 1) ≤ 2 * steps + 1)
    (p1 : 0 < M.runProb (uniformPolicy acts) (u ++ letters w ++ [a, o])) (p2 : 0 < M.runProb (uniformPolicy acts) (v ++ letters w ++ [a, o]))
    (hdiff : M.runProb (uniformPolicy acts) (u ++ letters w ++ [a, o]) /
        ∑ o' ∈ Finset.univ.image M.labelling, M.runProb (uniformPolicy acts) (u ++ letters w ++ [a, o']) ≠
      M.runProb (uniformPolicy acts) (v ++ letters w ++ [a, o]) /
        ∑ o' ∈ Finset.univ.image M.labelling, M.runProb (uniformPolicy acts) (v ++ letters w ++ [a, o'])) :
    ∀ᵐ d ∂drawsLaw, ∀ᶠ N in atTop, ∃ tr S, M.CollectsOne (uniformScheduler acts) steps () d N tr ∧
      generateSetMDP kind (fun j _ => .ok (tr j)) N false none (.int steps) geom = .ok S ∧ Answers (epsilonTest ε) S u v false :=
  M.ioalergia_separates_of_behaves hn hS (uniformScheduler_behaves acts hne) kind steps geom ()
    (M.run_uniform_returns hn hS acts ha steps) ε h0 h2 u v hu hv hlast w a o hul hvl p1 p2 hdiff

/-- C117, finite-memory scheduler, in any state at the start. -/
theorem ioalergia_fm_separates_partial (M : MDP ℝ String n) (hn : M.actions.Nodup) (hS : M.Stochastic) (F : FMScheduler ℝ String) (m : ℕ)
    (hF : FMValid F m) (ha : ∀ s, ∀ k < m, ∃ x, M.Allowed s x ∧ 0 < (fmPolicy F).propose k x) (kind : String → Kind) (steps : ℕ)
    (geom : ℕ → ℕ) (st0 : ℕ)
    (ε : ℝ) (h0 : 0 < ε) (h2 : ε ≤ 2) (u v : List String) (hu : u.length % 2 = 1) (hv : v.length % 2 = 1) (hlast : u.getLast? = v.getLast?)
    (w : List (String × String)) (a o : String) (hul : u.length + 2 * (w.length + 1) ≤ 2 * steps + 1) (hvl : v.length + 2 * (w.length + 1) ≤ 2 * steps + 1)
    (p1 : 0 < M.runProb (fmPolicy F) (u ++ letters w ++ [a, o])) (p2 : 0 < M.runProb (fmPolicy F) (v ++ letters w ++ [a, o]))
    (hdiff : M.runProb (fmPolicy F) (u ++ letters w ++ [a, o]) /
        ∑ o' ∈ Finset.univ.image M.labelling, M.runProb (fmPolicy F) (u ++ letters w ++ [a, o']) ≠
      M.runProb (fmPolicy F) (v ++ letters w ++ [a, o]) /
        ∑ o' ∈ Finset.univ.image M.labelling, M.runProb (fmPolicy F) (v ++ letters w ++ [a, o'])) :
    ∀ᵐ d ∂drawsLaw, ∀ᶠ N in atTop, ∃ tr S, M.CollectsOne F.sched steps st0 d N tr ∧
      generateSetMDP kind (fun j _ => .ok (tr j)) N false none (.int steps) geom = .ok S ∧ Answers (epsilonTest ε) S u v false :=
  M.ioalergia_separates_of_behaves hn hS (fmScheduler_behaves F m hF) kind steps geom st0
    (M.run_fm_returns hn hS F m hF ha steps st0) ε h0 h2 u v hu hv hlast w a o hul hvl p1 p2 hdiff

/-- C117, uniform scheduler: when the same actions and observations are *possible* after `u` and after `v`, in the rest of the traces, every
difference between the responses is found: no further condition is needed. -/
theorem ioalergia_uniform_separates_support (M : MDP ℝ String n) (hn : M.actions.Nodup) (hS : M.Stochastic) (acts : List String)
    (hne : acts ≠ []) (ha : ∀ s, ∃ x ∈ acts, M.Allowed s x) (kind : String → Kind) (steps : ℕ) (geom : ℕ → ℕ)
    (ε : ℝ) (h0 : 0 < ε) (h2 : ε ≤ 2) (u v : List String) (hu : u.length % 2 = 1) (hv : v.length % 2 = 1) (hlast : u.getLast? = v.getLast?)
    (hsupp : ∀ w a o, M.runProb (uniformPolicy acts) (u ++ letters w ++ [a, o]) = 0 ↔ M.runProb (uniformPolicy acts) (v ++ letters w ++ [a, o]) = 0)
    (w : List (String × String)) (a o : String) (hul : u.length + 2 * (w.length + 1) ≤ 2 * steps + 1) (hvl : v.length + 2 * (w.length + 1) ≤ 2 * steps + 1)
    (hdiff : M.runProb (uniformPolicy acts) (u ++ letters w ++ [a, o]) /
        ∑ o' ∈ Finset.univ.image M.labelling, M.runProb (uniformPolicy acts) (u ++ letters w ++ [a, o']) ≠
      M.runProb (uniformPolicy acts) (v ++ letters w ++ [a, o]) /
        ∑ o' ∈ Finset.univ.image M.labelling, M.runProb (uniformPolicy acts) (v ++ letters w ++ [a, o'])) :
    ∀ᵐ d ∂drawsLaw, ∀ᶠ N in atTop, ∃ tr S, M.CollectsOne (uniformScheduler acts) steps () d N tr ∧
      generateSetMDP kind (fun j _ => .ok (tr j)) N false none (.int steps) geom = .ok S ∧ Answers (epsilonTest ε) S u v false := by
  have hB := uniformScheduler_behaves acts hne
  have nn : ∀ p : List String, p.length % 2 = 1 → 0 ≤ M.runProb (uniformPolicy acts) (p ++ letters w ++ [a, o]) := by
    intro p hp
    refine M.runProb_nonneg hS hB _ ?_
    simp only [List.length_append, letters_length, List.length_cons, List.length_nil]
    omega
  have hz : M.runProb (uniformPolicy acts) (u ++ letters w ++ [a, o]) ≠ 0 := by
    intro h
    apply hdiff
    rw [h, (hsupp w a o).1 h, zero_div, zero_div]
  exact M.ioalergia_uniform_separates_partial hn hS acts hne ha kind steps geom ε h0 h2 u v hu hv hlast w a o hul hvl
    (lt_of_le_of_ne (nn u hu) (Ne.symm hz)) (lt_of_le_of_ne (nn v hv) (fun h => hz ((hsupp w a o).2 h.symm))) hdiff

/-! ### Example -/

/-- Two states 'x': the first one is followed by 'y' with the probability 1/2, the second one with the probability 3/4. -/
noncomputable def unlikeMDP : MDP ℝ String 3 where
  actions := ["a"]
  matrix := ![![![0, 1/2, 1/2]], ![![0, 1/4, 3/4]], ![![0, 0, 1]]]
  labelling := ![ "x", "x", "y" ]
  initialState := ![1, 0, 0]

theorem unlikeMDP_stochastic : unlikeMDP.Stochastic := by
  refine ⟨fun s => ?_, by simp [unlikeMDP, Fin.sum_univ_succ], fun s k s' => ?_, fun s k => Or.inl ?_⟩
  · fin_cases s <;> simp [unlikeMDP]
  · fin_cases s <;> fin_cases k <;> fin_cases s' <;> simp [unlikeMDP] <;> norm_num
  · fin_cases s <;> fin_cases k <;> simp [unlikeMDP, Fin.sum_univ_succ] <;> norm_num

theorem unlikeMDP_prob (s s' : Fin 3) : unlikeMDP.prob s "a" s' = unlikeMDP.matrix s (0 : Fin 1) s' :=
  unlikeMDP.prob_getElem (by simp [unlikeMDP]) s (0 : Fin 1) s'

theorem unlikeMDP_allowed : ∀ s, unlikeMDP.Allowed s "a" := by
  intro s
  refine ⟨2, ?_⟩
  rw [unlikeMDP_prob]
  fin_cases s <;> simp [unlikeMDP]

theorem unlikeMDP_choice (s : Fin 3) : unlikeMDP.choiceProb (uniformPolicy ["a"]) s () "a" = 1 := by
  classical
  have hacc : unlikeMDP.acceptProb (uniformPolicy ["a"]) s () = 1 := by
    unfold acceptProb
    rw [Finset.filter_true_of_mem]
    · simp [unlikeMDP, uniformPolicy]
    · intro x hx
      have : x = "a" := by simpa [unlikeMDP] using hx
      rw [this]
      exact unlikeMDP_allowed s
  simp only [choiceProb, if_pos (unlikeMDP_allowed s), hacc]
  simp [uniformPolicy]

theorem unlikeMDP_lik (o : String) : unlikeMDP.runProb (uniformPolicy ["a"]) ["x", "a", o] = (if o = "x" then 1/2 else 0) + (if o = "y" then 1/2 else 0) ∧
    unlikeMDP.runProb (uniformPolicy ["a"]) ["x", "a", "x", "a", o] = (if o = "x" then 1/8 else 0) + (if o = "y" then 3/8 else 0) := by
  have e' : ∀ s, unlikeMDP.choiceProb (uniformPolicy ["a"]) s (uniformPolicy ["a"]).start "a" = 1 := unlikeMDP_choice
  constructor
  · rw [unlikeMDP.runProb_suf _ _ (by simp)]
    simp only [runSuf, Fin.sum_univ_three, unlikeMDP_prob, e']
    by_cases hx : o = "x"
    · subst hx; simp [unlikeMDP]
    · by_cases hy : o = "y"
      · subst hy; simp [unlikeMDP]
      · simp [unlikeMDP, hx, hy, Ne.symm hx, Ne.symm hy]
  · rw [unlikeMDP.runProb_suf _ _ (by simp)]
    simp only [runSuf, Fin.sum_univ_three, unlikeMDP_prob, e']
    by_cases hx : o = "x"
    · subst hx; simp [unlikeMDP]; norm_num
    · by_cases hy : o = "y"
      · subst hy; simp [unlikeMDP]; norm_num
      · simp [unlikeMDP, hx, hy, Ne.symm hx, Ne.symm hy]

/-- The two states reached by `x` and `x a x` are told apart in the end, for every `epsilon`. -/
example (ε : ℝ) (h0 : 0 < ε) (h2 : ε ≤ 2) : ∀ᵐ d ∂drawsLaw, ∀ᶠ N in atTop, ∃ tr S, unlikeMDP.CollectsOne (uniformScheduler ["a"]) 2 () d N tr ∧
      generateSetMDP (fun _ => .str) (fun j _ => .ok (tr j)) N false none (.int 2) (fun _ => 0) = .ok S ∧
      Answers (epsilonTest ε) S ["x"] ["x", "a", "x"] false := by
  have hO : Finset.univ.image unlikeMDP.labelling = {"x", "y"} := by
    ext o
    simp [unlikeMDP, Fin.exists_fin_succ, eq_comm]
  have e1 := fun o => (unlikeMDP_lik o).1
  have e2 := fun o => (unlikeMDP_lik o).2
  refine unlikeMDP.ioalergia_uniform_separates_partial (by simp [unlikeMDP]) unlikeMDP_stochastic ["a"] (by simp)
    (fun s => ⟨"a", by simp, unlikeMDP_allowed s⟩) (fun _ => .str) 2 (fun _ => 0) ε h0 h2 ["x"] ["x", "a", "x"] rfl rfl rfl [] "a" "y"
    (by simp) (by simp) ?_ ?_ ?_
  · simp [letters, e1]
  · simp [letters, e2]
  · simp only [letters, List.flatMap_nil, List.append_nil, List.cons_append, List.nil_append, hO, e1, e2]
    rw [Finset.sum_pair (by decide), Finset.sum_pair (by decide)]
    simp
    norm_num

end MDP
end Jajapy
