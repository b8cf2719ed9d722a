import Verif.Lemmas.Limit
import Verif.Lemmas.GainCT
import Verif.Lemmas.Learn
import Verif.Spec.Stationary

/-!
Lemmas for the limits of Baum-Welch: sequences of models, and Markov chains.
-/

set_option linter.unusedSectionVars false

namespace Jajapy

open Finset Spec BW Filter Topology

section generic
variable {O : Type}

/-- The average log-likelihood when the possible traces are known. -/
theorem avgLogLik_filter (P Q : List O → ℝ) (S : TSet O) (h : ∀ w ∈ S.sequences, 0 < P w ↔ Q w ≠ 0) :
    avgLogLik P S = (((S.sequences.zip S.times).filter (fun x => ¬ Q x.1 = 0)).map (fun x => Real.log (P x.1) * x.2)).sum
      / (S.times.sum : ℕ) := by
  unfold avgLogLik
  have e : (S.sequences.zip S.times).filter (fun p => 0 < P p.1) = (S.sequences.zip S.times).filter (fun x => ¬ Q x.1 = 0) :=
    List.filter_congr (fun x hx => by rw [decide_eq_decide]; exact h x.1 (List.of_mem_zip hx).1)
  rw [e]
  simp only [mul_comm]

/-- If the log-likelihoods of a sequence of models are bounded from below and the probabilities of the traces converge, then
the possible traces stay possible and the log-likelihoods converge. -/
theorem avgLogLik_limit {J : Type} {l : Filter J} [l.NeBot] (P : J → List O → ℝ) (P' Q : List O → ℝ) (S : TSet O) (a C : ℝ) (hC : 1 ≤ C)
    (ht : ∀ t ∈ S.times, 1 ≤ t) (hlen : S.times.length = S.sequences.length)
    (h : ∀ j, ∀ w ∈ S.sequences, 0 < P j w ↔ Q w ≠ 0) (h1 : ∀ j, ∀ w ∈ S.sequences, P j w ≤ C)
    (ha : ∀ j, a ≤ avgLogLik (P j) S) (hP : ∀ w ∈ S.sequences, Tendsto (fun j => P j w) l (𝓝 (P' w))) :
    (∀ w ∈ S.sequences, 0 < P' w ↔ Q w ≠ 0) ∧ Tendsto (fun j => avgLogLik (P j) S) l (𝓝 (avgLogLik P' S)) := by
  have hmem : ∀ x ∈ (S.sequences.zip S.times).filter (fun x => ¬ Q x.1 = 0), x.1 ∈ S.sequences ∧ x.2 ∈ S.times ∧ Q x.1 ≠ 0 := by
    intro x hx
    obtain ⟨h1, h2⟩ := List.mem_filter.mp hx
    exact ⟨(List.of_mem_zip h1).1, (List.of_mem_zip h1).2, by simpa using h2⟩
  have hpos : ∀ w ∈ S.sequences, 0 < P' w ↔ Q w ≠ 0 := by
    intro w hw
    constructor
    · intro hp hq
      have : P' w ≤ 0 := le_of_tendsto (hP w hw) (Eventually.of_forall (fun j => by
        by_contra hc
        exact (h j w hw).mp (not_le.mp hc) hq))
      linarith
    · intro hq
      obtain ⟨t, hm⟩ := mem_zip_of_mem S hlen w hw
      have hx : (w, t) ∈ (S.sequences.zip S.times).filter (fun x => ¬ Q x.1 = 0) :=
        List.mem_filter.mpr ⟨hm, by simpa using hq⟩
      have htp : 1 ≤ t := ht _ (List.of_mem_zip hm).2
      have htot : 0 < (S.times.sum : ℕ) := List.sum_pos_iff_exists_pos_nat.mpr ⟨_, (List.of_mem_zip hm).2, htp⟩
      have hlow : ∀ j, Real.exp (S.times.sum * (a - Real.log C)) ≤ P j w := by
        intro j
        rw [← Real.le_log_iff_exp_le ((h j w hw).mpr hq)]
        have hc0 : 0 ≤ Real.log C := Real.log_nonneg hC
        have h2 := ha j
        rw [avgLogLik_filter (P j) Q S (h j), le_div_iff₀ (by exact_mod_cast htot)] at h2
        have hneg : ∀ x ∈ (S.sequences.zip S.times).filter (fun x => ¬ Q x.1 = 0), (Real.log (P j x.1) - Real.log C) * x.2 ≤ 0 := by
          intro x hx
          obtain ⟨b1, _, b3⟩ := hmem x hx
          exact mul_nonpos_of_nonpos_of_nonneg (sub_nonpos.mpr (Real.log_le_log ((h j _ b1).mpr b3) (h1 j _ b1))) (Nat.cast_nonneg _)
        have h3 : (((S.sequences.zip S.times).filter (fun x => ¬ Q x.1 = 0)).map (fun x => (Real.log (P j x.1) - Real.log C) * x.2)).sum
            ≤ (Real.log (P j w) - Real.log C) * t := by
          obtain ⟨l1, l2, he⟩ := List.append_of_mem hx
          rw [he] at hneg ⊢
          rw [List.map_append, List.map_cons, List.sum_append, List.sum_cons]
          have : ∀ l : List (List O × ℕ), (∀ x ∈ l, (Real.log (P j x.1) - Real.log C) * x.2 ≤ 0) →
              (l.map (fun x => (Real.log (P j x.1) - Real.log C) * x.2)).sum ≤ 0 := by
            intro l hl
            induction l with
            | nil => simp
            | cons y l ih =>
              rw [List.map_cons, List.sum_cons]
              have := hl y List.mem_cons_self
              have := ih (fun z hz => hl z (List.mem_cons_of_mem _ hz))
              linarith
          have i1 := this l1 (fun x hx => hneg x (List.mem_append_left _ hx))
          have i2 := this l2 (fun x hx => hneg x (List.mem_append_right _ (List.mem_cons_of_mem _ hx)))
          simp only
          linarith
        have h4 : (Real.log (P j w) - Real.log C) * t ≤ Real.log (P j w) - Real.log C := by
          have : Real.log (P j w) - Real.log C ≤ 0 := sub_nonpos.mpr (Real.log_le_log ((h j _ hw).mpr hq) (h1 j _ hw))
          have : (1:ℝ) ≤ t := by exact_mod_cast htp
          nlinarith
        have h5 : (((S.sequences.zip S.times).filter (fun x => ¬ Q x.1 = 0)).map (fun x => (Real.log (P j x.1) - Real.log C) * x.2)).sum
            = (((S.sequences.zip S.times).filter (fun x => ¬ Q x.1 = 0)).map (fun x => Real.log (P j x.1) * x.2)).sum
              - Real.log C * (((S.sequences.zip S.times).filter (fun x => ¬ Q x.1 = 0)).map (fun x => (x.2 : ℝ))).sum := by
          generalize (S.sequences.zip S.times).filter (fun x => ¬ Q x.1 = 0) = l
          induction l with
          | nil => simp
          | cons y l ih => simp only [List.map_cons, List.sum_cons, ih]; ring
        have h6 : (((S.sequences.zip S.times).filter (fun x => ¬ Q x.1 = 0)).map (fun x => (x.2 : ℝ))).sum ≤ (S.times.sum : ℕ) := by
          have h7 : ∀ (l1 : List (List O)) (l2 : List ℕ), (((l1.zip l2).filter (fun x => ¬ Q x.1 = 0)).map (fun x => (x.2 : ℝ))).sum
              ≤ (l2.sum : ℕ) := by
            intro l1 l2
            induction l1 generalizing l2 with
            | nil => simpa using Nat.cast_nonneg (α := ℝ) l2.sum
            | cons y l1 ih =>
              cases l2 with
              | nil => simp
              | cons t l2 =>
                have := ih l2
                rw [List.zip_cons_cons, List.filter_cons]
                split_ifs
                · rw [List.map_cons, List.sum_cons, List.sum_cons]; push_cast at this ⊢; linarith
                · rw [List.sum_cons]; push_cast at this ⊢; linarith [Nat.cast_nonneg (α := ℝ) t]
          exact h7 _ _
        have h8 := mul_le_mul_of_nonneg_left h6 hc0
        nlinarith [mul_comm a ((S.times.sum : ℕ) : ℝ)]
      exact lt_of_lt_of_le (Real.exp_pos _) (ge_of_tendsto (hP w hw) (Eventually.of_forall hlow))
  refine ⟨hpos, ?_⟩
  rw [avgLogLik_filter P' Q S hpos]
  simp only [fun j => avgLogLik_filter (P j) Q S (h j)]
  refine Tendsto.div_const (tendsto_list_sum _ _ _ (fun x hx => ?_)) _
  obtain ⟨b1, _, b3⟩ := hmem x hx
  exact ((hP _ b1).log ((hpos _ b1).mpr b3).ne').mul_const _

/-- A non-decreasing bounded sequence of log-likelihoods, each gain of which is at least a distance: the distances tend to 0. -/
theorem gains_vanish (F : ℕ → ℝ) (B : ℝ) (hm : Monotone F) (hB : ∀ k, F k ≤ B) :
    Tendsto (fun k => F (k + 1) - F k) atTop (𝓝 0) := by
  have h := tendsto_atTop_ciSup hm ⟨B, by rintro _ ⟨k, rfl⟩; exact hB k⟩
  have := (h.comp (tendsto_add_atTop_nat 1)).sub h
  simpa using this

/-- If the gains tend to 0 and once a gain is 0 all the next ones are, then the gains two iterations later than gains that
tend to 0 also tend to 0. -/
theorem gains_later (g : ℕ → ℝ) (h0 : ∀ k, 0 ≤ g k) (hz : ∀ k, g k = 0 → g (k + 1) = 0) (hg : Tendsto g atTop (𝓝 0))
    {J : Type} {l : Filter J} (k : J → ℕ) (hk : Tendsto (fun j => g (k j)) l (𝓝 0)) :
    Tendsto (fun j => g (k j + 2)) l (𝓝 0) := by
  rw [Metric.tendsto_nhds]
  intro δ hδ
  obtain ⟨m, hm⟩ := (Metric.tendsto_atTop.mp hg) δ hδ
  -- the least positive gain before m
  have hη : ∃ η > 0, ∀ i < m, g i < η → g i = 0 := by
    clear hm
    induction m with
    | zero => exact ⟨1, one_pos, fun i hi => absurd hi (by omega)⟩
    | succ m ih =>
      obtain ⟨η, hη, h⟩ := ih
      rcases (h0 m).eq_or_lt with hm | hm
      · refine ⟨η, hη, fun i hi hlt => ?_⟩
        rcases Nat.lt_succ_iff_lt_or_eq.mp hi with h1 | rfl
        · exact h i h1 hlt
        · exact hm.symm
      · refine ⟨min η (g m), lt_min hη hm, fun i hi hlt => ?_⟩
        rcases Nat.lt_succ_iff_lt_or_eq.mp hi with h1 | rfl
        · exact h i h1 (lt_of_lt_of_le hlt (min_le_left _ _))
        · exact absurd (lt_of_lt_of_le hlt (min_le_right _ _)) (lt_irrefl _)
  obtain ⟨η, hη, hsmall⟩ := hη
  filter_upwards [(Metric.tendsto_nhds.mp hk) η hη] with j hj
  by_cases hc : k j < m
  · rw [Real.dist_eq, sub_zero, abs_of_nonneg (h0 _)] at hj
    have := hz _ (hz _ (hsmall _ hc hj))
    rw [this]
    simpa using hδ
  · exact hm _ (by omega)

end generic

section mc
variable {L : Type} {n : ℕ} [DecidableEq L]

/-- The distance covered by an iteration, weighted by the visits. -/
noncomputable def moveMC (M : MC ℝ L n) (S : TSet L) : ℝ :=
  ∑ s, ∑ ss, (Real.sqrt (numMC M S s ss) - Real.sqrt (denMC M S s * M.matrix s ss)) ^ 2

theorem denMC_nonneg (M : MC ℝ L n) (S : TSet L) (hi0 : ∀ s, 0 ≤ M.initialState s) (hm0 : ∀ s s', 0 ≤ M.matrix s s') (s : Fin n) :
    0 ≤ denMC M S s := by
  rw [← sum_numMC]; exact Finset.sum_nonneg (fun ss _ => numMC_nonneg M S hi0 hm0 s ss)

theorem moveMC_eq_zero (M : MC ℝ L n) (S : TSet L) (hi0 : ∀ s, 0 ≤ M.initialState s) (hm0 : ∀ s s', 0 ≤ M.matrix s s')
    (h : moveMC M S ≤ 0) (s ss : Fin n) : numMC M S s ss = denMC M S s * M.matrix s ss := by
  have h0 : ∀ s, 0 ≤ ∑ ss, (Real.sqrt (numMC M S s ss) - Real.sqrt (denMC M S s * M.matrix s ss)) ^ 2 :=
    fun s => Finset.sum_nonneg (fun ss _ => sq_nonneg _)
  have h1 := (Finset.sum_eq_zero_iff_of_nonneg (fun s _ => h0 s)).mp (le_antisymm h (Finset.sum_nonneg (fun s _ => h0 s))) s
    (Finset.mem_univ s)
  have h2 := (Finset.sum_eq_zero_iff_of_nonneg (fun ss _ => sq_nonneg _)).mp h1 ss (Finset.mem_univ ss)
  have h3 := sub_eq_zero.mp (pow_eq_zero_iff (by norm_num) |>.mp h2)
  exact (Real.sqrt_inj (numMC_nonneg M S hi0 hm0 s ss) (mul_nonneg (denMC_nonneg M S hi0 hm0 s) (hm0 s ss))).mp h3

/-- The chain is left unchanged exactly when the expected counts agree with it. -/
theorem newMC_eq_iff (M : MC ℝ L n) (S : TSet L) (hi0 : ∀ s, 0 ≤ M.initialState s) (hm0 : ∀ s s', 0 ≤ M.matrix s s') :
    newMC M S = M ↔ ∀ s ss, numMC M S s ss = denMC M S s * M.matrix s ss := by
  constructor
  · intro h s ss
    have h1 : (newMC M S).matrix s ss = M.matrix s ss := by rw [h]
    simp only [newMC] at h1
    split_ifs at h1 with h0
    · have := (Finset.sum_eq_zero_iff_of_nonneg (fun ss _ => numMC_nonneg M S hi0 hm0 s ss)).mp ((sum_numMC M S s).trans h0) ss
        (Finset.mem_univ ss)
      rw [this, h0, zero_mul]
    · rw [← h1]; field_simp
  · intro h
    have : (newMC M S).matrix = M.matrix := by
      funext s ss
      simp only [newMC]
      split_ifs with h0
      · rfl
      · rw [h s ss]; field_simp
    cases M
    simp only [newMC, MC.mk.injEq, and_true] at this ⊢
    exact this

/-- An iteration gains at least the distance it covers. -/
theorem newMC_gain_sq (M : MC ℝ L n) (S : TSet L) (hi0 : ∀ s, 0 ≤ M.initialState s) (hm0 : ∀ s s', 0 ≤ M.matrix s s')
    (hm1 : ∀ s, ∑ s', M.matrix s s' ≤ 1) (ht : ∀ t ∈ S.times, 1 ≤ t) :
    ((possMC M S).map (fun x => Real.log (totalWeight M.initialState M.step (fun _ => 1) x.1) * x.2)).sum + moveMC M S ≤
    ((possMC M S).map (fun x => Real.log (totalWeight M.initialState (newMC M S).step (fun _ => 1) x.1) * x.2)).sum := by
  have hn := numMC_nonneg M S hi0 hm0
  have hd := denMC_nonneg M S hi0 hm0
  have hm0' : ∀ s s', 0 ≤ (newMC M S).matrix s s' := by
    intro s s'
    simp only [newMC]
    split_ifs
    · exact hm0 _ _
    · exact div_nonneg (hn _ _) (hd _)
  have hden : ∀ s ss, 0 < numMC M S s ss → 0 < denMC M S s := fun s ss h => lt_of_lt_of_le h (by
    rw [← sum_numMC]; exact Finset.single_le_sum (fun ss _ => hn s ss) (Finset.mem_univ ss))
  have hmat : ∀ s ss, 0 < numMC M S s ss → 0 < M.matrix s ss := by
    intro s ss h
    rcases (hm0 s ss).eq_or_lt with h0 | h0
    · rw [numMC_zero M S s ss h0.symm] at h; exact absurd h (lt_irrefl _)
    · exact h0
  have hg := (chains_gain_le M (newMC M S) S hi0 hm0 hm0' rfl ht (fun s ss _ h => by
    have := hden s ss h
    simp only [newMC, if_neg this.ne']
    exact div_pos h this)).2
  refine le_trans (add_le_add le_rfl ?_) hg
  unfold moveMC
  refine Finset.sum_le_sum (fun s _ => ?_)
  have h1 : ∀ ss, (Real.sqrt (numMC M S s ss) - Real.sqrt (denMC M S s * M.matrix s ss)) ^ 2 ≤
      numMC M S s ss * Real.log ((newMC M S).matrix s ss / M.matrix s ss) - numMC M S s ss + denMC M S s * M.matrix s ss := by
    intro ss
    refine le_trans (sq_le_gain _ _ (hn s ss) (mul_nonneg (hd s) (hm0 s ss)) (fun h => mul_pos (hden s ss h) (hmat s ss h))) ?_
    rcases (hn s ss).eq_or_lt with h0 | h0
    · rw [← h0]; simp
    · have := hden s ss h0
      simp only [newMC, if_neg this.ne']
      rw [div_div]
  refine le_trans (Finset.sum_le_sum (fun ss _ => h1 ss)) ?_
  rw [Finset.sum_add_distrib, Finset.sum_sub_distrib, sum_numMC, ← Finset.mul_sum]
  have := mul_le_mul_of_nonneg_left (hm1 s) (hd s)
  linarith

/-- The expected counts depend continuously on the chain, as long as the same traces are possible. -/
theorem numMC_tendsto {J : Type} {l : Filter J} (M : J → MC ℝ L n) (N : MC ℝ L n) (S : TSet L)
    (hl : ∀ j, (M j).labelling = N.labelling) (hi : ∀ j, (M j).initialState = N.initialState)
    (hm : ∀ s ss, Tendsto (fun j => (M j).matrix s ss) l (𝓝 (N.matrix s ss))) (hp : ∀ j, possMC (M j) S = possMC N S) (s ss : Fin n) :
    Tendsto (fun j => numMC (M j) S s ss) l (𝓝 (numMC N S s ss)) := by
  have hstep : ∀ s ss o, Tendsto (fun j => (M j).step s ss o) l (𝓝 (N.step s ss o)) := by
    intro s ss o
    unfold MC.step
    simp only [hl]
    exact (hm s ss).const_mul _
  have e : ∀ j, numMC (M j) S s ss = ((possMC N S).map (fun x => use (M j).step N.initialState (fun _ => 1) (fun _ => 1)
      ((x.2 : ℝ) / totalWeight N.initialState (M j).step (fun _ => 1) x.1) x.1 s ss)).sum := by
    intro j
    unfold numMC
    rw [hp j]
    congr 1
    refine List.map_congr_left (fun x _ => ?_)
    simp only [wkMC]
    rw [hi j]
  have e' : numMC N S s ss = ((possMC N S).map (fun x => use N.step N.initialState (fun _ => 1) (fun _ => 1)
      ((x.2 : ℝ) / totalWeight N.initialState N.step (fun _ => 1) x.1) x.1 s ss)).sum := rfl
  rw [e']
  simp only [e]
  refine tendsto_list_sum (possMC N S) _ _ (fun x hx => ?_)
  have hne : totalWeight N.initialState N.step (fun _ => 1) x.1 ≠ 0 := by
    have := (List.mem_filter.mp hx).2
    simpa using this
  have hw := tendsto_totalWeight (fun j => (M j).step) N.step (fun _ => N.initialState) N.initialState (fun _ => 1) hstep
    (fun _ => tendsto_const_nhds) x.1
  exact tendsto_use (fun j => (M j).step) N.step (fun _ => N.initialState) N.initialState (fun _ => 1) _ _ hstep
    (fun _ => tendsto_const_nhds) (Tendsto.div tendsto_const_nhds hw hne) _ _ _ _

theorem moveMC_tendsto {J : Type} {l : Filter J} (M : J → MC ℝ L n) (N : MC ℝ L n) (S : TSet L)
    (hl : ∀ j, (M j).labelling = N.labelling) (hi : ∀ j, (M j).initialState = N.initialState)
    (hm : ∀ s ss, Tendsto (fun j => (M j).matrix s ss) l (𝓝 (N.matrix s ss))) (hp : ∀ j, possMC (M j) S = possMC N S) :
    Tendsto (fun j => moveMC (M j) S) l (𝓝 (moveMC N S)) := by
  unfold moveMC
  have hn := fun s ss => numMC_tendsto M N S hl hi hm hp s ss
  refine tendsto_finsetSum _ (fun s _ => tendsto_finsetSum _ (fun ss _ => ?_))
  refine Tendsto.pow (Tendsto.sub (hn s ss).sqrt (Tendsto.sqrt (Tendsto.mul ?_ (hm s ss)))) 2
  simp only [← sum_numMC]
  exact tendsto_finsetSum _ (fun ss _ => hn s ss)

end mc
end Jajapy
