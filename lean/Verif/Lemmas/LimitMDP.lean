import Verif.Lemmas.LimitMC
import Verif.Lemmas.BWMDP

/-!
Lemmas for the limits of Baum-Welch on Markov decision processes.
-/

set_option linter.unusedSectionVars false

namespace Jajapy

open Finset Spec BW Filter Topology

section mdp
variable {L : Type} {n : ℕ} [DecidableEq L]

/-- The distance covered by an iteration, weighted by the visits. -/
noncomputable def moveMDP (M : MDP ℝ L n) (S : TSet L) : ℝ :=
  ∑ s, ∑ i, ∑ ss, (Real.sqrt (numMDP M S s i ss) - Real.sqrt (denMDP M S s i * M.matrix s i ss)) ^ 2

theorem denMDP_nonneg (M : MDP ℝ L n) (S : TSet L) (hi0 : ∀ s, 0 ≤ M.initialState s) (hm0 : ∀ s i s', 0 ≤ M.matrix s i s')
    (s : Fin n) (i : Fin M.actions.length) : 0 ≤ denMDP M S s i := by
  rw [← sum_numMDP]; exact Finset.sum_nonneg (fun ss _ => numMDP_nonneg M S hi0 hm0 s i ss)

theorem moveMDP_nonneg (M : MDP ℝ L n) (S : TSet L) : 0 ≤ moveMDP M S :=
  Finset.sum_nonneg (fun _ _ => Finset.sum_nonneg (fun _ _ => Finset.sum_nonneg (fun _ _ => sq_nonneg _)))

theorem moveMDP_eq_zero (M : MDP ℝ L n) (S : TSet L) (hi0 : ∀ s, 0 ≤ M.initialState s) (hm0 : ∀ s i s', 0 ≤ M.matrix s i s')
    (h : moveMDP M S ≤ 0) (s : Fin n) (i : Fin M.actions.length) (ss : Fin n) :
    numMDP M S s i ss = denMDP M S s i * M.matrix s i ss := by
  have h0 : ∀ s i, 0 ≤ ∑ ss, (Real.sqrt (numMDP M S s i ss) - Real.sqrt (denMDP M S s i * M.matrix s i ss)) ^ 2 :=
    fun s i => Finset.sum_nonneg (fun ss _ => sq_nonneg _)
  have h00 : ∀ s, 0 ≤ ∑ i, ∑ ss, (Real.sqrt (numMDP M S s i ss) - Real.sqrt (denMDP M S s i * M.matrix s i ss)) ^ 2 :=
    fun s => Finset.sum_nonneg (fun i _ => h0 s i)
  have h1 := (Finset.sum_eq_zero_iff_of_nonneg (fun s _ => h00 s)).mp (le_antisymm h (moveMDP_nonneg M S)) s (Finset.mem_univ s)
  have h2 := (Finset.sum_eq_zero_iff_of_nonneg (fun i _ => h0 s i)).mp h1 i (Finset.mem_univ i)
  have h3 := (Finset.sum_eq_zero_iff_of_nonneg (fun ss _ => sq_nonneg _)).mp h2 ss (Finset.mem_univ ss)
  have h4 := sub_eq_zero.mp (pow_eq_zero_iff (by norm_num) |>.mp h3)
  exact (Real.sqrt_inj (numMDP_nonneg M S hi0 hm0 s i ss) (mul_nonneg (denMDP_nonneg M S hi0 hm0 s i) (hm0 s i ss))).mp h4

/-- The MDP is left unchanged exactly when the expected counts agree with it. -/
theorem newMDP_eq_iff (M : MDP ℝ L n) (S : TSet L) (hi0 : ∀ s, 0 ≤ M.initialState s) (hm0 : ∀ s i s', 0 ≤ M.matrix s i s') :
    newMDP M S = M ↔ ∀ s i ss, numMDP M S s i ss = denMDP M S s i * M.matrix s i ss := by
  have key : newMDP M S = M ↔ (newMDP M S).matrix = M.matrix := by
    constructor
    · intro h
      have h1 : (⟨M.actions, (newMDP M S).matrix, M.labelling, M.initialState⟩ : MDP ℝ L n)
        = ⟨M.actions, M.matrix, M.labelling, M.initialState⟩ := h
      injection h1
    · intro h
      change (⟨M.actions, (newMDP M S).matrix, M.labelling, M.initialState⟩ : MDP ℝ L n) = M
      rw [h]
  rw [key]
  constructor
  · intro h s i ss
    have h1 : (newMDP M S).matrix s i ss = M.matrix s i ss := by rw [h]
    simp only [newMDP] at h1
    split_ifs at h1 with h0
    · have := (Finset.sum_eq_zero_iff_of_nonneg (fun ss _ => numMDP_nonneg M S hi0 hm0 s i ss)).mp ((sum_numMDP M S s i).trans h0) ss
        (Finset.mem_univ ss)
      rw [this, h0, zero_mul]
    · rw [← h1]; field_simp
  · intro h
    funext s i ss
    simp only [newMDP]
    split_ifs with h0
    · rfl
    · rw [h s i ss]; field_simp

/-- An iteration gains at least the distance it covers. -/
theorem newMDP_gain_sq (M : MDP ℝ L n) (hnd : M.actions.Nodup) (S : TSet L) (hi0 : ∀ s, 0 ≤ M.initialState s)
    (hm0 : ∀ s i s', 0 ≤ M.matrix s i s') (hm1 : ∀ s i, ∑ s', M.matrix s i s' ≤ 1) (ht : ∀ t ∈ S.times, 1 ≤ t) :
    ((possMDP M S).map (fun x => Real.log (weightMDP M x.1) * x.2)).sum + moveMDP M S ≤
    ((possMDP M S).map (fun x => Real.log (weightMDP (newMDP M S) x.1) * x.2)).sum := by
  have hn := numMDP_nonneg M S hi0 hm0
  have hd := denMDP_nonneg M S hi0 hm0
  have hm0' : ∀ s i s', 0 ≤ (newMDP M S).matrix s i s' := by
    intro s i s'
    simp only [newMDP]
    split_ifs
    · exact hm0 _ _ _
    · exact div_nonneg (hn _ _ _) (hd _ _)
  have hden : ∀ s i ss, 0 < numMDP M S s i ss → 0 < denMDP M S s i := fun s i ss h => lt_of_lt_of_le h (by
    rw [← sum_numMDP]; exact Finset.single_le_sum (fun ss _ => hn s i ss) (Finset.mem_univ ss))
  have hmat : ∀ s i ss, 0 < numMDP M S s i ss → 0 < M.matrix s i ss := by
    intro s i ss h
    rcases (hm0 s i ss).eq_or_lt with h0 | h0
    · rw [numMDP_zero M hnd S s i ss h0.symm] at h; exact absurd h (lt_irrefl _)
    · exact h0
  have hg := (mdp_gain_le M hnd S hi0 hm0 (newMDP M S).matrix hm0' ht (fun s i ss _ h => by
    have := hden s i ss h
    simp only [newMDP, if_neg this.ne']
    exact div_pos h this)).2
  refine le_trans (add_le_add le_rfl ?_) hg
  unfold moveMDP
  refine Finset.sum_le_sum (fun s _ => Finset.sum_le_sum (fun i _ => ?_))
  have h1 : ∀ ss, (Real.sqrt (numMDP M S s i ss) - Real.sqrt (denMDP M S s i * M.matrix s i ss)) ^ 2 ≤
      numMDP M S s i ss * Real.log ((newMDP M S).matrix s i ss / M.matrix s i ss) - numMDP M S s i ss
        + denMDP M S s i * M.matrix s i ss := by
    intro ss
    refine le_trans (sq_le_gain _ _ (hn s i ss) (mul_nonneg (hd s i) (hm0 s i ss)) (fun h => mul_pos (hden s i ss h) (hmat s i ss h))) ?_
    rcases (hn s i ss).eq_or_lt with h0 | h0
    · rw [← h0]; simp
    · have := hden s i ss h0
      simp only [newMDP, if_neg this.ne']
      rw [div_div]
  refine le_trans (Finset.sum_le_sum (fun ss _ => h1 ss)) ?_
  rw [Finset.sum_add_distrib, Finset.sum_sub_distrib, sum_numMDP, ← Finset.mul_sum]
  have := mul_le_mul_of_nonneg_left (hm1 s i) (hd s i)
  linarith

theorem stepMDP_tendsto {J : Type} {l : Filter J} (M : MDP ℝ L n) (A : J → Fin n → Fin M.actions.length → Fin n → ℝ)
    (B : Fin n → Fin M.actions.length → Fin n → ℝ) (hm : ∀ s i ss, Tendsto (fun j => A j s i ss) l (𝓝 (B s i ss)))
    (s ss : Fin n) (o : L × L) : Tendsto (fun j => (M.withProb (A j)).step s ss o) l (𝓝 ((M.withProb B).step s ss o)) := by
  have e : ∀ C : Fin n → Fin M.actions.length → Fin n → ℝ, (M.withProb C).step s ss o = (if M.labelling s = o.1 then 1 else 0) *
      ∑ i : Fin M.actions.length, if M.actions[i] = o.2 then C s i ss else 0 := fun _ => rfl
  simp only [e]
  refine Tendsto.const_mul _ (tendsto_finsetSum _ (fun i _ => ?_))
  split_ifs
  · exact hm s i ss
  · exact tendsto_const_nhds

theorem maskMDP_withProb (M : MDP ℝ L n) (B : Fin n → Fin M.actions.length → Fin n → ℝ) (w : List L) :
    maskMDP (M.withProb B) w = maskMDP M w := rfl

theorem weightMDP_tendsto {J : Type} {l : Filter J} (M : MDP ℝ L n) (A : J → Fin n → Fin M.actions.length → Fin n → ℝ)
    (B : Fin n → Fin M.actions.length → Fin n → ℝ) (hm : ∀ s i ss, Tendsto (fun j => A j s i ss) l (𝓝 (B s i ss)))
    (w : List L) (hw : w ≠ []) : Tendsto (fun j => weightMDP (M.withProb (A j)) w) l (𝓝 (weightMDP (M.withProb B) w)) := by
  simp only [fun C => weightMDP_eq (M.withProb C) w hw]
  exact tendsto_totalWeight (fun j => (M.withProb (A j)).step) (M.withProb B).step (fun _ => M.initialState) M.initialState
    (maskMDP M w) (stepMDP_tendsto M A B hm) (fun _ => tendsto_const_nhds) (pairs w)

/-- The expected counts depend continuously on the probabilities, as long as the same traces are possible. -/
theorem numMDP_tendsto {J : Type} {l : Filter J} (M : MDP ℝ L n) (S : TSet L) (A : J → Fin n → Fin M.actions.length → Fin n → ℝ)
    (B : Fin n → Fin M.actions.length → Fin n → ℝ) (hm : ∀ s i ss, Tendsto (fun j => A j s i ss) l (𝓝 (B s i ss)))
    (hp : ∀ j, possMDP (M.withProb (A j)) S = possMDP (M.withProb B) S) (s : Fin n) (i : Fin M.actions.length) (ss : Fin n) :
    Tendsto (fun j => numMDP (M.withProb (A j)) S s i ss) l (𝓝 (numMDP (M.withProb B) S s i ss)) := by
  have e : ∀ j, numMDP (M.withProb (A j)) S s i ss = ((possMDP (M.withProb B) S).map (fun x => use (M.withProb (A j)).step
      M.initialState (maskMDP M x.1) (actIs M i) ((x.2 : ℝ) / weightMDP (M.withProb (A j)) x.1) (pairs x.1) s ss)).sum := by
    intro j
    unfold numMDP
    rw [hp j]
    rfl
  have e' : numMDP (M.withProb B) S s i ss = ((possMDP (M.withProb B) S).map (fun x => use (M.withProb B).step
      M.initialState (maskMDP M x.1) (actIs M i) ((x.2 : ℝ) / weightMDP (M.withProb B) x.1) (pairs x.1) s ss)).sum := rfl
  rw [e']
  simp only [e]
  refine tendsto_list_sum (possMDP (M.withProb B) S) _ _ (fun x hx => ?_)
  have hne : weightMDP (M.withProb B) x.1 ≠ 0 := ((mem_possMDP _ S x).mp hx).2
  exact tendsto_use (fun j => (M.withProb (A j)).step) (M.withProb B).step (fun _ => M.initialState) M.initialState
    (maskMDP M x.1) _ _ (stepMDP_tendsto M A B hm) (fun _ => tendsto_const_nhds)
    (Tendsto.div tendsto_const_nhds (weightMDP_tendsto M A B hm x.1 (ne_nil_of_weight _ _ hne)) hne) _ _ _ _

theorem moveMDP_tendsto {J : Type} {l : Filter J} (M : MDP ℝ L n) (S : TSet L) (A : J → Fin n → Fin M.actions.length → Fin n → ℝ)
    (B : Fin n → Fin M.actions.length → Fin n → ℝ) (hm : ∀ s i ss, Tendsto (fun j => A j s i ss) l (𝓝 (B s i ss)))
    (hp : ∀ j, possMDP (M.withProb (A j)) S = possMDP (M.withProb B) S) :
    Tendsto (fun j => moveMDP (M.withProb (A j)) S) l (𝓝 (moveMDP (M.withProb B) S)) := by
  have em : ∀ C : Fin n → Fin M.actions.length → Fin n → ℝ, moveMDP (M.withProb C) S = ∑ s, ∑ i : Fin M.actions.length, ∑ ss,
      (Real.sqrt (numMDP (M.withProb C) S s i ss) - Real.sqrt (denMDP (M.withProb C) S s i * C s i ss)) ^ 2 := fun _ => rfl
  simp only [em]
  have hn := fun s i ss => numMDP_tendsto M S A B hm hp s i ss
  refine tendsto_finsetSum _ (fun s _ => tendsto_finsetSum _ (fun i _ => tendsto_finsetSum _ (fun ss _ => ?_)))
  refine Tendsto.pow (Tendsto.sub (hn s i ss).sqrt (Tendsto.sqrt (Tendsto.mul ?_ (hm s i ss)))) 2
  have e : ∀ C : Fin n → Fin M.actions.length → Fin n → ℝ,
      denMDP (M.withProb C) S s i = ∑ ss, numMDP (M.withProb C) S s i ss := fun C => (sum_numMDP (M.withProb C) S s i).symm
  simp only [e]
  exact tendsto_finsetSum _ (fun ss _ => hn s i ss)

end mdp
end Jajapy
