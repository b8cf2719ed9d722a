import Verif.Lemmas.LimitMC
import Verif.Lemmas.BWHMM

/-!
Lemmas for the limits of Baum-Welch on hidden Markov models.
-/

set_option linter.unusedSectionVars false

namespace Jajapy

open Finset Spec BW Filter Topology

section hmm
variable {O : Type} {n : ℕ} [DecidableEq O]

/-- A distribution `p` replaced by the frequencies of the counts `a`, whose total is `c`: the gain is at least the distance. -/
theorem row_gain {ι : Type} [Fintype ι] (a p q : ι → ℝ) (c : ℝ) (ha : ∀ i, 0 ≤ a i) (hp : ∀ i, 0 ≤ p i) (hp1 : ∑ i, p i ≤ 1)
    (hc : ∑ i, a i = c) (hz : ∀ i, p i = 0 → a i = 0) (hq : ∀ i, c ≠ 0 → q i = a i / c) :
    ∑ i, (Real.sqrt (a i) - Real.sqrt (c * p i)) ^ 2 ≤ ∑ i, a i * Real.log (q i / p i) := by
  have hc0 : 0 ≤ c := by rw [← hc]; exact Finset.sum_nonneg (fun i _ => ha i)
  have hcp : ∀ i, 0 < a i → 0 < c := fun i h => lt_of_lt_of_le h (by
    rw [← hc]; exact Finset.single_le_sum (fun i _ => ha i) (Finset.mem_univ i))
  have hpp : ∀ i, 0 < a i → 0 < p i := by
    intro i h
    rcases (hp i).eq_or_lt with h0 | h0
    · rw [hz i h0.symm] at h; exact absurd h (lt_irrefl _)
    · exact h0
  have h1 : ∀ i, (Real.sqrt (a i) - Real.sqrt (c * p i)) ^ 2 ≤ a i * Real.log (q i / p i) - a i + c * p i := by
    intro i
    refine le_trans (sq_le_gain _ _ (ha i) (mul_nonneg hc0 (hp i)) (fun h => mul_pos (hcp i h) (hpp i h))) ?_
    rcases (ha i).eq_or_lt with h0 | h0
    · rw [← h0]; simp
    · rw [hq i (hcp i h0).ne', div_div]
  refine le_trans (Finset.sum_le_sum (fun i _ => h1 i)) ?_
  rw [Finset.sum_add_distrib, Finset.sum_sub_distrib, hc, ← Finset.mul_sum]
  have := mul_le_mul_of_nonneg_left hp1 hc0
  linarith

theorem row_eq_of_sq {ι : Type} [Fintype ι] (a p : ι → ℝ) (c : ℝ) (hc0 : 0 ≤ c) (ha : ∀ i, 0 ≤ a i) (hp : ∀ i, 0 ≤ p i)
    (h : ∑ i, (Real.sqrt (a i) - Real.sqrt (c * p i)) ^ 2 ≤ 0) (i : ι) : a i = c * p i := by
  have h3 := (Finset.sum_eq_zero_iff_of_nonneg (fun i _ => sq_nonneg _)).mp
    (le_antisymm h (Finset.sum_nonneg (fun i _ => sq_nonneg _))) i (Finset.mem_univ i)
  have h4 := sub_eq_zero.mp (pow_eq_zero_iff (by norm_num) |>.mp h3)
  exact (Real.sqrt_inj (ha i) (mul_nonneg hc0 (hp i))).mp h4

/-- The distance covered by an iteration, weighted by the visits. -/
noncomputable def moveHMM (M : HMM ℝ O n) (S : TSet O) : ℝ :=
  ∑ s, (Real.sqrt (initHMM M S s) - Real.sqrt ((∑ s', initHMM M S s') * M.initialState s)) ^ 2
  + ∑ s, (∑ ss, (Real.sqrt (numAHMM M S s ss) - Real.sqrt (denHMM M S s * M.matrix s ss)) ^ 2
    + ∑ i, (Real.sqrt (numBHMM M S s i) - Real.sqrt (denHMM M S s * M.output s i)) ^ 2)

theorem moveHMM_nonneg (M : HMM ℝ O n) (S : TSet O) : 0 ≤ moveHMM M S :=
  add_nonneg (Finset.sum_nonneg (fun _ _ => sq_nonneg _)) (Finset.sum_nonneg (fun _ _ =>
    add_nonneg (Finset.sum_nonneg (fun _ _ => sq_nonneg _)) (Finset.sum_nonneg (fun _ _ => sq_nonneg _))))

/-- The expected counts agree with the probabilities. -/
def AgreesHMM (M : HMM ℝ O n) (S : TSet O) : Prop :=
  (∀ s, initHMM M S s = (∑ s', initHMM M S s') * M.initialState s) ∧
  (∀ s ss, numAHMM M S s ss = denHMM M S s * M.matrix s ss) ∧ ∀ s i, numBHMM M S s i = denHMM M S s * M.output s i

theorem moveHMM_eq_zero (M : HMM ℝ O n) (S : TSet O) (hi0 : ∀ s, 0 ≤ M.initialState s) (hm0 : ∀ s s', 0 ≤ M.matrix s s')
    (ho0 : ∀ s i, 0 ≤ M.output s i) (h : moveHMM M S ≤ 0) : AgreesHMM M S := by
  have hI := initHMM_nonneg M S hi0 hm0 ho0
  have hd := denHMM_nonneg M S hi0 hm0 ho0
  have a0 : 0 ≤ ∑ s, (Real.sqrt (initHMM M S s) - Real.sqrt ((∑ s', initHMM M S s') * M.initialState s)) ^ 2 :=
    Finset.sum_nonneg (fun _ _ => sq_nonneg _)
  have b0 : ∀ s, 0 ≤ ∑ ss, (Real.sqrt (numAHMM M S s ss) - Real.sqrt (denHMM M S s * M.matrix s ss)) ^ 2 :=
    fun s => Finset.sum_nonneg (fun _ _ => sq_nonneg _)
  have c0 : ∀ s, 0 ≤ ∑ i, (Real.sqrt (numBHMM M S s i) - Real.sqrt (denHMM M S s * M.output s i)) ^ 2 :=
    fun s => Finset.sum_nonneg (fun _ _ => sq_nonneg _)
  have d0 := Finset.sum_nonneg (fun s (_ : s ∈ (Finset.univ : Finset (Fin n))) => add_nonneg (b0 s) (c0 s))
  unfold moveHMM at h
  have h1 : ∑ s, (∑ ss, (Real.sqrt (numAHMM M S s ss) - Real.sqrt (denHMM M S s * M.matrix s ss)) ^ 2
    + ∑ i, (Real.sqrt (numBHMM M S s i) - Real.sqrt (denHMM M S s * M.output s i)) ^ 2) = 0 := by linarith
  have h2 := fun s => (Finset.sum_eq_zero_iff_of_nonneg (fun s _ => add_nonneg (b0 s) (c0 s))).mp h1 s (Finset.mem_univ s)
  refine ⟨row_eq_of_sq _ _ _ (Finset.sum_nonneg (fun s _ => hI s)) hI hi0 (by linarith), fun s => ?_, fun s => ?_⟩
  · exact row_eq_of_sq _ _ _ (hd s) (numAHMM_nonneg M S hi0 hm0 ho0 s) (hm0 s) (by have := h2 s; have := c0 s; linarith)
  · exact row_eq_of_sq _ _ _ (hd s) (numBHMM_nonneg M S hi0 hm0 ho0 s) (ho0 s) (by have := h2 s; have := b0 s; linarith)

/-- The HMM is left unchanged exactly when the expected counts agree with it. -/
theorem newHMM_eq_iff (M : HMM ℝ O n) (hnd : M.alphabet.Nodup) (S : TSet O) (hi0 : ∀ s, 0 ≤ M.initialState s)
    (hm0 : ∀ s s', 0 ≤ M.matrix s s') (ho0 : ∀ s i, 0 ≤ M.output s i) (hpos : 0 < ∑ s, initHMM M S s) :
    newHMM M S = M ↔ AgreesHMM M S := by
  have key : newHMM M S = M ↔ (newHMM M S).matrix = M.matrix ∧ (newHMM M S).output = M.output ∧
      (newHMM M S).initialState = M.initialState := by
    constructor
    · intro h
      have h1 : (⟨(newHMM M S).matrix, M.alphabet, (newHMM M S).output, (newHMM M S).initialState⟩ : HMM ℝ O n)
        = ⟨M.matrix, M.alphabet, M.output, M.initialState⟩ := h
      injection h1 with h1 h2 h3 h4
      exact ⟨h1, h3, h4⟩
    · rintro ⟨h1, h2, h3⟩
      change (⟨(newHMM M S).matrix, M.alphabet, (newHMM M S).output, (newHMM M S).initialState⟩ : HMM ℝ O n) = M
      rw [h1, h2, h3]
  rw [key]
  constructor
  · rintro ⟨h1, h2, h3⟩
    refine ⟨fun s => ?_, fun s ss => ?_, fun s i => ?_⟩
    · have h : (newHMM M S).initialState s = M.initialState s := by rw [h3]
      simp only [newHMM] at h
      rw [← h]; field_simp
    · have h : (newHMM M S).matrix s ss = M.matrix s ss := by rw [h1]
      simp only [newHMM] at h
      split_ifs at h with h0
      · have := (Finset.sum_eq_zero_iff_of_nonneg (fun ss _ => numAHMM_nonneg M S hi0 hm0 ho0 s ss)).mp
          ((sum_numAHMM M S s).trans h0) ss (Finset.mem_univ ss)
        rw [this, h0, zero_mul]
      · rw [← h]; field_simp
    · have h : (newHMM M S).output s i = M.output s i := by rw [h2]
      simp only [newHMM] at h
      split_ifs at h with h0
      · have := (Finset.sum_eq_zero_iff_of_nonneg (fun i _ => numBHMM_nonneg M S hi0 hm0 ho0 s i)).mp
          ((sum_numBHMM M hnd S s).trans h0) i (Finset.mem_univ i)
        rw [this, h0, zero_mul]
      · rw [← h]; field_simp
  · rintro ⟨h1, h2, h3⟩
    refine ⟨?_, ?_, ?_⟩
    · funext s ss
      simp only [newHMM]
      split_ifs with h0
      · rfl
      · rw [h2 s ss]; field_simp
    · funext s i
      simp only [newHMM]
      split_ifs with h0
      · rfl
      · rw [h3 s i]; field_simp
    · funext s
      simp only [newHMM]
      rw [div_eq_iff hpos.ne', h1 s, mul_comm]

/-- An iteration gains at least the distance it covers. -/
theorem newHMM_gain_sq (M : HMM ℝ O n) (hnd : M.alphabet.Nodup) (S : TSet O) (hi0 : ∀ s, 0 ≤ M.initialState s)
    (hi1 : ∑ s, M.initialState s ≤ 1)
    (hm0 : ∀ s s', 0 ≤ M.matrix s s') (hm1 : ∀ s, ∑ s', M.matrix s s' ≤ 1)
    (ho0 : ∀ s i, 0 ≤ M.output s i) (ho1 : ∀ s, ∑ i, M.output s i ≤ 1) (ht : ∀ t ∈ S.times, 1 ≤ t) :
    ((possHMM M S).map (fun x => Real.log (totalWeight M.initialState M.step (fun _ => 1) x.1) * x.2)).sum + moveHMM M S ≤
    ((possHMM M S).map (fun x => Real.log (totalWeight (newHMM M S).initialState (newHMM M S).step (fun _ => 1) x.1) * x.2)).sum := by
  have hn := numAHMM_nonneg M S hi0 hm0 ho0
  have hb := numBHMM_nonneg M S hi0 hm0 ho0
  have hI := initHMM_nonneg M S hi0 hm0 ho0
  have hd := denHMM_nonneg M S hi0 hm0 ho0
  have hIs : 0 ≤ ∑ s, initHMM M S s := Finset.sum_nonneg (fun s _ => hI s)
  have hm0' : ∀ s s', 0 ≤ (newHMM M S).matrix s s' := by
    intro s s'
    simp only [newHMM]
    split_ifs
    · exact hm0 _ _
    · exact div_nonneg (hn _ _) (hd _)
  have ho0' : ∀ s i, 0 ≤ (newHMM M S).output s i := by
    intro s i
    simp only [newHMM]
    split_ifs
    · exact ho0 _ _
    · exact div_nonneg (hb _ _) (hd _)
  have hi0' : ∀ s, 0 ≤ (newHMM M S).initialState s := fun s => div_nonneg (hI s) hIs
  have hden : ∀ s ss, 0 < numAHMM M S s ss → 0 < denHMM M S s := fun s ss h => lt_of_lt_of_le h (by
    rw [← sum_numAHMM]; exact Finset.single_le_sum (fun ss _ => hn s ss) (Finset.mem_univ ss))
  have hdenB : ∀ s i, 0 < numBHMM M S s i → 0 < denHMM M S s := fun s i h => lt_of_lt_of_le h (by
    rw [← sum_numBHMM M hnd]; exact Finset.single_le_sum (fun i _ => hb s i) (Finset.mem_univ i))
  obtain ⟨k1, k2⟩ := hmm_gain_le M hnd S hi0 hm0 ho0 (newHMM M S).matrix (newHMM M S).output (newHMM M S).initialState hm0' ho0' hi0' ht
    (fun s ss _ h => by
      have := hden s ss h
      simp only [newHMM, if_neg this.ne']
      exact div_pos h this)
    (fun s i _ h => by
      have := hdenB s i h
      simp only [newHMM, if_neg this.ne']
      exact div_pos h this)
    (fun s _ hs => div_pos hs (lt_of_lt_of_le hs (Finset.single_le_sum (f := fun s => initHMM M S s) (fun s _ => hI s) (Finset.mem_univ s))))
  refine le_trans (add_le_add le_rfl ?_) k2
  unfold moveHMM
  refine add_le_add ?_ (Finset.sum_le_sum (fun s _ => add_le_add ?_ ?_))
  · exact row_gain _ _ _ _ hI hi0 hi1 rfl (initHMM_zero M S) (fun s _ => rfl)
  · exact row_gain _ _ _ _ (hn s) (hm0 s) (hm1 s) (sum_numAHMM M S s) (numAHMM_zero M S s) (fun ss h => by
      simp only [newHMM, if_neg h])
  · exact row_gain _ _ _ _ (hb s) (ho0 s) (ho1 s) (sum_numBHMM M hnd S s) (numBHMM_zero M hnd S s) (fun i h => by
      simp only [newHMM, if_neg h])

section limits
variable {J : Type} {l : Filter J} (M : HMM ℝ O n) (A : J → Fin n → Fin n → ℝ) (B : J → Fin n → Fin M.alphabet.length → ℝ)
  (I : J → Fin n → ℝ) (A' : Fin n → Fin n → ℝ) (B' : Fin n → Fin M.alphabet.length → ℝ) (I' : Fin n → ℝ)
  (hA : ∀ s ss, Tendsto (fun j => A j s ss) l (𝓝 (A' s ss))) (hB : ∀ s i, Tendsto (fun j => B j s i) l (𝓝 (B' s i)))
  (hI : ∀ s, Tendsto (fun j => I j s) l (𝓝 (I' s)))
include hA hB hI

theorem stepHMM_tendsto (s ss : Fin n) (o : O) :
    Tendsto (fun j => (M.withProb (A j) (B j) (I j)).step s ss o) l (𝓝 ((M.withProb A' B' I').step s ss o)) := by
  have e : ∀ (A : Fin n → Fin n → ℝ) (B : Fin n → Fin M.alphabet.length → ℝ) (I : Fin n → ℝ), (M.withProb A B I).step s ss o =
      (∑ i : Fin M.alphabet.length, if M.alphabet[i] = o then B s i else 0) * A s ss := fun _ _ _ => rfl
  simp only [e]
  refine Tendsto.mul (tendsto_finsetSum _ (fun i _ => ?_)) (hA s ss)
  split_ifs
  · exact hB s i
  · exact tendsto_const_nhds

theorem totalHMM_tendsto (w : List O) :
    Tendsto (fun j => totalWeight (I j) (M.withProb (A j) (B j) (I j)).step (fun _ => 1) w) l
      (𝓝 (totalWeight I' (M.withProb A' B' I').step (fun _ => 1) w)) :=
  tendsto_totalWeight (fun j => (M.withProb (A j) (B j) (I j)).step) (M.withProb A' B' I').step I I'
    (fun _ => 1) (stepHMM_tendsto M A B I A' B' I' hA hB hI) hI w

variable (S : TSet O) (hp : ∀ j, possHMM (M.withProb (A j) (B j) (I j)) S = possHMM (M.withProb A' B' I') S)
include hp

theorem useHMM_tendsto (φ : O → ℝ) (s ss : Fin n) :
    Tendsto (fun j => ((possHMM (M.withProb (A j) (B j) (I j)) S).map (fun x => use (M.withProb (A j) (B j) (I j)).step (I j)
      (fun _ => 1) φ ((x.2 : ℝ) / totalWeight (I j) (M.withProb (A j) (B j) (I j)).step (fun _ => 1) x.1) x.1 s ss)).sum) l
    (𝓝 ((possHMM (M.withProb A' B' I') S).map (fun x => use (M.withProb A' B' I').step I'
      (fun _ => 1) φ ((x.2 : ℝ) / totalWeight I' (M.withProb A' B' I').step (fun _ => 1) x.1) x.1 s ss)).sum) := by
  simp only [hp]
  refine tendsto_list_sum (possHMM (M.withProb A' B' I') S) _ _ (fun x hx => ?_)
  have hne : totalWeight I' (M.withProb A' B' I').step (fun _ => 1) x.1 ≠ 0 := by
    have := (List.mem_filter.mp hx).2
    simpa using this
  exact tendsto_use (fun j => (M.withProb (A j) (B j) (I j)).step) (M.withProb A' B' I').step I I'
    (fun _ => 1) _ _ (stepHMM_tendsto M A B I A' B' I' hA hB hI) hI
    (Tendsto.div tendsto_const_nhds (totalHMM_tendsto M A B I A' B' I' hA hB hI x.1) hne) φ x.1 s ss

theorem numAHMM_tendsto (s ss : Fin n) :
    Tendsto (fun j => numAHMM (M.withProb (A j) (B j) (I j)) S s ss) l (𝓝 (numAHMM (M.withProb A' B' I') S s ss)) :=
  useHMM_tendsto M A B I A' B' I' hA hB hI S hp (fun _ => 1) s ss

theorem denHMM_tendsto (s : Fin n) :
    Tendsto (fun j => denHMM (M.withProb (A j) (B j) (I j)) S s) l (𝓝 (denHMM (M.withProb A' B' I') S s)) := by
  have e : ∀ (A : Fin n → Fin n → ℝ) (B : Fin n → Fin M.alphabet.length → ℝ) (I : Fin n → ℝ),
      denHMM (M.withProb A B I) S s = ∑ ss, numAHMM (M.withProb A B I) S s ss := fun A B I => (sum_numAHMM (M.withProb A B I) S s).symm
  simp only [e]
  exact tendsto_finsetSum _ (fun ss _ => numAHMM_tendsto M A B I A' B' I' hA hB hI S hp s ss)

theorem numBHMM_tendsto (s : Fin n) (i : Fin M.alphabet.length) :
    Tendsto (fun j => numBHMM (M.withProb (A j) (B j) (I j)) S s i) l (𝓝 (numBHMM (M.withProb A' B' I') S s i)) := by
  have e : ∀ (A : Fin n → Fin n → ℝ) (B : Fin n → Fin M.alphabet.length → ℝ) (I : Fin n → ℝ),
      numBHMM (M.withProb A B I) S s i = ∑ ss, ((possHMM (M.withProb A B I) S).map (fun x => use (M.withProb A B I).step I
      (fun _ => 1) (fun t => if t = M.alphabet[i] then 1 else 0)
      ((x.2 : ℝ) / totalWeight I (M.withProb A B I).step (fun _ => 1) x.1) x.1 s ss)).sum := by
    intro A B I
    rw [sum_map_comm]
    unfold numBHMM
    congr 1
    refine List.map_congr_left (fun x _ => ?_)
    exact (sum_use (M.withProb A B I).step I (fun _ => 1) (fun t => if t = M.alphabet[i] then 1 else 0)
      ((x.2 : ℝ) / totalWeight I (M.withProb A B I).step (fun _ => 1) x.1) x.1 s).symm
  simp only [e]
  exact tendsto_finsetSum _ (fun ss _ => useHMM_tendsto M A B I A' B' I' hA hB hI S hp _ s ss)

theorem initHMM_tendsto (s : Fin n) :
    Tendsto (fun j => initHMM (M.withProb (A j) (B j) (I j)) S s) l (𝓝 (initHMM (M.withProb A' B' I') S s)) := by
  have e : ∀ (A : Fin n → Fin n → ℝ) (B : Fin n → Fin M.alphabet.length → ℝ) (I : Fin n → ℝ),
      initHMM (M.withProb A B I) S s = ((possHMM (M.withProb A B I) S).map (fun x => I s * beta0 (M.withProb A B I).step (fun _ => 1) x.1 s
        * x.2 / totalWeight I (M.withProb A B I).step (fun _ => 1) x.1)).sum := fun _ _ _ => rfl
  simp only [e, hp]
  refine tendsto_list_sum (possHMM (M.withProb A' B' I') S) _ _ (fun x hx => ?_)
  have hne : totalWeight I' (M.withProb A' B' I').step (fun _ => 1) x.1 ≠ 0 := by
    have := (List.mem_filter.mp hx).2
    simpa using this
  refine Tendsto.div (Tendsto.mul (Tendsto.mul (hI s) ?_) tendsto_const_nhds) (totalHMM_tendsto M A B I A' B' I' hA hB hI x.1) hne
  exact tendsto_beta0 (fun j => (M.withProb (A j) (B j) (I j)).step) (M.withProb A' B' I').step (fun _ => 1)
    (stepHMM_tendsto M A B I A' B' I' hA hB hI) x.1 s

theorem moveHMM_tendsto :
    Tendsto (fun j => moveHMM (M.withProb (A j) (B j) (I j)) S) l (𝓝 (moveHMM (M.withProb A' B' I') S)) := by
  have e : ∀ (A : Fin n → Fin n → ℝ) (B : Fin n → Fin M.alphabet.length → ℝ) (I : Fin n → ℝ), moveHMM (M.withProb A B I) S =
      ∑ s, (Real.sqrt (initHMM (M.withProb A B I) S s) - Real.sqrt ((∑ s', initHMM (M.withProb A B I) S s') * I s)) ^ 2
      + ∑ s, (∑ ss, (Real.sqrt (numAHMM (M.withProb A B I) S s ss) - Real.sqrt (denHMM (M.withProb A B I) S s * A s ss)) ^ 2
        + ∑ i : Fin M.alphabet.length, (Real.sqrt (numBHMM (M.withProb A B I) S s i)
          - Real.sqrt (denHMM (M.withProb A B I) S s * B s i)) ^ 2) := fun _ _ _ => rfl
  simp only [e]
  have h1 := fun s => initHMM_tendsto M A B I A' B' I' hA hB hI S hp s
  have h2 := fun s => denHMM_tendsto M A B I A' B' I' hA hB hI S hp s
  have h3 := fun s ss => numAHMM_tendsto M A B I A' B' I' hA hB hI S hp s ss
  have h4 := fun s i => numBHMM_tendsto M A B I A' B' I' hA hB hI S hp s i
  refine Tendsto.add (tendsto_finsetSum _ (fun s _ => ?_)) (tendsto_finsetSum _ (fun s _ => Tendsto.add
    (tendsto_finsetSum _ (fun ss _ => ?_)) (tendsto_finsetSum _ (fun i _ => ?_))))
  · exact Tendsto.pow (Tendsto.sub (h1 s).sqrt (Tendsto.sqrt (Tendsto.mul (tendsto_finsetSum _ (fun s' _ => h1 s')) (hI s)))) 2
  · exact Tendsto.pow (Tendsto.sub (h3 s ss).sqrt (Tendsto.sqrt (Tendsto.mul (h2 s) (hA s ss)))) 2
  · exact Tendsto.pow (Tendsto.sub (h4 s i).sqrt (Tendsto.sqrt (Tendsto.mul (h2 s) (hB s i)))) 2

end limits
end hmm
end Jajapy
