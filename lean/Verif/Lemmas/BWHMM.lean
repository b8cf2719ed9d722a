import Verif.Lemmas.EM
import Verif.Lemmas.Likelihood
import Verif.Spec.Models

set_option linter.unusedSectionVars false

namespace Jajapy

open Finset Spec BW

section
variable {K O : Type} {n : ℕ} [Field K] [DecidableEq O]

theorem HMM.b_eq_emit (M : HMM K O n) (hn : M.alphabet.Nodup) (s : Fin n) (o : O) : M.b s o = M.emit s o := by
  unfold b emit
  by_cases h : o ∈ M.alphabet
  · rw [dif_pos h, Finset.sum_eq_single ⟨M.alphabet.idxOf o, List.idxOf_lt_length_iff.mpr h⟩]
    · rw [if_pos]
      exact List.getElem_idxOf _
    · intro i _ hi
      rw [if_neg]
      intro ho
      apply hi
      apply Fin.ext
      have e := hn.idxOf_getElem i.1 i.2
      change M.alphabet.idxOf (M.alphabet[i]) = i.1 at e
      rw [ho] at e
      exact e.symm
    · simp
  · rw [dif_neg h, Finset.sum_eq_zero]
    intro i _
    rw [if_neg]
    intro ho
    exact h (ho ▸ List.getElem_mem _)

theorem HMM.emit_getElem (M : HMM K O n) (hn : M.alphabet.Nodup) (s : Fin n) (i : Fin M.alphabet.length) :
    M.emit s M.alphabet[i] = M.output s i := by
  unfold emit
  rw [Finset.sum_eq_single i]
  · simp
  · intro j _ hj
    rw [if_neg]
    intro h
    exact hj (Fin.ext ((List.Nodup.getElem_inj_iff hn).mp h))
  · simp

theorem HMM.tau_eq_step (M : HMM K O n) (hn : M.alphabet.Nodup) : M.tau = M.step := by
  funext s s' o
  unfold tau step
  rw [M.b_eq_emit hn, mul_comm]

theorem HMM.emit_nonneg [LinearOrder K] [IsStrictOrderedRing K] (M : HMM K O n) (h : ∀ s i, 0 ≤ M.output s i) (s : Fin n) (o : O) :
    0 ≤ M.emit s o := Finset.sum_nonneg (fun i _ => by split_ifs; exacts [h s i, le_refl _])

theorem HMM.step_nonneg [LinearOrder K] [IsStrictOrderedRing K] (M : HMM K O n) (h : ∀ s s', 0 ≤ M.matrix s s')
    (ho : ∀ s i, 0 ≤ M.output s i) (s ss : Fin n) (o : O) : 0 ≤ M.step s ss o :=
  mul_nonneg (M.emit_nonneg ho s o) (h s ss)

theorem HMM.lik_eq (M : HMM K O n) (hm : ∀ s, ∑ s', M.matrix s s' = 1) (w : List O) (hw : w ≠ []) :
    M.lik w = totalWeight M.initialState M.step (fun _ => 1) w := by
  rw [totalWeight_eq, ← lastSum_eq]
  exact (lastSum_eq_listProb _ _ _ (fun s s' o => by unfold step; ring) hm w hw _).symm

/-- The result of one worker, without the test. -/
def wkHMM (M : HMM K O n) (x : List O × ℕ) : WorkHMM K n M.alphabet.length where
  den := vis M.step M.initialState (fun _ => 1) (fun _ => 1) (x.2 / totalWeight M.initialState M.step (fun _ => 1) x.1) x.1
  numA := use M.step M.initialState (fun _ => 1) (fun _ => 1) (x.2 / totalWeight M.initialState M.step (fun _ => 1) x.1) x.1
  numB := fun s i => vis M.step M.initialState (fun _ => 1) (fun t => if t = M.alphabet[i] then 1 else 0)
    (x.2 / totalWeight M.initialState M.step (fun _ => 1) x.1) x.1 s
  proba := totalWeight M.initialState M.step (fun _ => 1) x.1
  times := x.2
  numInit := fun s => M.initialState s * beta0 M.step (fun _ => 1) x.1 s * x.2 / totalWeight M.initialState M.step (fun _ => 1) x.1

theorem alphas_headD {K O : Type} [Field K] {n : ℕ} (tau : Fin n → Fin n → O → K) (v d : Fin n → K) (os : List O) :
    (alphas tau v os).headD d = v := by cases os <;> rfl

theorem betas_headD {K O : Type} [Field K] {n : ℕ} (tau : Fin n → Fin n → O → K) (f d : Fin n → K) (os : List O) :
    (betas tau f os).headD d = beta0 tau f os := by cases os <;> rfl

theorem processWorkHMM_eq [DecidableEq K] (M : HMM K O n) (hn : M.alphabet.Nodup) (x : List O × ℕ) :
    processWorkHMM M x.1 x.2 = if totalWeight M.initialState M.step (fun _ => 1) x.1 = 0 then none else some (wkHMM M x) := by
  unfold processWorkHMM
  simp only [lastSum_eq, ← totalWeight_eq, M.tau_eq_step hn, alphas_headD, betas_headD]
  rfl

/-- The possible entries of a set. -/
def possHMM [DecidableEq K] (M : HMM K O n) (S : TSet O) : List (List O × ℕ) :=
  (S.sequences.zip S.times).filter (fun x => ¬ totalWeight M.initialState M.step (fun _ => 1) x.1 = 0)

theorem workHMM_ok [DecidableEq K] (processes : ℕ) (S : TSet O) (M : HMM K O n) (hn : M.alphabet.Nodup)
    (temp : List (WorkHMM K n M.alphabet.length)) (h : workHMM processes S M = .ok temp) :
    temp = (possHMM M S).map (wkHMM M) ∧ possHMM M S ≠ [] ∧
      (processes ≤ 1 → ∀ x ∈ S.sequences.zip S.times, totalWeight M.initialState M.step (fun _ => 1) x.1 ≠ 0) := by
  obtain ⟨h1, h2, h3⟩ := collect_ok _ _ _ _ h
  have e : (S.sequences.zip S.times).map (fun p => processWorkHMM M p.1 p.2)
      = (S.sequences.zip S.times).map (fun x => if totalWeight M.initialState M.step (fun _ => 1) x.1 = 0 then none else some (wkHMM M x)) :=
    List.map_congr_left (fun x _ => processWorkHMM_eq M hn x)
  rw [e, filterMap_ite] at h1
  refine ⟨h1, ?_, ?_⟩
  · intro h0
    apply h2
    rw [h1]
    unfold possHMM at h0
    rw [h0]; rfl
  · intro hp x hx h0
    apply h3 hp none _ rfl
    rw [e]
    exact List.mem_map.mpr ⟨x, hx, by rw [if_pos h0]⟩

/-- The expected counts of the training set. -/
def denHMM [DecidableEq K] (M : HMM K O n) (S : TSet O) (s : Fin n) : K := ((possHMM M S).map (fun x => (wkHMM M x).den s)).sum
def numAHMM [DecidableEq K] (M : HMM K O n) (S : TSet O) (s ss : Fin n) : K := ((possHMM M S).map (fun x => (wkHMM M x).numA s ss)).sum
def numBHMM [DecidableEq K] (M : HMM K O n) (S : TSet O) (s : Fin n) (i : Fin M.alphabet.length) : K :=
  ((possHMM M S).map (fun x => (wkHMM M x).numB s i)).sum
def initHMM [DecidableEq K] (M : HMM K O n) (S : TSet O) (s : Fin n) : K := ((possHMM M S).map (fun x => (wkHMM M x).numInit s)).sum

/-- The model after one iteration. -/
def newHMM [DecidableEq K] (M : HMM K O n) (S : TSet O) : HMM K O n :=
  { M with
    matrix := fun s ss => if denHMM M S s = 0 then M.matrix s ss else numAHMM M S s ss / denHMM M S s
    output := fun s i => if denHMM M S s = 0 then M.output s i else numBHMM M S s i / denHMM M S s
    initialState := fun s => initHMM M S s / ∑ s', initHMM M S s' }

theorem updateHMM_eq [DecidableEq K] (M : HMM K O n) (S : TSet O) :
    updateHMM M ((possHMM M S).map (wkHMM M)) = newHMM M S := by
  unfold updateHMM newHMM denHMM numAHMM numBHMM initHMM
  simp only [List.map_map]
  rfl

theorem stepHMM_ok (processes : ℕ) (S : TSet O) (M M' : HMM ℝ O n) (hn : M.alphabet.Nodup) (ll : ℝ)
    (h : stepHMM processes S M = .ok (M', ll)) :
    M' = newHMM M S ∧ possHMM M S ≠ [] ∧
    ll = ((possHMM M S).map (fun x => Real.log (totalWeight M.initialState M.step (fun _ => 1) x.1) * x.2)).sum ∧
    (processes ≤ 1 → ∀ x ∈ S.sequences.zip S.times, totalWeight M.initialState M.step (fun _ => 1) x.1 ≠ 0) := by
  unfold stepHMM at h
  cases hw : workHMM processes S M with
  | error e => rw [hw] at h; cases h
  | ok temp =>
    rw [hw] at h
    obtain ⟨h1, h2, h3⟩ := workHMM_ok _ _ _ hn _ hw
    have h' : (updateHMM M temp, logLik (temp.map (fun w => (w.proba, w.times)))) = (M', ll) := by
      injection h
    rw [h1, updateHMM_eq] at h'
    injection h' with ha hb
    refine ⟨ha.symm, h2, ?_, h3⟩
    rw [← hb]
    unfold logLik
    simp only [List.map_map]
    rfl

theorem sum_numAHMM [DecidableEq K] (M : HMM K O n) (S : TSet O) (s : Fin n) : ∑ ss, numAHMM M S s ss = denHMM M S s := by
  unfold numAHMM denHMM
  rw [sum_map_comm]
  congr 1
  exact List.map_congr_left (fun x _ => by simp only [wkHMM]; exact sum_use _ _ _ _ _ _ _)

theorem vis_emit (M : HMM K O n) (hn : M.alphabet.Nodup) (v f : Fin n → K) (c : K) (w : List O) (s : Fin n) :
    ∑ i : Fin M.alphabet.length, vis M.step v f (fun t => if t = M.alphabet[i] then 1 else 0) c w s = vis M.step v f (fun _ => 1) c w s := by
  rw [← vis_finsum, ← sum_use, ← sum_use]
  refine Finset.sum_congr rfl (fun ss _ => use_congr _ _ _ _ _ _ _ _ _ (fun o _ ho => ?_))
  have hmem : ∃ i : Fin M.alphabet.length, M.alphabet[i] = o := by
    by_contra hcon
    push Not at hcon
    apply ho
    unfold HMM.step HMM.emit
    rw [Finset.sum_eq_zero, zero_mul]
    intro i _
    rw [if_neg (hcon i)]
  obtain ⟨i, rfl⟩ := hmem
  rw [Finset.sum_eq_single i]
  · simp
  · intro j _ hj
    rw [if_neg]
    intro h
    exact hj (Fin.ext ((List.Nodup.getElem_inj_iff hn).mp h.symm))
  · simp

theorem sum_numBHMM [DecidableEq K] (M : HMM K O n) (hn : M.alphabet.Nodup) (S : TSet O) (s : Fin n) :
    ∑ i, numBHMM M S s i = denHMM M S s := by
  unfold numBHMM denHMM
  rw [sum_map_comm]
  congr 1
  exact List.map_congr_left (fun x _ => by simp only [wkHMM]; exact vis_emit M hn _ _ _ _ _)

theorem sum_initHMM [DecidableEq K] (M : HMM K O n) (S : TSet O) :
    ∑ s, initHMM M S s = ((possHMM M S).map (fun x => (x.2 : K))).sum := by
  unfold initHMM
  rw [sum_map_comm]
  congr 1
  refine List.map_congr_left (fun x hx => ?_)
  have h0 : totalWeight M.initialState M.step (fun _ => 1) x.1 ≠ 0 := by
    have := (List.mem_filter.mp hx).2
    simpa using this
  simp only [wkHMM]
  rw [← Finset.sum_div, ← Finset.sum_mul, ← totalWeight_eq]
  field_simp

theorem numAHMM_zero [DecidableEq K] (M : HMM K O n) (S : TSet O) (s ss : Fin n) (h : M.matrix s ss = 0) : numAHMM M S s ss = 0 := by
  unfold numAHMM
  rw [List.sum_eq_zero]
  intro a ha
  obtain ⟨x, _, rfl⟩ := List.mem_map.mp ha
  simp only [wkHMM]
  exact use_zero _ _ _ _ _ _ _ _ (fun o _ => by simp [HMM.step, h])

theorem vis_emit_zero (M : HMM K O n) (hn : M.alphabet.Nodup) (v f : Fin n → K) (c : K) (w : List O) (s : Fin n)
    (i : Fin M.alphabet.length) (h : M.output s i = 0) :
    vis M.step v f (fun t => if t = M.alphabet[i] then 1 else 0) c w s = 0 := by
  rw [← sum_use]
  refine Finset.sum_eq_zero (fun ss _ => ?_)
  have e := use_congr M.step v f (fun t => if t = M.alphabet[i] then 1 else 0) (fun _ => 0) c w s ss (fun o _ ho => by
    by_cases h' : o = M.alphabet[i]
    · exfalso
      apply ho
      rw [h']
      unfold HMM.step
      rw [M.emit_getElem hn, h, zero_mul]
    · simp only [if_neg h'])
  rw [e, use_const, zero_mul]

theorem numBHMM_zero [DecidableEq K] (M : HMM K O n) (hn : M.alphabet.Nodup) (S : TSet O) (s : Fin n)
    (i : Fin M.alphabet.length) (h : M.output s i = 0) : numBHMM M S s i = 0 := by
  unfold numBHMM
  rw [List.sum_eq_zero]
  intro a ha
  obtain ⟨x, _, rfl⟩ := List.mem_map.mp ha
  simp only [wkHMM]
  exact vis_emit_zero M hn _ _ _ _ _ _ h

theorem initHMM_zero [DecidableEq K] (M : HMM K O n) (S : TSet O) (s : Fin n) (h : M.initialState s = 0) : initHMM M S s = 0 := by
  unfold initHMM
  rw [List.sum_eq_zero]
  intro a ha
  obtain ⟨x, _, rfl⟩ := List.mem_map.mp ha
  simp [wkHMM, h]

section order
variable [LinearOrder K] [IsStrictOrderedRing K] (M : HMM K O n) (S : TSet O)
  (hi0 : ∀ s, 0 ≤ M.initialState s) (hm0 : ∀ s s', 0 ≤ M.matrix s s') (ho0 : ∀ s i, 0 ≤ M.output s i)
include hi0 hm0 ho0

theorem numAHMM_nonneg (s ss : Fin n) : 0 ≤ numAHMM M S s ss := by
  refine sum_map_nonneg _ _ (fun x _ => use_nonneg _ _ _ (M.step_nonneg hm0 ho0) hi0 (fun _ => zero_le_one) _ _ ?_ _
    (fun _ _ => zero_le_one) _ _)
  exact div_nonneg (Nat.cast_nonneg _) (totalWeight_nonneg _ _ _ (M.step_nonneg hm0 ho0) hi0 (fun _ => zero_le_one) _)

theorem numBHMM_nonneg (s : Fin n) (i : Fin M.alphabet.length) : 0 ≤ numBHMM M S s i := by
  refine sum_map_nonneg _ _ (fun x _ => ?_)
  simp only [wkHMM]
  refine vis_nonneg _ _ _ (M.step_nonneg hm0 ho0) hi0 (fun _ => zero_le_one) _ _ ?_ _ (fun _ _ => ?_) _
  · exact div_nonneg (Nat.cast_nonneg _) (totalWeight_nonneg _ _ _ (M.step_nonneg hm0 ho0) hi0 (fun _ => zero_le_one) _)
  · split_ifs <;> simp

theorem initHMM_nonneg (s : Fin n) : 0 ≤ initHMM M S s := by
  refine sum_map_nonneg _ _ (fun x _ => div_nonneg (mul_nonneg (mul_nonneg (hi0 s)
    (beta0_nonneg _ _ (M.step_nonneg hm0 ho0) (fun _ => zero_le_one) _ _)) (Nat.cast_nonneg _)) ?_)
  exact totalWeight_nonneg _ _ _ (M.step_nonneg hm0 ho0) hi0 (fun _ => zero_le_one) _

theorem denHMM_nonneg (s : Fin n) : 0 ≤ denHMM M S s := by
  rw [← sum_numAHMM]; exact Finset.sum_nonneg (fun ss _ => numAHMM_nonneg M S hi0 hm0 ho0 s ss)

end order

/-- The HMM with the same alphabet and other probabilities. -/
@[reducible] def HMM.withProb {K O : Type} {n : ℕ} (M : HMM K O n) (A : Fin n → Fin n → K) (B : Fin n → Fin M.alphabet.length → K)
    (I : Fin n → K) : HMM K O n :=
  { M with matrix := A, output := B, initialState := I }

/-- What any other probabilities gain. -/
theorem hmm_gain_le (M : HMM ℝ O n) (hnd : M.alphabet.Nodup) (S : TSet O) (hi0 : ∀ s, 0 ≤ M.initialState s)
    (hm0 : ∀ s s', 0 ≤ M.matrix s s') (ho0 : ∀ s i, 0 ≤ M.output s i)
    (A : Fin n → Fin n → ℝ) (B : Fin n → Fin M.alphabet.length → ℝ) (I : Fin n → ℝ)
    (hA0 : ∀ s ss, 0 ≤ A s ss) (hB0 : ∀ s i, 0 ≤ B s i) (hI0 : ∀ s, 0 ≤ I s) (ht : ∀ t ∈ S.times, 1 ≤ t)
    (hA : ∀ s ss, 0 < M.matrix s ss → 0 < numAHMM M S s ss → 0 < A s ss)
    (hB : ∀ s i, 0 < M.output s i → 0 < numBHMM M S s i → 0 < B s i)
    (hI : ∀ s, 0 < M.initialState s → 0 < initHMM M S s → 0 < I s) :
    (∀ x ∈ possHMM M S, 0 < totalWeight I (M.withProb A B I).step (fun _ => 1) x.1) ∧
    ((possHMM M S).map (fun x => Real.log (totalWeight M.initialState M.step (fun _ => 1) x.1) * x.2)).sum
      + (∑ s, initHMM M S s * Real.log (I s / M.initialState s)
      + ∑ s, (∑ ss, numAHMM M S s ss * Real.log (A s ss / M.matrix s ss) + ∑ i, numBHMM M S s i * Real.log (B s i / M.output s i))) ≤
    ((possHMM M S).map (fun x => Real.log (totalWeight I (M.withProb A B I).step (fun _ => 1) x.1) * x.2)).sum := by
  have hn := numAHMM_nonneg M S hi0 hm0 ho0
  have hb := numBHMM_nonneg M S hi0 hm0 ho0
  have hst := M.step_nonneg hm0 ho0
  have hposs : ∀ x ∈ possHMM M S, totalWeight M.initialState M.step (fun _ => 1) x.1 ≠ 0 ∧ x.2 ∈ S.times := by
    intro x hx
    obtain ⟨h1, h2⟩ := List.mem_filter.mp hx
    exact ⟨by simpa using h2, (List.of_mem_zip h1).2⟩
  have hp0 : ∀ x ∈ possHMM M S, 0 < totalWeight M.initialState M.step (fun _ => 1) x.1 := fun x hx =>
    lt_of_le_of_ne (totalWeight_nonneg _ _ _ hst hi0 (fun _ => zero_le_one) _) (hposs x hx).1.symm
  have ht0 : ∀ x ∈ possHMM M S, (0:ℝ) < x.2 := fun x hx => by have := ht _ (hposs x hx).2; exact_mod_cast this
  -- the counts of the transitions taken while the i-th letter is observed
  let U : Fin n → Fin n → Fin M.alphabet.length → ℝ := fun s ss i => ((possHMM M S).map (fun y =>
    use M.step M.initialState (fun _ => 1) (fun t => if t = M.alphabet[i] then 1 else 0)
      ((y.2 : ℝ) / totalWeight M.initialState M.step (fun _ => 1) y.1) y.1 s ss)).sum
  have hU0 : ∀ s ss i, 0 ≤ U s ss i := fun s ss i => sum_map_nonneg _ _ (fun x hx => use_nonneg _ _ _ hst hi0
    (fun _ => zero_le_one) _ _ (div_nonneg (Nat.cast_nonneg _) (hp0 x hx).le) _ (fun _ _ => by split_ifs <;> simp) _ _)
  have hletter : ∀ s ss o, M.step s ss o ≠ 0 → ∃ i : Fin M.alphabet.length, M.alphabet[i] = o := by
    intro s ss o ho
    by_contra hcon
    push Not at hcon
    apply ho
    unfold HMM.step HMM.emit
    rw [Finset.sum_eq_zero, zero_mul]
    intro i _
    rw [if_neg (hcon i)]
  have hdecomp : ∀ s ss (φ : O → ℝ), ((possHMM M S).map (fun y =>
      use M.step M.initialState (fun _ => 1) φ ((y.2 : ℝ) / totalWeight M.initialState M.step (fun _ => 1) y.1) y.1 s ss)).sum
      = ∑ i : Fin M.alphabet.length, φ M.alphabet[i] * U s ss i := by
    intro s ss φ
    simp only [U]
    rw [Finset.sum_congr rfl (fun i _ => (sum_map_mul (possHMM M S) _ (φ M.alphabet[i])).symm), sum_map_comm]
    congr 1
    refine List.map_congr_left (fun y _ => ?_)
    simp only [← use_smul]
    rw [← use_finsum]
    refine use_congr _ _ _ _ _ _ _ _ _ (fun o _ ho => ?_)
    obtain ⟨i, rfl⟩ := hletter s ss o ho
    rw [Finset.sum_eq_single i]
    · simp
    · intro j _ hj
      rw [if_neg, mul_zero]
      intro h
      exact hj (Fin.ext ((List.Nodup.getElem_inj_iff hnd).mp h.symm))
    · simp
  have hUA : ∀ s ss, ∑ i, U s ss i = numAHMM M S s ss := by
    intro s ss
    have := hdecomp s ss (fun _ => 1)
    simp only [one_mul] at this
    exact this.symm
  have hUB : ∀ s i, ∑ ss, U s ss i = numBHMM M S s i := by
    intro s i
    simp only [U, numBHMM]
    rw [sum_map_comm]
    congr 1
    exact List.map_congr_left (fun x _ => sum_use _ _ _ _ _ _ _)
  -- what a used transition implies
  have hused : ∀ s ss i, 0 < U s ss i → 0 < M.matrix s ss ∧ 0 < M.output s i ∧ 0 < A s ss ∧ 0 < B s i := by
    intro s ss i hU
    have h1 : 0 < numAHMM M S s ss := by
      rw [← hUA]; exact lt_of_lt_of_le hU (Finset.single_le_sum (fun i _ => hU0 s ss i) (Finset.mem_univ i))
    have h2 : 0 < numBHMM M S s i := by
      rw [← hUB]; exact lt_of_lt_of_le hU (Finset.single_le_sum (f := fun ss => U s ss i) (fun ss _ => hU0 s ss i) (Finset.mem_univ ss))
    have h3 : 0 < M.matrix s ss := by
      rcases (hm0 s ss).eq_or_lt with h | h
      · rw [numAHMM_zero M S s ss h.symm] at h1; exact absurd h1 (lt_irrefl _)
      · exact h
    have h4 : 0 < M.output s i := by
      rcases (ho0 s i).eq_or_lt with h | h
      · rw [numBHMM_zero M hnd S s i h.symm] at h2; exact absurd h2 (lt_irrefl _)
      · exact h
    exact ⟨h3, h4, hA s ss h3 h1, hB s i h4 h2⟩
  have hem' : ∀ s (i : Fin M.alphabet.length), (M.withProb A B I).emit s M.alphabet[i] = (M.withProb A B I).output s i := fun s i =>
    (M.withProb A B I).emit_getElem hnd s i
  have key := em_total (possHMM M S) (fun x => x.1) (fun _ _ => 1) (fun x => (x.2 : ℝ))
    (fun x => totalWeight M.initialState M.step (fun _ => 1) x.1)
    (fun x => totalWeight (M.withProb A B I).initialState (M.withProb A B I).step (fun _ => 1) x.1)
    M.step (M.withProb A B I).step M.initialState (M.withProb A B I).initialState hst ((M.withProb A B I).step_nonneg hA0 hB0)
    (fun _ _ _ => zero_le_one) hi0 hI0 (fun x _ => totalWeight_eq _ _ _ _) (fun x _ => totalWeight_eq _ _ _ _)
    hp0 ht0
    (by
      intro s ss x hx o ho hpos hu
      obtain ⟨i, rfl⟩ := hletter s ss o hpos.ne'
      have h1 : 0 < U s ss i := hu (fun t => if t = M.alphabet[i] then 1 else 0)
        (fun _ _ _ _ => by split_ifs <;> simp) (by simp)
      obtain ⟨_, _, h3, h4⟩ := hused s ss i h1
      unfold HMM.step
      rw [hem']
      exact mul_pos h4 h3)
    (by
      intro s hs
      change 0 < initHMM M S s at hs
      rcases (hi0 s).eq_or_lt with h' | h'
      · rw [initHMM_zero M S s h'.symm] at hs; exact absurd hs (lt_irrefl _)
      · exact hI s h' hs)
  refine ⟨key.1, ?_⟩
  have k2 := key.2
  -- transitions and emissions
  have g2 : ∑ s, ∑ ss, ((possHMM M S).map (fun y => use M.step M.initialState (fun _ => 1)
      (fun o => Real.log ((M.withProb A B I).step s ss o / M.step s ss o))
      ((y.2 : ℝ) / totalWeight M.initialState M.step (fun _ => 1) y.1) y.1 s ss)).sum
      = ∑ s, (∑ ss, numAHMM M S s ss * Real.log (A s ss / M.matrix s ss) + ∑ i, numBHMM M S s i * Real.log (B s i / M.output s i)) := by
    refine Finset.sum_congr rfl (fun s _ => ?_)
    have e1 : ∀ ss, ((possHMM M S).map (fun y => use M.step M.initialState (fun _ => 1)
        (fun o => Real.log ((M.withProb A B I).step s ss o / M.step s ss o))
        ((y.2 : ℝ) / totalWeight M.initialState M.step (fun _ => 1) y.1) y.1 s ss)).sum
        = ∑ i, U s ss i * (Real.log ((M.withProb A B I).matrix s ss / M.matrix s ss)
            + Real.log ((M.withProb A B I).output s i / M.output s i)) := by
      intro ss
      rw [hdecomp]
      refine Finset.sum_congr rfl (fun i _ => ?_)
      rcases (hU0 s ss i).eq_or_lt with h | h
      · rw [← h, mul_zero, zero_mul]
      · obtain ⟨a1, a2, a3, a4⟩ := hused s ss i h
        unfold HMM.step
        rw [hem', M.emit_getElem hnd, mul_div_mul_comm, Real.log_mul (by positivity) (by positivity)]
        ring
    rw [Finset.sum_congr rfl (fun ss _ => e1 ss)]
    have e2 : ∑ ss, ∑ i, U s ss i * (Real.log ((M.withProb A B I).matrix s ss / M.matrix s ss)
            + Real.log ((M.withProb A B I).output s i / M.output s i))
        = ∑ ss, numAHMM M S s ss * Real.log ((M.withProb A B I).matrix s ss / M.matrix s ss)
          + ∑ i, numBHMM M S s i * Real.log ((M.withProb A B I).output s i / M.output s i) := by
      simp only [mul_add, Finset.sum_add_distrib]
      congr 1
      · exact Finset.sum_congr rfl (fun ss _ => by rw [← Finset.sum_mul, hUA])
      · rw [Finset.sum_comm]
        exact Finset.sum_congr rfl (fun i _ => by rw [← Finset.sum_mul, hUB])
    exact e2
  rw [g2] at k2
  change ∑ s, initHMM M S s * Real.log (I s / M.initialState s) + _ ≤ _ at k2
  linarith

theorem newHMM_gain (M : HMM ℝ O n) (hnd : M.alphabet.Nodup) (S : TSet O) (hi0 : ∀ s, 0 ≤ M.initialState s)
    (hi1 : ∑ s, M.initialState s ≤ 1)
    (hm0 : ∀ s s', 0 ≤ M.matrix s s') (hm1 : ∀ s, ∑ s', M.matrix s s' ≤ 1)
    (ho0 : ∀ s i, 0 ≤ M.output s i) (ho1 : ∀ s, ∑ i, M.output s i ≤ 1) (ht : ∀ t ∈ S.times, 1 ≤ t) :
    (∀ x ∈ possHMM M S, 0 < totalWeight (newHMM M S).initialState (newHMM M S).step (fun _ => 1) x.1) ∧
    ((possHMM M S).map (fun x => Real.log (totalWeight M.initialState M.step (fun _ => 1) x.1) * x.2)).sum ≤
    ((possHMM M S).map (fun x => Real.log (totalWeight (newHMM M S).initialState (newHMM M S).step (fun _ => 1) x.1) * x.2)).sum := by
  have hn := numAHMM_nonneg M S hi0 hm0 ho0
  have hb := numBHMM_nonneg M S hi0 hm0 ho0
  have hI := initHMM_nonneg M S hi0 hm0 ho0
  have hd := denHMM_nonneg M S hi0 hm0 ho0
  have hst := M.step_nonneg hm0 ho0
  have hIs : 0 ≤ ∑ s, initHMM M S s := Finset.sum_nonneg (fun s _ => hI s)
  have hm0' : ∀ s s', 0 ≤ (newHMM M S).matrix s s' := by
    intro s s'
    simp only [newHMM]
    split_ifs
    · exact hm0 _ _
    · exact div_nonneg (hn _ _) (hd _)
  have ho0' : ∀ s i, 0 ≤ (newHMM M S).output s i := by
    intro s i
    simp only [newHMM]
    split_ifs
    · exact ho0 _ _
    · exact div_nonneg (hb _ _) (hd _)
  have hi0' : ∀ s, 0 ≤ (newHMM M S).initialState s := fun s => div_nonneg (hI s) hIs
  have hden : ∀ s ss, 0 < numAHMM M S s ss → 0 < denHMM M S s := fun s ss h => lt_of_lt_of_le h (by
    rw [← sum_numAHMM]; exact Finset.single_le_sum (fun ss _ => hn s ss) (Finset.mem_univ ss))
  have hdenB : ∀ s i, 0 < numBHMM M S s i → 0 < denHMM M S s := fun s i h => lt_of_lt_of_le h (by
    rw [← sum_numBHMM M hnd]; exact Finset.single_le_sum (fun i _ => hb s i) (Finset.mem_univ i))
  have e : newHMM M S = M.withProb (newHMM M S).matrix (newHMM M S).output (newHMM M S).initialState := rfl
  obtain ⟨k1, k2⟩ := hmm_gain_le M hnd S hi0 hm0 ho0 (newHMM M S).matrix (newHMM M S).output (newHMM M S).initialState hm0' ho0' hi0' ht
    (fun s ss _ h => by
      have := hden s ss h
      simp only [newHMM, if_neg this.ne']
      exact div_pos h this)
    (fun s i _ h => by
      have := hdenB s i h
      simp only [newHMM, if_neg this.ne']
      exact div_pos h this)
    (fun s _ hs => div_pos hs (lt_of_lt_of_le hs (Finset.single_le_sum (f := fun s => initHMM M S s) (fun s _ => hI s) (Finset.mem_univ s))))
  rw [← e] at k1 k2
  refine ⟨k1, le_trans ?_ k2⟩
  -- initial distribution
  have g1 : 0 ≤ ∑ s, initHMM M S s * Real.log ((newHMM M S).initialState s / M.initialState s) := by
    change 0 ≤ ∑ s, initHMM M S s * Real.log (initHMM M S s / (∑ s', initHMM M S s') / M.initialState s)
    rcases hIs.eq_or_lt with h | h
    · have hz := (Finset.sum_eq_zero_iff_of_nonneg (fun s _ => hI s)).mp h.symm
      exact le_of_eq (Finset.sum_eq_zero (fun s hs => by rw [hz s hs, zero_mul])).symm
    · refine gibbs Finset.univ (initHMM M S) M.initialState (fun s _ => hI s) (fun s _ => hi0 s) hi1 (fun s _ hpos => ?_) h
      rcases (hi0 s).eq_or_lt with h' | h'
      · rw [initHMM_zero M S s h'.symm] at hpos; exact absurd hpos (lt_irrefl _)
      · exact h'
  -- transitions and emissions
  have g2 : 0 ≤ ∑ s, (∑ ss, numAHMM M S s ss * Real.log ((newHMM M S).matrix s ss / M.matrix s ss)
      + ∑ i, numBHMM M S s i * Real.log ((newHMM M S).output s i / M.output s i)) := by
    refine Finset.sum_nonneg (fun s _ => ?_)
    by_cases h0 : denHMM M S s = 0
    · have hz := (Finset.sum_eq_zero_iff_of_nonneg (fun ss _ => hn s ss)).mp ((sum_numAHMM M S s).trans h0)
      have hzb := (Finset.sum_eq_zero_iff_of_nonneg (fun i _ => hb s i)).mp ((sum_numBHMM M hnd S s).trans h0)
      rw [Finset.sum_eq_zero (fun ss hss => by rw [hz ss hss, zero_mul]),
        Finset.sum_eq_zero (fun i hi => by rw [hzb i hi, zero_mul]), add_zero]
    · have hdpos : 0 < denHMM M S s := lt_of_le_of_ne (hd s) (Ne.symm h0)
      refine add_nonneg ?_ ?_
      · have hg := gibbs Finset.univ (numAHMM M S s) (M.matrix s) (fun ss _ => hn s ss) (fun ss _ => hm0 s ss) (hm1 s)
          (fun ss _ hpos => by
            rcases (hm0 s ss).eq_or_lt with h | h
            · rw [numAHMM_zero M S s ss h.symm] at hpos; exact absurd hpos (lt_irrefl _)
            · exact h)
          (by rw [sum_numAHMM]; exact hdpos)
        rw [sum_numAHMM] at hg
        simpa only [newHMM, if_neg h0] using hg
      · have hg := gibbs Finset.univ (numBHMM M S s) (M.output s) (fun ss _ => hb s ss) (fun ss _ => ho0 s ss) (ho1 s)
          (fun i _ hpos => by
            rcases (ho0 s i).eq_or_lt with h | h
            · rw [numBHMM_zero M hnd S s i h.symm] at hpos; exact absurd hpos (lt_irrefl _)
            · exact h)
          (by rw [sum_numBHMM M hnd]; exact hdpos)
        rw [sum_numBHMM M hnd] at hg
        simpa only [newHMM, if_neg h0] using hg
  linarith

end
end Jajapy
