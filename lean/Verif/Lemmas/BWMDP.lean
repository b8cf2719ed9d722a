import Verif.Lemmas.MDP

set_option linter.unusedSectionVars false

namespace Jajapy

open Finset Spec BW

namespace BW

section
variable {K : Type} {n : ℕ} [Field K]

theorem maskLast_dropLast (f : Fin n → K) (al : List (Fin n → K)) : (maskLast f al).dropLast = al.dropLast := by
  induction al with
  | nil => rfl
  | cons v rest ih =>
    cases rest with
    | nil => rfl
    | cons u rest =>
      have h : maskLast f (u :: rest) ≠ [] := by cases rest <;> simp [maskLast]
      simp only [maskLast]
      rw [List.dropLast_cons_of_ne_nil h, ih, List.dropLast_cons_of_ne_nil (List.cons_ne_nil u rest)]

theorem maskLast_getLast? (f : Fin n → K) (al : List (Fin n → K)) :
    (maskLast f al).getLast? = al.getLast?.map (fun v s => v s * f s) := by
  induction al with
  | nil => rfl
  | cons v rest ih =>
    cases rest with
    | nil => rfl
    | cons u rest =>
      have h : maskLast f (u :: rest) ≠ [] := by cases rest <;> simp [maskLast]
      simp only [maskLast]
      rw [List.getLast?_cons_of_ne_nil h, ih, List.getLast?_cons_of_ne_nil (List.cons_ne_nil u rest)]

theorem lastSum_maskLast {O : Type} (tau : Fin n → Fin n → O → K) (v f : Fin n → K) (os : List O) :
    lastSum (maskLast f (alphas tau v os)) = totalWeight v tau f os := by
  rw [totalWeight_eq, ← last_sum]
  unfold lastSum
  rw [maskLast_getLast?]
  cases h : (alphas tau v os).getLast? with
  | none => simp
  | some u => simp

end
end BW

section
variable {K L : Type} {n : ℕ} [Field K] [DecidableEq L]

/-- The weight that the worker computes for a trace (the last observation is irrelevant for the empty trace). -/
def weightMDP (M : MDP K L n) (w : List L) : K :=
  match w.getLast? with
  | none => 0
  | some last => totalWeight M.initialState M.step (M.mask last) (pairs w)

/-- The last mask. -/
def maskMDP (M : MDP K L n) (w : List L) : Fin n → K :=
  match w.getLast? with
  | none => fun _ => 0
  | some last => M.mask last

theorem weightMDP_eq (M : MDP K L n) (w : List L) (hw : w ≠ []) :
    weightMDP M w = totalWeight M.initialState M.step (maskMDP M w) (pairs w) := by
  unfold weightMDP maskMDP
  cases h : w.getLast? with
  | none => exact absurd (List.getLast?_eq_none_iff.mp h) hw
  | some last => rfl

theorem weightMDP_lik (M : MDP K L n) (w : List L) (hw : w.length % 2 = 1) : weightMDP M w = M.lik w := by
  obtain ⟨ps, last, rfl⟩ := exists_alternate w hw
  rw [MDP.lik_alternate]
  unfold weightMDP MDP.stepWeight
  rw [getLast?_alternate, pairs_alternate]

/-- `[a = actions[i]]`. -/
def actIs (M : MDP K L n) (i : Fin M.actions.length) (x : L × L) : K := if x.2 = M.actions[i] then 1 else 0

/-- The result of one worker, without the test. -/
def wkMDP (M : MDP K L n) (x : List L × ℕ) : WorkMDP K n M.actions.length where
  den := fun s i => vis M.step M.initialState (maskMDP M x.1) (actIs M i) (x.2 / weightMDP M x.1) (pairs x.1) s
  num := fun s i ss => use M.step M.initialState (maskMDP M x.1) (actIs M i) (x.2 / weightMDP M x.1) (pairs x.1) s ss
  proba := weightMDP M x.1
  times := x.2

theorem processWorkMDP_eq [DecidableEq K] (M : MDP K L n) (hn : M.actions.Nodup) (x : List L × ℕ) (hx : x.1 ≠ []) :
    processWorkMDP M x.1 x.2 = .ok (if weightMDP M x.1 = 0 then none else some (wkMDP M x)) := by
  unfold processWorkMDP
  cases h : x.1.getLast? with
  | none => exact absurd (List.getLast?_eq_none_iff.mp h) hx
  | some last =>
    have hm : maskMDP M x.1 = M.mask last := by unfold maskMDP; rw [h]
    have hw : weightMDP M x.1 = totalWeight M.initialState M.step (M.mask last) (pairs x.1) := by
      rw [weightMDP_eq M _ hx, hm]
    simp only [lastSum_maskLast, M.tauP_eq_step hn, ← hw]
    congr 1
    split_ifs
    · rfl
    · simp only [wkMDP, hm, vis, use, visits, uses, maskLast_dropLast]
      rfl

/-- The possible entries of a set. -/
def possMDP [DecidableEq K] (M : MDP K L n) (S : TSet L) : List (List L × ℕ) :=
  (S.sequences.zip S.times).filter (fun x => ¬ weightMDP M x.1 = 0)

theorem mem_possMDP [DecidableEq K] (M : MDP K L n) (S : TSet L) (x : List L × ℕ) :
    x ∈ possMDP M S ↔ x ∈ S.sequences.zip S.times ∧ weightMDP M x.1 ≠ 0 := by
  unfold possMDP
  rw [List.mem_filter]
  simp

theorem ne_nil_of_weight (M : MDP K L n) (w : List L) (h : weightMDP M w ≠ 0) : w ≠ [] := by
  rintro rfl
  exact h rfl

theorem workMDP_eq [DecidableEq K] (processes : ℕ) (S : TSet L) (M : MDP K L n) (hn : M.actions.Nodup)
    (hne : ∀ w ∈ S.sequences, w ≠ []) :
    workMDP processes S M = collect .valueError processes ((S.sequences.zip S.times).map
      (fun x => if weightMDP M x.1 = 0 then none else some (wkMDP M x))) := by
  unfold workMDP
  rw [List.mapM_ok _ (fun x => if weightMDP M x.1 = 0 then none else some (wkMDP M x)) _
    (fun x hx => processWorkMDP_eq M hn x (hne _ (List.of_mem_zip hx).1))]
  rfl

theorem workMDP_ok [DecidableEq K] (processes : ℕ) (S : TSet L) (M : MDP K L n) (hn : M.actions.Nodup)
    (hne : ∀ w ∈ S.sequences, w ≠ []) (temp : List (WorkMDP K n M.actions.length))
    (h : workMDP processes S M = .ok temp) :
    temp = (possMDP M S).map (wkMDP M) ∧ possMDP M S ≠ [] ∧
      (processes ≤ 1 → ∀ x ∈ S.sequences.zip S.times, weightMDP M x.1 ≠ 0) := by
  rw [workMDP_eq processes S M hn hne] at h
  obtain ⟨h1, h2, h3⟩ := collect_ok _ _ _ _ h
  rw [filterMap_ite] at h1
  refine ⟨h1, ?_, ?_⟩
  · intro h0
    apply h2
    rw [h1]
    unfold possMDP at h0
    rw [h0]; rfl
  · intro hp x hx h0
    apply h3 hp none _ rfl
    exact List.mem_map.mpr ⟨x, hx, by rw [if_pos h0]⟩

/-- The expected counts of the training set. -/
def denMDP [DecidableEq K] (M : MDP K L n) (S : TSet L) (s : Fin n) (i : Fin M.actions.length) : K :=
  ((possMDP M S).map (fun x => (wkMDP M x).den s i)).sum
def numMDP [DecidableEq K] (M : MDP K L n) (S : TSet L) (s : Fin n) (i : Fin M.actions.length) (ss : Fin n) : K :=
  ((possMDP M S).map (fun x => (wkMDP M x).num s i ss)).sum

/-- The model after one iteration. -/
def newMDP [DecidableEq K] (M : MDP K L n) (S : TSet L) : MDP K L n :=
  { M with matrix := fun s i ss => if denMDP M S s i = 0 then M.matrix s i ss else numMDP M S s i ss / denMDP M S s i }

theorem updateMDP_eq [DecidableEq K] (M : MDP K L n) (S : TSet L) :
    updateMDP M ((possMDP M S).map (wkMDP M)) = newMDP M S := by
  unfold updateMDP newMDP denMDP numMDP
  simp only [List.map_map]
  rfl

theorem sum_numMDP [DecidableEq K] (M : MDP K L n) (S : TSet L) (s : Fin n) (i : Fin M.actions.length) :
    ∑ ss, numMDP M S s i ss = denMDP M S s i := by
  unfold numMDP denMDP
  rw [sum_map_comm]
  congr 1
  exact List.map_congr_left (fun x _ => by simp only [wkMDP]; exact sum_use _ _ _ _ _ _ _)

theorem maskMDP_nonneg [LinearOrder K] [IsStrictOrderedRing K] (M : MDP K L n) (w : List L) (s : Fin n) : 0 ≤ maskMDP M w s := by
  unfold maskMDP
  cases w.getLast? with
  | none => exact le_refl _
  | some last => exact M.mask_nonneg _ _

theorem weightMDP_nonneg [LinearOrder K] [IsStrictOrderedRing K] (M : MDP K L n) (hi0 : ∀ s, 0 ≤ M.initialState s)
    (hm0 : ∀ s i s', 0 ≤ M.matrix s i s') (w : List L) : 0 ≤ weightMDP M w := by
  by_cases hw : w = []
  · subst hw; exact le_refl _
  · rw [weightMDP_eq M w hw]
    exact totalWeight_nonneg _ _ _ (M.step_nonneg hm0) hi0 (maskMDP_nonneg M w) _

theorem actIs_nonneg [LinearOrder K] [IsStrictOrderedRing K] (M : MDP K L n) (i : Fin M.actions.length) (x : L × L) :
    0 ≤ actIs M i x := by
  unfold actIs
  split_ifs
  · exact zero_le_one
  · exact le_refl _

theorem numMDP_nonneg [LinearOrder K] [IsStrictOrderedRing K] (M : MDP K L n) (S : TSet L)
    (hi0 : ∀ s, 0 ≤ M.initialState s) (hm0 : ∀ s i s', 0 ≤ M.matrix s i s') (s : Fin n) (i : Fin M.actions.length) (ss : Fin n) :
    0 ≤ numMDP M S s i ss := by
  refine sum_map_nonneg _ _ (fun x _ => ?_)
  simp only [wkMDP]
  refine use_nonneg _ _ _ (M.step_nonneg hm0) hi0 (maskMDP_nonneg M _) (actIs M i) _ ?_ _ (fun _ _ => actIs_nonneg M i _) _ _
  exact div_nonneg (Nat.cast_nonneg _) (weightMDP_nonneg M hi0 hm0 _)

theorem numMDP_zero [DecidableEq K] (M : MDP K L n) (hn : M.actions.Nodup) (S : TSet L) (s : Fin n) (i : Fin M.actions.length)
    (ss : Fin n) (h : M.matrix s i ss = 0) : numMDP M S s i ss = 0 := by
  unfold numMDP
  rw [List.sum_eq_zero]
  intro a ha
  obtain ⟨x, _, rfl⟩ := List.mem_map.mp ha
  simp only [wkMDP]
  rw [use_congr _ _ _ _ (fun _ => 0), use_const, zero_mul]
  intro o _ ho
  unfold actIs
  rw [if_neg]
  intro ha
  apply ho
  unfold MDP.step
  rw [ha, M.prob_getElem hn, h, mul_zero]

theorem stepMDP_ok (processes : ℕ) (S : TSet L) (M M' : MDP ℝ L n) (ll : ℝ) (hn : M.actions.Nodup)
    (hne : ∀ w ∈ S.sequences, w ≠ [])
    (h : stepMDP processes S M = .ok (M', ll)) :
    M' = newMDP M S ∧ possMDP M S ≠ [] ∧
    ll = ((possMDP M S).map (fun x => Real.log (weightMDP M x.1) * x.2)).sum ∧
    (processes ≤ 1 → ∀ x ∈ S.sequences.zip S.times, weightMDP M x.1 ≠ 0) := by
  unfold stepMDP at h
  cases hw : workMDP processes S M with
  | error e => rw [hw] at h; cases h
  | ok temp =>
    rw [hw] at h
    obtain ⟨h1, h2, h3⟩ := workMDP_ok _ _ _ hn hne _ hw
    have h' : (updateMDP M temp, logLik (temp.map (fun w => (w.proba, w.times)))) = (M', ll) := by
      injection h
    rw [h1, updateMDP_eq] at h'
    injection h' with ha hb
    refine ⟨ha.symm, h2, ?_, h3⟩
    rw [← hb]
    unfold logLik
    simp only [List.map_map]
    rfl

/-- The MDP with the same structure and other probabilities. -/
@[reducible] def MDP.withProb {K L : Type} {n : ℕ} (M : MDP K L n) (B : Fin n → Fin M.actions.length → Fin n → K) : MDP K L n :=
  { M with matrix := B }

/-- What any other probabilities gain. -/
theorem mdp_gain_le (M : MDP ℝ L n) (hn : M.actions.Nodup) (S : TSet L) (hi0 : ∀ s, 0 ≤ M.initialState s)
    (hm0 : ∀ s i s', 0 ≤ M.matrix s i s') (B : Fin n → Fin M.actions.length → Fin n → ℝ) (hm0' : ∀ s i s', 0 ≤ B s i s')
    (ht : ∀ t ∈ S.times, 1 ≤ t) (hrate : ∀ s i ss, 0 < M.matrix s i ss → 0 < numMDP M S s i ss → 0 < B s i ss) :
    (∀ x ∈ possMDP M S, 0 < weightMDP (M.withProb B) x.1) ∧
    ((possMDP M S).map (fun x => Real.log (weightMDP M x.1) * x.2)).sum
      + ∑ s, ∑ i, ∑ ss, numMDP M S s i ss * Real.log (B s i ss / M.matrix s i ss) ≤
    ((possMDP M S).map (fun x => Real.log (weightMDP (M.withProb B) x.1) * x.2)).sum := by
  have hposs : ∀ x ∈ possMDP M S, weightMDP M x.1 ≠ 0 ∧ x.2 ∈ S.times ∧ x.1 ≠ [] := by
    intro x hx
    obtain ⟨h1, h2⟩ := (mem_possMDP M S x).mp hx
    exact ⟨h2, (List.of_mem_zip h1).2, ne_nil_of_weight M _ h2⟩
  have hprob : ∀ s (i : Fin M.actions.length) s', (M.withProb B).prob s M.actions[i] s' = (M.withProb B).matrix s i s' :=
    fun s i s' => (M.withProb B).prob_getElem hn s i s'
  have hstep0 : ∀ s ss (o : L × L), 0 < M.step s ss o → ∃ i : Fin M.actions.length, o.2 = M.actions[i] ∧ M.labelling s = o.1 ∧
      M.step s ss o = M.matrix s i ss ∧ (M.withProb B).step s ss o = (M.withProb B).matrix s i ss := by
    intro s ss o hpos
    have hlab : M.labelling s = o.1 := by
      by_contra hl
      unfold MDP.step at hpos
      rw [if_neg hl, zero_mul] at hpos
      exact lt_irrefl _ hpos
    have hmem : o.2 ∈ M.actions := by
      by_contra hc
      unfold MDP.step at hpos
      rw [M.prob_not_mem _ _ _ hc, mul_zero] at hpos
      exact lt_irrefl _ hpos
    obtain ⟨i, hi, he⟩ := List.mem_iff_getElem.mp hmem
    refine ⟨⟨i, hi⟩, he.symm, hlab, ?_, ?_⟩
    · unfold MDP.step
      rw [if_pos hlab, one_mul, ← he]
      exact M.prob_getElem hn s ⟨i, hi⟩ ss
    · unfold MDP.step
      have hl : (M.withProb B).labelling = M.labelling := rfl
      rw [hl, if_pos hlab, one_mul, ← he]
      exact hprob s ⟨i, hi⟩ ss
  have key := em_total (possMDP M S) (fun x => pairs x.1) (fun x => maskMDP M x.1) (fun x => (x.2 : ℝ))
    (fun x => weightMDP M x.1)
    (fun x => weightMDP (M.withProb B) x.1)
    M.step (M.withProb B).step M.initialState M.initialState (M.step_nonneg hm0) ((M.withProb B).step_nonneg hm0')
    (fun x _ => maskMDP_nonneg M x.1) hi0 hi0
    (fun x hx => by rw [weightMDP_eq M _ (hposs x hx).2.2, totalWeight_eq])
    (fun x hx => by rw [weightMDP_eq (M.withProb B) _ (hposs x hx).2.2, totalWeight_eq]; rfl)
    (fun x hx => lt_of_le_of_ne (weightMDP_nonneg M hi0 hm0 _) (hposs x hx).1.symm)
    (fun x hx => by have := ht _ (hposs x hx).2.1; exact_mod_cast this)
    (by
      intro s ss x hx o ho hpos hu
      obtain ⟨i, e1, e2, e3, e4⟩ := hstep0 s ss o hpos
      have h1 : 0 < numMDP M S s i ss := hu (actIs M i) (fun _ _ _ _ => actIs_nonneg M i _) (by
        unfold actIs; rw [if_pos e1]; exact zero_lt_one)
      rw [e4]
      exact hrate s i ss (e3 ▸ hpos) h1)
    (by
      intro s hs
      rcases (hi0 s).eq_or_lt with h | h
      · rw [← h] at hs; simp at hs
      · exact h)
  refine ⟨key.1, ?_⟩
  have hz : ∀ x : ℝ, Real.log (x / x) = 0 := by
    intro x
    by_cases h : x = 0
    · simp [h]
    · simp [div_self h]
  have k2 := key.2
  simp only [hz, mul_zero, Finset.sum_const_zero, zero_add] at k2
  have hgain : ∑ s, ∑ ss, ((possMDP M S).map (fun y => use M.step M.initialState (maskMDP M y.1)
      (fun o => Real.log ((M.withProb B).step s ss o / M.step s ss o))
      ((y.2 : ℝ) / weightMDP M y.1) (pairs y.1) s ss)).sum
      = ∑ s, ∑ i, ∑ ss, numMDP M S s i ss * Real.log (B s i ss / M.matrix s i ss) := by
    refine Finset.sum_congr rfl (fun s _ => ?_)
    have e : ∀ ss, ((possMDP M S).map (fun y => use M.step M.initialState (maskMDP M y.1)
        (fun o => Real.log ((M.withProb B).step s ss o / M.step s ss o))
        ((y.2 : ℝ) / weightMDP M y.1) (pairs y.1) s ss)).sum
        = ∑ i, numMDP M S s i ss * Real.log (B s i ss / M.matrix s i ss) := by
      intro ss
      have e1 : ∀ i, numMDP M S s i ss * Real.log (B s i ss / M.matrix s i ss)
          = ((possMDP M S).map (fun x => Real.log (B s i ss / M.matrix s i ss) * (wkMDP M x).num s i ss)).sum := by
        intro i
        rw [sum_map_mul, mul_comm, numMDP]
      rw [Finset.sum_congr rfl (fun i _ => e1 i), sum_map_comm]
      congr 1
      refine List.map_congr_left (fun y _ => ?_)
      simp only [wkMDP]
      rw [Finset.sum_congr rfl (fun i _ => (use_smul M.step M.initialState (maskMDP M y.1) (actIs M i) ((y.2 : ℝ) / weightMDP M y.1)
        (Real.log (B s i ss / M.matrix s i ss)) (pairs y.1) s ss).symm), ← use_finsum]
      refine use_congr _ _ _ _ _ _ _ _ _ (fun o _ ho => ?_)
      obtain ⟨i, e1, e2, e3, e4⟩ := hstep0 s ss o (lt_of_le_of_ne (M.step_nonneg hm0 _ _ _) ho.symm)
      rw [e3, e4, Finset.sum_eq_single i]
      · unfold actIs; rw [if_pos e1, mul_one]
      · intro j _ hj
        unfold actIs
        rw [if_neg, mul_zero]
        rw [e1]
        intro hij
        exact hj (Fin.ext ((List.Nodup.getElem_inj_iff hn).mp hij)).symm
      · simp
    rw [Finset.sum_congr rfl (fun ss _ => e ss), Finset.sum_comm]
  linarith

theorem newMDP_gain (M : MDP ℝ L n) (hn : M.actions.Nodup) (S : TSet L) (hi0 : ∀ s, 0 ≤ M.initialState s)
    (hm0 : ∀ s i s', 0 ≤ M.matrix s i s')
    (hm1 : ∀ s i, ∑ s', M.matrix s i s' ≤ 1) (ht : ∀ t ∈ S.times, 1 ≤ t) :
    (∀ x ∈ possMDP M S, 0 < weightMDP (newMDP M S) x.1) ∧
    ((possMDP M S).map (fun x => Real.log (weightMDP M x.1) * x.2)).sum ≤
    ((possMDP M S).map (fun x => Real.log (weightMDP (newMDP M S) x.1) * x.2)).sum := by
  have hnn := numMDP_nonneg M S hi0 hm0
  have hd : ∀ s i, 0 ≤ denMDP M S s i := fun s i => by
    rw [← sum_numMDP]; exact Finset.sum_nonneg (fun ss _ => hnn s i ss)
  have hm0' : ∀ s i s', 0 ≤ (newMDP M S).matrix s i s' := by
    intro s i s'
    simp only [newMDP]
    split_ifs
    · exact hm0 _ _ _
    · exact div_nonneg (hnn _ _ _) (hd _ _)
  have hden : ∀ s i ss, 0 < numMDP M S s i ss → 0 < denMDP M S s i := fun s i ss h => lt_of_lt_of_le h (by
    rw [← sum_numMDP]; exact Finset.single_le_sum (fun ss _ => hnn s i ss) (Finset.mem_univ ss))
  have e : newMDP M S = M.withProb (newMDP M S).matrix := rfl
  obtain ⟨k1, k2⟩ := mdp_gain_le M hn S hi0 hm0 (newMDP M S).matrix hm0' ht (fun s i ss _ h => by
    have := hden s i ss h
    simp only [newMDP, if_neg this.ne']
    exact div_pos h this)
  rw [← e] at k1 k2
  refine ⟨k1, le_trans ?_ k2⟩
  have hgain : 0 ≤ ∑ s, ∑ i, ∑ ss, numMDP M S s i ss * Real.log ((newMDP M S).matrix s i ss / M.matrix s i ss) := by
    refine Finset.sum_nonneg (fun s _ => Finset.sum_nonneg (fun i _ => ?_))
    by_cases h0 : denMDP M S s i = 0
    · refine le_of_eq (Finset.sum_eq_zero (fun ss _ => ?_)).symm
      have := (Finset.sum_eq_zero_iff_of_nonneg (fun ss _ => hnn s i ss)).mp ((sum_numMDP M S s i).trans h0) ss (Finset.mem_univ ss)
      rw [this, zero_mul]
    · have hg := gibbs Finset.univ (numMDP M S s i) (M.matrix s i) (fun ss _ => hnn s i ss) (fun ss _ => hm0 s i ss) (hm1 s i)
        (fun ss _ hpos => by
          rcases (hm0 s i ss).eq_or_lt with h | h
          · rw [numMDP_zero M hn S s i ss h.symm] at hpos; exact absurd hpos (lt_irrefl _)
          · exact h)
        (by rw [sum_numMDP]; exact lt_of_le_of_ne (hd s i) (Ne.symm h0))
      rw [sum_numMDP] at hg
      simpa only [newMDP, if_neg h0] using hg
  linarith

end
end Jajapy
