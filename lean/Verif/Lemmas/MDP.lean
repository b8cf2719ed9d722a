import Verif.Lemmas.Learn
import Verif.Spec.MDP
import Verif.Props.Likelihood

set_option linter.unusedSectionVars false

namespace Jajapy

open Finset Spec BW

/-! ### traces -/

section traces
variable {L : Type}

/-- The trace with given steps and last observation. -/
def alternate : List (L × L) → L → List L
  | [], last => [last]
  | p :: ps, last => p.1 :: p.2 :: alternate ps last

theorem pairs_alternate (ps : List (L × L)) (last : L) : pairs (alternate ps last) = ps := by
  induction ps with
  | nil => rfl
  | cons p ps ih => simp [alternate, pairs, ih]

theorem alternate_ne_nil (ps : List (L × L)) (last : L) : alternate ps last ≠ [] := by
  cases ps <;> simp [alternate]

theorem getLast?_alternate (ps : List (L × L)) (last : L) : (alternate ps last).getLast? = some last := by
  induction ps with
  | nil => rfl
  | cons p ps ih =>
    simp only [alternate]
    rw [List.getLast?_cons_cons, List.getLast?_cons_of_ne_nil (alternate_ne_nil _ _), ih]

theorem alternate_length (ps : List (L × L)) (last : L) : (alternate ps last).length = 2 * ps.length + 1 := by
  induction ps with
  | nil => rfl
  | cons p ps ih => simp only [alternate, List.length_cons, ih]; omega

theorem exists_alternate (w : List L) (h : w.length % 2 = 1) : ∃ ps last, w = alternate ps last := by
  induction w using pairs.induct with
  | case1 o a rest ih =>
    obtain ⟨ps, last, hr⟩ := ih (by simp only [List.length_cons] at h; omega)
    exact ⟨(o, a) :: ps, last, by simp [alternate, ← hr]⟩
  | case2 w hw =>
    match w, hw, h with
    | [], _, h => simp at h
    | [o], _, _ => exact ⟨[], o, rfl⟩
    | o :: a :: rest, hw, _ => exact absurd rfl (hw o a rest)

theorem pairs_length (w : List L) : (pairs w).length = w.length / 2 := by
  induction w using pairs.induct with
  | case1 o a rest ih => simp only [pairs, List.length_cons, ih]; omega
  | case2 w hw =>
    match w, hw with
    | [], _ => simp [pairs]
    | [o], _ => simp [pairs]
    | o :: a :: rest, hw => exact absurd rfl (hw o a rest)

theorem pairs_take (w : List L) (k : ℕ) : (pairs w).take k = pairs (w.take (2 * k)) := by
  induction w using pairs.induct generalizing k with
  | case1 o a rest ih =>
    cases k with
    | zero => simp [pairs]
    | succ k =>
      have : 2 * (k + 1) = 2 * k + 1 + 1 := by ring
      rw [this]
      simp [pairs, ih]
  | case2 w hw =>
    match w, hw with
    | [], _ => simp [pairs]
    | [o], _ =>
      cases k with
      | zero => simp [pairs]
      | succ k =>
        have : 2 * (k + 1) = 2 * k + 1 + 1 := by ring
        rw [this]; simp [pairs]
    | o :: a :: rest, hw => exact absurd rfl (hw o a rest)

theorem interleave_length {t : ℕ} (obs : Fin (t+1) → L) (act : Fin t → L) : (interleave obs act).length = 2 * t + 1 := by
  induction t with
  | zero => rfl
  | succ t ih => simp only [interleave, List.length_cons, ih]; omega

theorem interleave_get {t : ℕ} (obs : Fin (t+1) → L) (act : Fin t → L) :
    (∀ (k : ℕ) (hk : k < t + 1), (interleave obs act)[2 * k]? = some (obs ⟨k, hk⟩)) ∧
    ∀ (k : ℕ) (hk : k < t), (interleave obs act)[2 * k + 1]? = some (act ⟨k, hk⟩) := by
  induction t with
  | zero =>
    refine ⟨fun k hk => ?_, fun k hk => by omega⟩
    have : k = 0 := by omega
    subst this; rfl
  | succ t ih =>
    obtain ⟨h1, h2⟩ := ih (fun k => obs k.succ) (fun k => act k.succ)
    refine ⟨fun k hk => ?_, fun k hk => ?_⟩
    · cases k with
      | zero => rfl
      | succ k =>
        have e : 2 * (k + 1) = 2 * k + 1 + 1 := by ring
        simp only [interleave, e, List.getElem?_cons_succ]
        exact h1 k (by omega)
    · cases k with
      | zero => rfl
      | succ k =>
        have e : 2 * (k + 1) + 1 = 2 * k + 1 + 1 + 1 := by ring
        simp only [interleave, e, List.getElem?_cons_succ]
        exact h2 k (by omega)

end traces

/-! ### path sums -/

section paths
variable {K L : Type} [CommSemiring K] [DecidableEq L] {n : ℕ}

theorem mdpProb_zero (init : Fin n → K) (a : Fin n → L → Fin n → K) (lab : Fin n → L) (obs : Fin 1 → L) (act : Fin 0 → L) :
    mdpProb init a lab obs act = ∑ s, init s * if lab s = obs 0 then 1 else 0 := by
  unfold mdpProb
  rw [sum_fin_succ_fun]
  simp

theorem mdpProb_succ (init : Fin n → K) (a : Fin n → L → Fin n → K) (lab : Fin n → L) {t : ℕ} (obs : Fin (t+2) → L)
    (act : Fin (t+1) → L) :
    mdpProb init a lab obs act
      = mdpProb (fun s => ∑ ss, init ss * ((if lab ss = obs 0 then 1 else 0) * a ss (act 0) s)) a lab
        (fun k => obs k.succ) (fun k => act k.succ) := by
  unfold mdpProb
  rw [sum_fin_succ_fun]
  apply Finset.sum_congr rfl
  intro p _
  rw [Finset.sum_mul, Finset.sum_mul]
  apply Finset.sum_congr rfl
  intro x _
  rw [Fin.prod_univ_succ, Fin.prod_univ_succ (n := t+1)]
  simp only [Fin.cons_zero, Fin.castSucc_zero, Fin.cons_succ, ← Fin.succ_castSucc]
  ring

/-- Summed over all the observations, for given actions: the total probability is the initial one. -/
theorem sum_mdpProb (a : Fin n → L → Fin n → K) (lab : Fin n → L) (A : Finset L) (hA : ∀ s, lab s ∈ A) (t : ℕ) (act : Fin t → L)
    (ha : ∀ s k, ∑ s', a s (act k) s' = 1) (init : Fin n → K) :
    ∑ obs ∈ Fintype.piFinset (fun _ : Fin (t+1) => A), mdpProb init a lab obs act = ∑ s, init s := by
  unfold mdpProb
  rw [Finset.sum_comm]
  have e : ∀ p : Fin (t+1) → Fin n, ∑ obs ∈ Fintype.piFinset (fun _ : Fin (t+1) => A),
      init (p 0) * (∏ k : Fin t, a (p k.castSucc) (act k) (p k.succ)) * (∏ k : Fin (t+1), if lab (p k) = obs k then 1 else 0)
      = init (p 0) * ∏ k : Fin t, a (p k.castSucc) (act k) (p k.succ) := by
    intro p
    rw [← Finset.mul_sum, ← Finset.prod_univ_sum (fun _ => A) (fun k o => if lab (p k) = o then (1:K) else 0)]
    have : ∀ k, ∑ o ∈ A, (if lab (p k) = o then (1:K) else 0) = 1 := fun k => by rw [Finset.sum_ite_eq, if_pos (hA _)]
    simp [this]
  rw [Finset.sum_congr rfl (fun p _ => e p)]
  clear e
  induction t generalizing init with
  | zero => rw [sum_fin_succ_fun]; simp
  | succ t ih =>
    rw [sum_fin_succ_fun]
    have : ∀ p : Fin (t+1) → Fin n, ∑ x, (init ((Fin.cons x p : Fin (t+2) → Fin n) 0) *
        ∏ k : Fin (t+1), a ((Fin.cons x p : Fin (t+2) → Fin n) k.castSucc) (act k) ((Fin.cons x p : Fin (t+2) → Fin n) k.succ))
        = (∑ x, init x * a x (act 0) (p 0)) * ∏ k : Fin t, a (p k.castSucc) (act k.succ) (p k.succ) := by
      intro p
      rw [Finset.sum_mul]
      apply Finset.sum_congr rfl
      intro x _
      rw [Fin.prod_univ_succ]
      simp only [Fin.cons_zero, Fin.castSucc_zero, Fin.cons_succ, ← Fin.succ_castSucc]
      ring
    rw [Finset.sum_congr rfl (fun p _ => this p), ih (fun k => act k.succ) (fun s k => ha s k.succ) (fun s => ∑ x, init x * a x (act 0) s)]
    rw [Finset.sum_comm]
    simp [← Finset.mul_sum, ha]

end paths

namespace MDP
variable {K L : Type} {n : ℕ} [Field K] [DecidableEq L]

/-- The sum over paths for the steps of a trace. -/
def stepWeight (M : MDP K L n) (ps : List (L × L)) (last : L) : K :=
  totalWeight M.initialState M.step (M.mask last) ps

theorem mdpProb_alternate (prob : Fin n → L → Fin n → K) (lab : Fin n → L) (init : Fin n → K) (ps : List (L × L)) (last : L)
    (w : List L) (hw : w = alternate ps last) (t : ℕ) (ht : w.length = 2 * t + 1) :
    mdpProb init prob lab (t := t) (fun k => w[2 * k.1]'(by omega)) (fun k => w[2 * k.1 + 1]'(by omega))
      = totalWeight init (fun s s' p => (if lab s = p.1 then 1 else 0) * prob s p.2 s') (fun s => if lab s = last then 1 else 0) ps := by
  subst hw
  induction ps generalizing init t with
  | nil =>
    have : t = 0 := by rw [alternate_length] at ht; simp at ht; omega
    subst this
    rw [mdpProb_zero, totalWeight_eq]
    simp [alternate]
  | cons p ps ih =>
    cases t with
    | zero => rw [alternate_length] at ht; simp at ht
    | succ t =>
      rw [totalWeight_cons, mdpProb_succ]
      rw [← ih _ t (by rw [alternate_length] at ht ⊢; simp at ht; omega)]
      rfl

theorem lik_alternate (M : MDP K L n) (ps : List (L × L)) (last : L) : M.lik (alternate ps last) = M.stepWeight ps last := by
  unfold lik
  have h := alternate_length ps last
  rw [dif_pos (by omega)]
  exact mdpProb_alternate M.prob M.labelling M.initialState ps last _ rfl _ (by omega)

theorem lik_interleave (M : MDP K L n) {t : ℕ} (obs : Fin (t+1) → L) (act : Fin t → L) :
    M.lik (interleave obs act) = mdpProb M.initialState M.prob M.labelling obs act := by
  have hl := interleave_length obs act
  obtain ⟨ps, last, h⟩ := exists_alternate (interleave obs act) (by omega)
  rw [h, lik_alternate]
  have := mdpProb_alternate M.prob M.labelling M.initialState ps last _ h t hl
  rw [show M.stepWeight ps last = _ from this.symm]
  congr 1
  · funext k
    have := (interleave_get obs act).1 k.1 k.2
    rw [List.getElem?_eq_getElem (by omega)] at this
    exact Option.some.inj this
  · funext k
    have := (interleave_get obs act).2 k.1 k.2
    rw [List.getElem?_eq_getElem (by omega)] at this
    exact Option.some.inj this

theorem actionIndex_some (M : MDP K L n) (hn : M.actions.Nodup) (x : L) (i : Fin M.actions.length) :
    M.actionIndex x = some i ↔ M.actions[i] = x := by
  unfold actionIndex
  constructor
  · intro h
    split_ifs at h with hx
    injection h with h
    subst h
    simp
  · intro h
    subst h
    rw [dif_pos (by simp)]
    congr 1
    apply Fin.ext
    exact hn.idxOf_getElem i.1 i.2

theorem actionIndex_none (M : MDP K L n) (x : L) : M.actionIndex x = none ↔ x ∉ M.actions := by
  unfold actionIndex
  split_ifs with h <;> simp [h]

theorem prob_getElem (M : MDP K L n) (hn : M.actions.Nodup) (s : Fin n) (i : Fin M.actions.length) (s' : Fin n) :
    M.prob s M.actions[i] s' = M.matrix s i s' := by
  unfold prob
  rw [Finset.sum_eq_single i]
  · simp
  · intro j _ hj
    rw [if_neg]
    intro h
    exact hj (Fin.ext ((List.Nodup.getElem_inj_iff hn).mp h))
  · simp

theorem prob_not_mem (M : MDP K L n) (s : Fin n) (x : L) (s' : Fin n) (h : x ∉ M.actions) : M.prob s x s' = 0 := by
  unfold prob
  apply Finset.sum_eq_zero
  intro i _
  rw [if_neg]
  intro hi
  exact h (hi ▸ List.getElem_mem _)

theorem tauP_eq_step (M : MDP K L n) (hn : M.actions.Nodup) : M.tauP = M.step := by
  funext s s' p
  obtain ⟨o, x⟩ := p
  unfold tauP tau step
  by_cases h : M.labelling s = o
  · rw [if_neg (by simp [h]), if_pos h, one_mul]
    cases hi : M.actionIndex x with
    | none => rw [M.prob_not_mem _ _ _ ((M.actionIndex_none x).mp hi)]
    | some i =>
      have := (M.actionIndex_some hn x i).mp hi
      rw [← this]
      exact (M.prob_getElem hn s i s').symm
  · rw [if_pos (fun h' => h h'.symm), if_neg h, zero_mul]

theorem fwdStep_eq (M : MDP K L n) : M.fwdStep = fwd M.tauP := rfl

theorem seqProb_alternate (M : MDP K L n) (hn : M.actions.Nodup) (ps : List (L × L)) (last : L) :
    M.seqProb (alternate ps last) = .ok (M.stepWeight ps last) := by
  unfold seqProb
  rw [getLast?_alternate, pairs_alternate]
  simp only
  rw [M.fwdStep_eq, ← sum_beta0_foldl, M.tauP_eq_step hn, stepWeight, totalWeight_eq]

theorem seqProb_eq (M : MDP K L n) (hn : M.actions.Nodup) (w : List L) (hw : w.length % 2 = 1) : M.seqProb w = .ok (M.lik w) := by
  obtain ⟨ps, last, rfl⟩ := exists_alternate w hw
  rw [M.seqProb_alternate hn, lik_alternate]

/-! ### sets -/

theorem multiproc_eq (M : MDP ℝ L n) (P : List L → ℝ) (hP : ∀ w, 0 ≤ P w) (cpus : ℕ) (hc : 2 ≤ cpus) (S : TSet L)
    (hs : S.times.sum ≠ 0) (h : ∀ w ∈ S.sequences, M.seqProb w = .ok (P w)) :
    M.logLikelihoodMultiproc cpus S = .ok (avgLogLik P S) := by
  classical
  unfold logLikelihoodMultiproc
  rw [if_neg (by omega)]
  rw [List.mapM_ok _ (fun p : List L × ℕ => if P p.1 = 0 then 0 else Real.log (P p.1) * p.2)]
  swap
  · intro p hp
    simp only [computeAlphas, h p.1 (List.of_mem_zip hp).1]
    simp only [bind, Except.bind, pure, Except.pure]
    rw [if_neg (not_lt.mpr (hP p.1))]
    split_ifs <;> rfl
  simp only [bind, Except.bind, pure, Except.pure]
  rw [if_neg hs]
  unfold avgLogLik
  congr 2
  induction S.sequences.zip S.times with
  | nil => simp
  | cons q l ih =>
    rw [List.map_cons, List.filter_cons, List.filter_cons]
    by_cases h0 : P q.1 = 0
    · simp only [h0, if_true, ne_eq, not_true_eq_false, decide_false, lt_irrefl]
      simpa using ih
    · have hpos : 0 < P q.1 := lt_of_le_of_ne (hP _) (Ne.symm h0)
      simp only [if_neg h0, hpos, decide_true, if_true, List.map_cons, List.sum_cons]
      rw [← ih]
      by_cases h1 : Real.log (P q.1) * q.2 = 0
      · rw [mul_comm ((q.2:ℕ):ℝ), h1]
        simp
      · simp only [ne_eq, h1, not_false_eq_true, decide_true, if_true, List.sum_cons]
        ring

/-- The common prefix of two traces, halved, counts common steps. -/
theorem common_spec (p q : List L) :
    Iface.commonPrefix p q / 2 ≤ (pairs p).length ∧ Iface.commonPrefix p q / 2 ≤ (pairs q).length ∧
    (pairs p).take (Iface.commonPrefix p q / 2) = (pairs q).take (Iface.commonPrefix p q / 2) := by
  obtain ⟨h1, h2, h3⟩ := Iface.commonPrefix_spec p q
  refine ⟨by rw [pairs_length]; omega, by rw [pairs_length]; omega, ?_⟩
  rw [pairs_take, pairs_take]
  congr 1
  have e : ∀ l : List L, l.take (2 * (Iface.commonPrefix p q / 2)) = (l.take (Iface.commonPrefix p q)).take (2 * (Iface.commonPrefix p q / 2)) := by
    intro l
    rw [List.take_take, min_eq_left (by omega)]
  rw [e p, e q, h3]

theorem update_next (M : MDP K L n) (p seq : List L) :
    M.iface.updateAlphaMatrix (pairs seq) (Iface.commonPrefix p seq / 2) (M.iface.rows (pairs p)) = M.iface.rows (pairs seq) := by
  obtain ⟨h1, h2, h3⟩ := common_spec p seq
  apply Iface.updateAlphaMatrix_eq M.iface _ _ h2 _ (by rw [Iface.rows_length]; omega)
  intro i hi
  have e : (M.iface.rows (pairs p)).take (Iface.commonPrefix p seq / 2 + 1)
      = (M.iface.rows (pairs seq)).take (Iface.commonPrefix p seq / 2 + 1) := by
    rw [Iface.rows_take, Iface.rows_take, h3]
  have := congrArg (fun l => l[i]?) e
  simpa [List.getElem?_take_of_lt (show i < Iface.commonPrefix p seq / 2 + 1 by omega)] using this

theorem update_first (M : MDP K L n) (k : ℕ) (seq : List L) :
    M.iface.updateAlphaMatrix (pairs seq) 0 (M.iface.initAlphaMatrix k) = M.iface.rows (pairs seq) := by
  apply Iface.updateAlphaMatrix_eq M.iface _ 0 (by omega) _ (by simp [Iface.initAlphaMatrix])
  intro i hi
  have : i = 0 := by omega
  subst this
  cases pairs seq <;> simp [Iface.initAlphaMatrix, Iface.rows]

/-- What a trace contributes. -/
noncomputable def contrib (M : MDP ℝ L n) (S : TSet L) (w : List L) : ℝ :=
  if 0 < M.lik w then Real.log (M.lik w) * (S.times[S.sequences.idxOf w]?.getD 0 : ℕ) else 0

theorem last_row (M : MDP ℝ L n) (hn : M.actions.Nodup) (w : List L) (hw : w.length % 2 = 1) :
    ∃ last, w.getLast? = some last ∧
      ∑ i, ((M.iface.rows (pairs w)).getLast?.getD (fun _ => 0)) i * M.mask last i = M.lik w := by
  have h := M.seqProb_eq hn w hw
  unfold seqProb at h
  split at h
  · cases h
  · rename_i last hl
    injection h with h
    refine ⟨last, hl, ?_⟩
    rw [← h, Iface.rows_last]
    rfl

theorem oneprocLoop_eq (M : MDP ℝ L n) (hn : M.actions.Nodup) (S : TSet L) (hlen : S.times.length = S.sequences.length)
    (l : List (List L)) (hl : ∀ w ∈ l, w ∈ S.sequences ∧ w.length % 2 = 1) (p : List L) (ll : ℝ) :
    M.oneprocLoop S l (some p) (M.iface.rows (pairs p)) ll = .ok (ll + (l.map (M.contrib S)).sum) := by
  induction l generalizing p ll with
  | nil => simp [oneprocLoop]
  | cons w l ih =>
    obtain ⟨hm, ho⟩ := hl w (by simp)
    have hi : S.sequences.idxOf w < S.times.length := by rw [hlen]; exact List.idxOf_lt_length_iff.mpr hm
    obtain ⟨last, h1, h2⟩ := M.last_row hn w ho
    unfold oneprocLoop
    rw [List.getElem?_eq_getElem hi]
    simp only [h1]
    rw [M.update_next, h2, ih (fun v hv => hl v (by simp [hv]))]
    simp only [List.map_cons, List.sum_cons, contrib, List.getElem?_eq_getElem hi, Option.getD_some]
    split_ifs <;> simp [add_assoc]

theorem oneproc_eq [LinearOrder L] (M : MDP ℝ L n) (hn : M.actions.Nodup) (S : TSet L) (hne : S.sequences ≠ [])
    (hnd : S.sequences.Nodup) (hs : S.times.sum ≠ 0)
    (hlen : S.times.length = S.sequences.length) (ho : ∀ w ∈ S.sequences, w.length % 2 = 1) :
    M.logLikelihoodOneproc S = .ok (avgLogLik M.lik S) := by
  unfold logLikelihoodOneproc
  have hp : (S.sequences.mergeSort (fun a b => decide (a ≤ b))).Perm S.sequences := List.mergeSort_perm _ _
  generalize S.sequences.mergeSort (fun a b => decide (a ≤ b)) = l at hp ⊢
  cases l with
  | nil => exact absurd hp.symm.eq_nil hne
  | cons s0 rest =>
    have hl : ∀ w ∈ s0 :: rest, w ∈ S.sequences ∧ w.length % 2 = 1 :=
      fun w hw => ⟨hp.mem_iff.mp hw, ho w (hp.mem_iff.mp hw)⟩
    have key : M.oneprocLoop S (s0 :: rest) none (M.iface.initAlphaMatrix (s0.length / 2)) 0
        = .ok ((s0 :: rest).map (M.contrib S)).sum := by
      obtain ⟨hm, ho'⟩ := hl s0 (by simp)
      have hi : S.sequences.idxOf s0 < S.times.length := by rw [hlen]; exact List.idxOf_lt_length_iff.mpr hm
      obtain ⟨last, h1, h2⟩ := M.last_row hn s0 ho'
      unfold oneprocLoop
      rw [List.getElem?_eq_getElem hi]
      simp only [h1, Nat.zero_div]
      rw [M.update_first, h2, M.oneprocLoop_eq hn S hlen rest (fun w hw => hl w (by simp [hw]))]
      simp only [List.map_cons, List.sum_cons, contrib, List.getElem?_eq_getElem hi, Option.getD_some]
      split_ifs <;> simp
    simp only [key, bind, Except.bind, pure, Except.pure]
    rw [if_neg hs]
    unfold avgLogLik
    congr 2
    rw [(hp.map _).sum_eq]
    have e : S.sequences.map (M.contrib S)
        = (S.sequences.zip S.times).map (fun q => if 0 < M.lik q.1 then Real.log (M.lik q.1) * (q.2 : ℕ) else 0) := by
      apply List.ext_getElem
      · simp [hlen]
      · intro i h1 h2
        simp only [List.getElem_map, List.getElem_zip, contrib]
        simp only [List.length_map] at h1
        rw [hnd.idxOf_getElem i h1, List.getElem?_eq_getElem (by omega)]
        rfl
    rw [e]
    clear e key hl hp
    induction S.sequences.zip S.times with
    | nil => simp
    | cons q l ih =>
      rw [List.map_cons, List.sum_cons, ih, List.filter_cons]
      by_cases hq : 0 < M.lik q.1
      · simp [hq, mul_comm]
      · simp [hq]

/-! ### signs -/

theorem prob_nonneg [LinearOrder K] [IsStrictOrderedRing K] (M : MDP K L n) (h : ∀ s i s', 0 ≤ M.matrix s i s') (s : Fin n) (x : L)
    (s' : Fin n) : 0 ≤ M.prob s x s' := by
  apply Finset.sum_nonneg
  intro i _
  split_ifs
  · exact h _ _ _
  · exact le_rfl

theorem step_nonneg [LinearOrder K] [IsStrictOrderedRing K] (M : MDP K L n) (h : ∀ s i s', 0 ≤ M.matrix s i s') (s s' : Fin n)
    (p : L × L) : 0 ≤ M.step s s' p :=
  mul_nonneg (by split_ifs <;> simp) (M.prob_nonneg h _ _ _)

theorem mask_nonneg [LinearOrder K] [IsStrictOrderedRing K] (M : MDP K L n) (o : L) (s : Fin n) : 0 ≤ M.mask o s := by
  unfold mask; split_ifs <;> simp

theorem lik_nonneg [LinearOrder K] [IsStrictOrderedRing K] (M : MDP K L n) (hi : ∀ s, 0 ≤ M.initialState s)
    (h : ∀ s i s', 0 ≤ M.matrix s i s') (w : List L) : 0 ≤ M.lik w := by
  unfold lik
  split_ifs
  · unfold mdpProb
    refine Finset.sum_nonneg (fun p _ => mul_nonneg (mul_nonneg (hi _) (Finset.prod_nonneg (fun k _ => M.prob_nonneg h _ _ _)))
      (Finset.prod_nonneg (fun k _ => ?_)))
    split_ifs <;> simp
  · exact le_rfl

theorem sum_prob (M : MDP K L n) (hn : M.actions.Nodup) (s : Fin n) (i : Fin M.actions.length) :
    ∑ s', M.prob s M.actions[i] s' = ∑ s', M.matrix s i s' :=
  Finset.sum_congr rfl (fun s' _ => M.prob_getElem hn s i s')

end MDP
end Jajapy
