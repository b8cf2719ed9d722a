import Verif.Props.Prefix
import Verif.Props.Short

/-!
Property C112, second part: the likelihood of a trace is shared by its continuations.
-/

set_option linter.unusedSectionVars false
set_option autoImplicit false

namespace Jajapy

open Spec BW MeasureTheory

/-! ### The abstract class -/

theorem Iface.extend {K O : Type} [Field K] {n : ℕ} (M : Iface K O n) (a : Fin n → Fin n → K) (ht : ∀ s t o, M.tau s t o = a s t * M.b s o)
    (ha : ∀ s, ∑ t, a s t = 1) (os : List O) (last : O) :
    ∑ s, (os ++ [last]).foldl (fwd M.tau) M.init s = ∑ s, os.foldl (fwd M.tau) M.init s * M.b s last := by
  rw [List.foldl_append]
  show ∑ s, fwd M.tau (os.foldl (fwd M.tau) M.init) last s = _
  unfold fwd
  rw [Finset.sum_comm]
  refine Finset.sum_congr rfl (fun s _ => ?_)
  rw [← Finset.mul_sum]
  congr 1
  rw [Finset.sum_congr rfl (fun t _ => ht s t last), ← Finset.sum_mul, ha, one_mul]

theorem foldl_fwd_nonneg {O : Type} {n : ℕ} (tau : Fin n → Fin n → O → ℝ) (h : ∀ s t o, 0 ≤ tau s t o) (os : List O) (v : Fin n → ℝ) (hv : ∀ s, 0 ≤ v s)
    (s : Fin n) : 0 ≤ os.foldl (fwd tau) v s := by
  induction os generalizing v with
  | nil => exact hv s
  | cons o os ih => exact ih (fwd tau v o) (fun s => fwd_nonneg tau v h hv o s)

/-- Cutting the traces of a set. -/
theorem avgLogLik_cut {O : Type} (P : List O → ℝ) (S : TSet O) (k : ℕ) (h : ∀ w ∈ S.sequences, 0 < P w ∧ P w ≤ P (w.take k)) :
    avgLogLik P S ≤ avgLogLik P (cut k S) := by
  unfold avgLogLik cut
  refine div_le_div_of_nonneg_right ?_ (Nat.cast_nonneg _)
  rw [List.zip_map_left, List.filter_map, List.map_map]
  have e : ∀ l : List (List O × ℕ), (∀ p ∈ l, 0 < P p.1 ∧ P p.1 ≤ P (p.1.take k)) →
      ((l.filter (fun p => 0 < P p.1)).map (fun p => (p.2 : ℝ) * Real.log (P p.1))).sum
        ≤ ((l.filter ((fun p : List O × ℕ => decide (0 < P p.1)) ∘ Prod.map (List.take k) id)).map
          ((fun p : List O × ℕ => (p.2 : ℝ) * Real.log (P p.1)) ∘ Prod.map (List.take k) id)).sum := by
    intro l hl
    induction l with
    | nil => simp
    | cons p l ih =>
      obtain ⟨h1, h2⟩ := hl p (by simp)
      rw [List.filter_cons_of_pos (by simpa using h1), List.filter_cons_of_pos (by simpa using h1.trans_le h2)]
      simp only [List.map_cons, List.sum_cons]
      refine add_le_add ?_ (ih (fun q hq => hl q (by simp [hq])))
      exact mul_le_mul_of_nonneg_left (Real.log_le_log h1 h2) (Nat.cast_nonneg _)
  exact e _ (fun p hp => h p.1 (List.of_mem_zip hp).1)

/-- From one symbol to any number. -/
theorem prefix_le {O : Type} (P : List O → ℝ) (h : ∀ w o, w ≠ [] → P (w ++ [o]) ≤ P w) (w u : List O) (hw : w ≠ []) : P (w ++ u) ≤ P w := by
  induction u using List.reverseRecOn with
  | nil => simp
  | append_singleton u o ih =>
    rw [← List.append_assoc]
    exact (h (w ++ u) o (by simp [hw])).trans ih

theorem take_le {O : Type} (P : List O → ℝ) (h : ∀ w u, w ≠ [] → P (w ++ u) ≤ P w) (w : List O) (hw : w ≠ []) (k : ℕ) (hk : 0 < k) : P w ≤ P (w.take k) := by
  conv_lhs => rw [← List.take_append_drop k w]
  exact h _ _ (by simp [hw]; omega)

/-! ### Markov chains -/

namespace MC
variable {L : Type} [DecidableEq L] {n : ℕ} {M : MC ℝ L n}

theorem lik_snoc (M : MC ℝ L n) (os : List L) (last : L) : M.lik (os ++ [last]) = ∑ s, os.foldl (fwd M.tau) M.initialState s * M.b s last := by
  have h1 := M.seqProb_lik (os ++ [last]) (by simp)
  rw [Iface.seqProb_snoc] at h1
  exact (Except.ok.inj h1).symm

/-- C112, Markov chains: the probability of a trace is the sum of those of the traces with one more symbol. -/
theorem lik_extend (hM : M.Stochastic) (A : Finset L) (hA : ∀ s, M.labelling s ∈ A) (w : List L) (hw : w ≠ []) :
    ∑ o ∈ A, M.lik (w ++ [o]) = M.lik w := by
  obtain ⟨os, last, rfl⟩ : ∃ os last, w = os ++ [last] := ⟨w.dropLast, w.getLast hw, (List.dropLast_append_getLast hw).symm⟩
  simp only [lik_snoc]
  rw [Finset.sum_comm]
  refine Eq.trans ?_ (M.iface.extend M.matrix M.tau_factor hM.2.2.2 os last)
  refine Finset.sum_congr rfl (fun s _ => ?_)
  rw [← Finset.mul_sum]
  have : ∑ o ∈ A, M.b s o = 1 := by
    unfold MC.b
    rw [Finset.sum_ite_eq, if_pos (hA s)]
  rw [this, mul_one]
  rfl

theorem lik_nonneg' (hM : M.Stochastic) (w : List L) : 0 ≤ M.lik w := M.lik_nonneg hM w

/-- C112, Markov chains: a longer trace is not more probable, and a possible trace can be continued. -/
theorem lik_prefix (hM : M.Stochastic) (w : List L) (hw : w ≠ []) : (∀ u, M.lik (w ++ u) ≤ M.lik w) ∧ (0 < M.lik w → ∃ o, 0 < M.lik (w ++ [o])) := by
  refine ⟨fun u => prefix_le M.lik (fun w o hw => ?_) w u hw, fun h => ?_⟩
  · rw [← lik_extend hM (insert o (Finset.univ.image M.labelling)) (fun s => by simp) w hw]
    exact Finset.single_le_sum (f := fun o => M.lik (w ++ [o])) (fun o _ => M.lik_nonneg hM _) (by simp)
  · by_contra hc
    push Not at hc
    rw [← lik_extend hM (Finset.univ.image M.labelling) (fun s => by simp) w hw] at h
    exact absurd h (not_lt.2 (Finset.sum_nonpos (fun o _ => hc o)))

/-- C112, Markov chains: keeping only the first symbols of the traces does not lower the log-likelihood of a set of possible traces. -/
theorem logLikelihood_cut (hM : M.Stochastic) (cpus : ℕ) (h2 : 2 ≤ cpus) (S : TSet L) (hne : ∀ w ∈ S.sequences, w ≠ [] ∧ 0 < M.lik w) (k : ℕ) (hk : 0 < k) :
    ∃ x y, M.iface.logLikelihoodMultiproc cpus S = .ok x ∧ M.iface.logLikelihoodMultiproc cpus (cut k S) = .ok y ∧ x ≤ y := by
  refine ⟨_, _, M.logLikelihood_spec cpus h2 S (fun w hw => (hne w hw).1), M.logLikelihood_spec cpus h2 (cut k S) (fun w hw => ?_), ?_⟩
  · obtain ⟨w', hw', rfl⟩ := List.mem_map.1 hw
    have := (hne w' hw').1
    simp [this]
    omega
  · exact avgLogLik_cut M.lik S k (fun w hw => ⟨(hne w hw).2, take_le M.lik (fun w u hw => (lik_prefix hM w hw).1 u) w (hne w hw).1 k hk⟩)

end MC

/-! ### Hidden Markov models -/

namespace HMM
variable {L : Type} [DecidableEq L] {n : ℕ} {M : HMM ℝ L n}

theorem lik_snoc (M : HMM ℝ L n) (hn : M.alphabet.Nodup) (os : List L) (last : L) :
    M.lik (os ++ [last]) = ∑ s, os.foldl (fwd M.tau) M.initialState s * M.b s last := by
  have h1 := M.seqProb_lik hn (os ++ [last]) (by simp)
  rw [Iface.seqProb_snoc] at h1
  exact (Except.ok.inj h1).symm

theorem sum_b (hM : M.Stochastic) (hn : M.alphabet.Nodup) (A : Finset L) (hA : ∀ o ∈ M.alphabet, o ∈ A) (s : Fin n) : ∑ o ∈ A, M.b s o = 1 := by
  have : ∀ o, M.b s o = M.emit s o := fun o => M.b_eq_emit hn s o
  simp only [this, emit]
  rw [Finset.sum_comm, ← hM.2.2.2.2.2 s]
  refine Finset.sum_congr rfl (fun i _ => ?_)
  rw [Finset.sum_ite_eq]
  exact if_pos (hA _ (List.getElem_mem _))

/-- C112, hidden Markov models. -/
theorem lik_extend (hM : M.Stochastic) (hn : M.alphabet.Nodup) (A : Finset L) (hA : ∀ o ∈ M.alphabet, o ∈ A) (w : List L) (hw : w ≠ []) :
    ∑ o ∈ A, M.lik (w ++ [o]) = M.lik w := by
  obtain ⟨os, last, rfl⟩ : ∃ os last, w = os ++ [last] := ⟨w.dropLast, w.getLast hw, (List.dropLast_append_getLast hw).symm⟩
  simp only [M.lik_snoc hn]
  rw [Finset.sum_comm]
  refine Eq.trans ?_ (M.iface.extend M.matrix M.tau_factor hM.2.2.2.1 os last)
  refine Finset.sum_congr rfl (fun s _ => ?_)
  rw [← Finset.mul_sum, sum_b hM hn A hA, mul_one]
  rfl

theorem lik_prefix (hM : M.Stochastic) (hn : M.alphabet.Nodup) (w : List L) (hw : w ≠ []) :
    (∀ u, M.lik (w ++ u) ≤ M.lik w) ∧ (0 < M.lik w → ∃ o, 0 < M.lik (w ++ [o])) := by
  refine ⟨fun u => prefix_le M.lik (fun w o hw => ?_) w u hw, fun h => ?_⟩
  · rw [← lik_extend hM hn (insert o M.alphabet.toFinset) (fun s hs => by simp [hs]) w hw]
    exact Finset.single_le_sum (f := fun o => M.lik (w ++ [o])) (fun o _ => M.lik_nonneg hM _) (by simp)
  · by_contra hc
    push Not at hc
    rw [← lik_extend hM hn M.alphabet.toFinset (fun s hs => by simp [hs]) w hw] at h
    exact absurd h (not_lt.2 (Finset.sum_nonpos (fun o _ => hc o)))

theorem logLikelihood_cut (hM : M.Stochastic) (hn : M.alphabet.Nodup) (cpus : ℕ) (h2 : 2 ≤ cpus) (S : TSet L)
    (hne : ∀ w ∈ S.sequences, w ≠ [] ∧ 0 < M.lik w) (k : ℕ) (hk : 0 < k) :
    ∃ x y, M.iface.logLikelihoodMultiproc cpus S = .ok x ∧ M.iface.logLikelihoodMultiproc cpus (cut k S) = .ok y ∧ x ≤ y := by
  have hb : M.b = M.emit := by
    funext s o
    exact M.b_eq_emit hn s o
  refine ⟨_, _, M.logLikelihood_spec cpus h2 S (fun w hw => (hne w hw).1), M.logLikelihood_spec cpus h2 (cut k S) (fun w hw => ?_), ?_⟩
  · obtain ⟨w', hw', rfl⟩ := List.mem_map.1 hw
    have := (hne w' hw').1
    simp [this]
    omega
  · rw [hb]
    exact avgLogLik_cut M.lik S k (fun w hw => ⟨(hne w hw).2, take_le M.lik (fun w u hw => (lik_prefix hM hn w hw).1 u) w (hne w hw).1 k hk⟩)

end HMM

/-! ### Gaussian observations -/

namespace GoHMM
variable {d n : ℕ} {M : GoHMM n d}

/-- C112, Gaussian observations: integrating the last vector out. -/
theorem lik_extend (hM : M.Valid) (hs : ∀ s i, 0 < M.sigma s i) (w : List (Fin d → ℝ)) (hw : w ≠ []) : ∫ o, M.lik (w ++ [o]) = M.lik w := by
  obtain ⟨os, last, rfl⟩ : ∃ os last, w = os ++ [last] := ⟨w.dropLast, w.getLast hw, (List.dropLast_append_getLast hw).symm⟩
  have e : ∀ os last, M.lik (os ++ [last]) = ∑ s, os.foldl (fwd M.iface.tau) M.iface.init s * M.emit s last := by
    intro os last
    have h1 := M.seqProb_eq_paths hM.2.2.2.2 (os ++ [last]) (by simp)
    rw [Iface.seqProb_snoc] at h1
    rw [← Except.ok.inj h1]
    refine Finset.sum_congr rfl (fun s _ => ?_)
    congr 1
    show M.b s last = M.emit s last
    unfold b emit
    exact Finset.prod_congr rfl (fun i _ => M.bn_eq s i _ (hs s i).le)
  have he : ∀ s o, M.iface.b s o = M.emit s o := by
    intro s o
    show M.b s o = M.emit s o
    unfold b emit
    exact Finset.prod_congr rfl (fun i _ => M.bn_eq s i _ (hs s i).le)
  simp only [e]
  have hint : ∀ s, Integrable (M.emit s) := by
    intro s
    by_contra hc
    have h1 := M.integral_emit s (hs s)
    rw [integral_undef hc] at h1
    exact zero_ne_one h1
  rw [integral_finsetSum _ (fun s _ => (hint s).const_mul _)]
  simp only [integral_const_mul, M.integral_emit _ (hs _), mul_one]
  rw [M.iface.extend M.matrix (fun s t o => by rw [he]; exact (M.tau_spec hM.2.2.2.1 s (hs s)).1 t o) hM.2.2.2.1 os last]
  exact Finset.sum_congr rfl (fun s _ => by rw [he])

end GoHMM

/-! ### Markov decision processes -/

namespace MDP
variable {L : Type} [DecidableEq L] {n : ℕ} {M : MDP ℝ L n}

theorem alternate_append (ps : List (L × L)) (last x o : L) : alternate ps last ++ [x, o] = alternate (ps ++ [(last, x)]) o := by
  induction ps with
  | nil => rfl
  | cons p ps ih => simp [alternate, ← ih]

theorem sum_prob_row (hM : M.Stochastic) (hn : M.actions.Nodup) (s : Fin n) (x : L) : ∑ t, M.prob s x t = 1 ∨ ∑ t, M.prob s x t = 0 := by
  unfold prob
  rw [Finset.sum_comm]
  by_cases hx : x ∈ M.actions
  · obtain ⟨i, hi, rfl⟩ := List.getElem_of_mem hx
    rw [Finset.sum_eq_single ⟨i, hi⟩]
    · have := hM.2.2.2 s ⟨i, hi⟩
      simpa using this
    · intro j _ hj
      refine Finset.sum_eq_zero (fun t _ => if_neg (fun h => hj ?_))
      exact Fin.ext ((List.Nodup.getElem_inj_iff hn).1 h)
    · simp
  · right
    refine Finset.sum_eq_zero (fun i _ => Finset.sum_eq_zero (fun t _ => if_neg (fun h => hx ?_)))
    rw [← h]
    exact List.getElem_mem _

theorem sum_extend (M : MDP ℝ L n) (A : Finset L) (hA : ∀ s, M.labelling s ∈ A) (ps : List (L × L)) (last x : L) :
    ∑ o ∈ A, M.lik (alternate ps last ++ [x, o]) = ∑ s, ps.foldl (fwd M.step) M.initialState s * M.mask last s * ∑ t, M.prob s x t := by
  simp only [alternate_append, lik_alternate, stepWeight, totalWeight_foldl, List.foldl_append, List.foldl_cons, List.foldl_nil]
  rw [Finset.sum_comm]
  have : ∀ t, ∑ o ∈ A, M.mask o t = 1 := by
    intro t
    unfold mask
    rw [Finset.sum_ite_eq, if_pos (hA t)]
  simp only [← Finset.mul_sum, this, mul_one]
  unfold fwd
  rw [Finset.sum_comm]
  refine Finset.sum_congr rfl (fun s _ => ?_)
  rw [← Finset.mul_sum, mul_assoc]
  congr 1
  unfold step mask
  rw [Finset.mul_sum]

/-- C112, MDPs: when the action is available in all the states, the probability of a trace is the sum of those of the traces where the action is done
once more. -/
theorem lik_extend (A : Finset L) (hA : ∀ s, M.labelling s ∈ A) (w : List L) (hw : w.length % 2 = 1) (x : L) (hx : ∀ s, ∑ t, M.prob s x t = 1) :
    ∑ o ∈ A, M.lik (w ++ [x, o]) = M.lik w := by
  obtain ⟨ps, last, rfl⟩ := exists_alternate w hw
  rw [M.sum_extend A hA, lik_alternate, stepWeight, totalWeight_foldl]
  exact Finset.sum_congr rfl (fun s _ => by rw [hx, mul_one])

theorem lik_extend_le (hM : M.Stochastic) (hn : M.actions.Nodup) (A : Finset L) (hA : ∀ s, M.labelling s ∈ A) (w : List L) (hw : w.length % 2 = 1) (x : L) :
    ∑ o ∈ A, M.lik (w ++ [x, o]) ≤ M.lik w := by
  obtain ⟨ps, last, rfl⟩ := exists_alternate w hw
  rw [M.sum_extend A hA, lik_alternate, stepWeight, totalWeight_foldl]
  refine Finset.sum_le_sum (fun s _ => mul_le_of_le_one_right (mul_nonneg ?_ (M.mask_nonneg last s)) ?_)
  · exact foldl_fwd_nonneg M.step (M.step_nonneg hM.2.2.1) ps M.initialState hM.1 s
  · rcases sum_prob_row hM hn s x with h | h <;> rw [h]
    exact zero_le_one

/-- C112, MDPs: more actions and observations do not make a trace more probable. -/
theorem lik_prefix (hM : M.Stochastic) (hn : M.actions.Nodup) (w : List L) (hw : w.length % 2 = 1) (u : List L) : M.lik (w ++ u) ≤ M.lik w := by
  induction hl : u.length using Nat.strong_induction_on generalizing w u with
  | _ l ih =>
    match u with
    | [] => simp
    | [x] =>
      have : M.lik (w ++ [x]) = 0 := by
        unfold lik
        rw [dif_neg (by simp; omega)]
      rw [this]
      exact M.lik_nonneg hM.1 hM.2.2.1 w
    | x :: o :: u =>
      have h1 := ih u.length (by simp at hl; omega) (w ++ [x, o]) (by simp; omega) u rfl
      rw [show w ++ x :: o :: u = w ++ [x, o] ++ u by simp]
      refine h1.trans (le_trans ?_ (lik_extend_le hM hn (insert o (Finset.univ.image M.labelling)) (fun s => by simp) w hw x))
      exact Finset.single_le_sum (f := fun o => M.lik (w ++ [x, o])) (fun o _ => M.lik_nonneg hM.1 hM.2.2.1 _) (by simp)

/-- C112, MDPs: keeping only the first `k` actions of the traces (and the observations before and after them). -/
theorem logLikelihood_cut (hM : M.Stochastic) (hn : M.actions.Nodup) (cpus : ℕ) (h2 : 2 ≤ cpus) (S : TSet L) (hs : S.times.sum ≠ 0)
    (hne : ∀ w ∈ S.sequences, w.length % 2 = 1 ∧ 0 < M.lik w) (k : ℕ) :
    ∃ x y, M.logLikelihoodMultiproc cpus S = .ok x ∧ M.logLikelihoodMultiproc cpus (cut (2 * k + 1) S) = .ok y ∧ x ≤ y := by
  have ho : ∀ w : List L, w.length % 2 = 1 → (w.take (2 * k + 1)).length % 2 = 1 := by
    intro w hw
    rw [List.length_take]
    omega
  refine ⟨_, _, M.logLikelihood_spec hn hM.1 hM.2.2.1 cpus h2 S hs (fun w hw => (hne w hw).1),
    M.logLikelihood_spec hn hM.1 hM.2.2.1 cpus h2 (cut (2 * k + 1) S) hs (fun w hw => ?_), ?_⟩
  · obtain ⟨w', hw', rfl⟩ := List.mem_map.1 hw
    exact ho _ (hne w' hw').1
  · refine avgLogLik_cut M.lik S _ (fun w hw => ⟨(hne w hw).2, ?_⟩)
    conv_lhs => rw [← List.take_append_drop (2 * k + 1) w]
    exact lik_prefix hM hn _ (ho _ (hne w hw).1) _

end MDP

/-! ### Continuous-time Markov chains -/

namespace CTMC
variable {L : Type} [DecidableEq L] {n : ℕ} {M : CTMC ℝ L n}

theorem timed_append (ps : List (L × ℝ)) (last o : L) (t : ℝ) : timed ps last ++ [.time t, .obs o] = timed (ps ++ [(last, t)]) o := by
  induction ps with
  | nil => rfl
  | cons p ps ih => simp [timed, ← ih]

theorem integrable_rateStep (he : ∀ s, 0 < ∑ j, M.matrix s j) (s s' : Fin n) (o : L) : IntegrableOn (fun t => M.rateStep s s' (o, t)) (Set.Ioi 0) := by
  unfold rateStep
  dsimp only
  split_ifs
  · exact (exp_neg_integrableOn_Ioi 0 (he s)).const_mul _
  · exact integrableOn_zero

theorem integral_rateStep (he : ∀ s, 0 < ∑ j, M.matrix s j) (s s' : Fin n) (o : L) :
    ∫ t in Set.Ioi 0, M.rateStep s s' (o, t) = if M.labelling s = o then M.matrix s s' / ∑ j, M.matrix s j else 0 := by
  unfold rateStep
  dsimp only
  split_ifs
  · rw [integral_const_mul, integral_exp_mul_Ioi (by linarith [he s])]
    simp [div_eq_mul_inv]
  · simp

/-- C112, CTMCs: the density of a timed trace is the sum over the next observations of the integrals over the next waiting times. -/
theorem density_extend (he : ∀ s, 0 < ∑ j, M.matrix s j) (A : Finset L) (hA : ∀ s, M.labelling s ∈ A) (w : List (Sym L)) (hw : IsTimed w) :
    ∑ o ∈ A, ∫ t in Set.Ioi 0, M.density (w ++ [.time t, .obs o]) = M.density w := by
  obtain ⟨ps, last, rfl⟩ := exists_timed w hw
  simp only [timed_append, density_foldl, List.foldl_append, List.foldl_cons, List.foldl_nil]
  set F := ps.foldl (fwd M.rateStep) M.initialState
  have e : ∀ o, ∫ t in Set.Ioi 0, ∑ s', fwd M.rateStep F (last, t) s' * M.maskTimed (.obs o) s'
      = ∑ s', (∑ s, F s * if M.labelling s = last then M.matrix s s' / ∑ j, M.matrix s j else 0) * M.maskTimed (.obs o) s' := by
    intro o
    unfold fwd
    rw [integral_finsetSum _ (fun s' _ => (integrable_finsetSum _ (fun s _ => (integrable_rateStep he s s' last).const_mul _)).mul_const _)]
    refine Finset.sum_congr rfl (fun s' _ => ?_)
    rw [integral_mul_const, integral_finsetSum _ (fun s _ => (integrable_rateStep he s s' last).const_mul _)]
    congr 1
    refine Finset.sum_congr rfl (fun s _ => ?_)
    rw [integral_const_mul, integral_rateStep he]
  simp only [e]
  rw [Finset.sum_comm]
  have hm : ∀ s, ∑ o ∈ A, M.maskTimed (.obs o) s = 1 := by
    intro s
    unfold maskTimed
    simp only [Sym.obs.injEq]
    rw [Finset.sum_ite_eq, if_pos (hA s)]
  simp only [← Finset.mul_sum, hm, mul_one]
  rw [Finset.sum_comm]
  refine Finset.sum_congr rfl (fun s _ => ?_)
  rw [← Finset.mul_sum]
  congr 1
  unfold maskTimed
  simp only [Sym.obs.injEq]
  split_ifs
  · rw [← Finset.sum_div, div_self (he s).ne']
  · simp

/-- C112, CTMCs without the times. -/
theorem lik_extend (hM : M.Valid) (hi : ∑ s, M.initialState s = 1) (he : ∀ s, ∑ t, M.matrix s t ≠ 0) (A : Finset L) (hA : ∀ s, M.labelling s ∈ A)
    (w : List L) (hw : w ≠ []) : ∑ o ∈ A, M.embedded.lik (w ++ [o]) = M.embedded.lik w :=
  MC.lik_extend (M.toMC_stochastic hM hi he) A hA w hw

end CTMC
end Jajapy
