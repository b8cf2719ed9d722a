import Verif.Lemmas.Consistency
import Verif.Props.MDPSim

set_option linter.unusedSectionVars false

namespace Jajapy

open MeasureTheory ProbabilityTheory Spec Filter Topology Tools BW

namespace MDP
variable {σ L : Type} [DecidableEq L] {n : ℕ} (M : MDP ℝ L n) (P : Policy σ L)

/-- The probability of the trace from the state `s` with the memory `m`. -/
noncomputable def runSuf : σ → Fin n → List L → ℝ
  | _, _, [] => 0
  | _, s, [o] => if M.labelling s = o then 1 else 0
  | m, s, o :: x :: w => ∑ s', (if M.labelling s = o then 1 else 0) * (M.choiceProb P s m x * M.prob s x s') * runSuf (P.update m o) s' w

theorem runSuf_alternate (ps : List (L × L)) (last : L) (m : σ) (s : Fin n) :
    beta0 (M.runStep P) (M.mask last) (P.steps m ps) s = M.runSuf P m s (alternate ps last) := by
  induction ps generalizing m s with
  | nil => simp [Policy.steps, alternate, runSuf, mask]
  | cons p ps ih =>
    simp only [Policy.steps, beta0_cons, bwd, alternate, runSuf, ih]
    refine Finset.sum_congr rfl (fun s' _ => ?_)
    simp only [runStep]
    ring

theorem runProb_suf (w : List L) (hw : w.length % 2 = 1) : M.runProb P w = ∑ s, M.initialState s * M.runSuf P P.start s w := by
  obtain ⟨ps, last, rfl⟩ := exists_alternate w hw
  rw [M.runProb_alternate, BW.totalWeight_eq]
  exact Finset.sum_congr rfl (fun s _ => by rw [M.runSuf_alternate])

theorem runSuf_head (m : σ) (s : Fin n) (o : L) (w : List L) (h : M.runSuf P m s (o :: w) ≠ 0) : M.labelling s = o := by
  by_contra hne
  apply h
  cases w with
  | nil => simp [runSuf, hne]
  | cons x w => simp [runSuf, hne]

variable {M P}

theorem expected_succ (A : Finset L) (hA : ∀ s, M.labelling s ∈ A) (c : List L → ℝ) (φ : L → L → L → ℝ)
    (hc : ∀ o x o' w, c (o :: x :: o' :: w) = φ o x o' + c (o' :: w)) (k : ℕ) (m : σ) (s : Fin n) :
    ∑ w ∈ tracesOver A (2 * k + 3), M.runSuf P m s w * c w = ∑ x ∈ A, ∑ s', (M.choiceProb P s m x * M.prob s x s') *
      (φ (M.labelling s) x (M.labelling s') * ∑ w ∈ tracesOver A (2 * k + 1), M.runSuf P (P.update m (M.labelling s)) s' w +
        ∑ w ∈ tracesOver A (2 * k + 1), M.runSuf P (P.update m (M.labelling s)) s' w * c w) := by
  rw [sum_tracesOver_succ, Finset.sum_eq_single_of_mem (M.labelling s) (hA s)]
  · rw [sum_tracesOver_succ]
    refine Finset.sum_congr rfl (fun x _ => ?_)
    have h1 : ∀ w ∈ tracesOver A (2 * k + 1), M.runSuf P m s (M.labelling s :: x :: w) * c (M.labelling s :: x :: w)
        = ∑ s', (M.choiceProb P s m x * M.prob s x s') * (φ (M.labelling s) x (M.labelling s') *
          M.runSuf P (P.update m (M.labelling s)) s' w + M.runSuf P (P.update m (M.labelling s)) s' w * c w) := by
      intro w hw
      obtain ⟨o, w', rfl⟩ := MC.mem_succ hw
      rw [hc, runSuf, Finset.sum_mul]
      refine Finset.sum_congr rfl (fun s' _ => ?_)
      rw [if_pos rfl]
      by_cases h0 : M.runSuf P (P.update m (M.labelling s)) s' (o :: w') = 0
      · rw [h0]; ring
      · rw [M.runSuf_head P _ s' o w' h0]; ring
    rw [Finset.sum_congr rfl h1, Finset.sum_comm]
    refine Finset.sum_congr rfl (fun s' _ => ?_)
    rw [← Finset.mul_sum, Finset.sum_add_distrib, Finset.mul_sum]
  · intro o _ ho
    refine Finset.sum_eq_zero (fun w hw => ?_)
    obtain ⟨x, w', rfl⟩ := MC.mem_succ hw
    rw [runSuf, if_neg (Ne.symm ho)]
    simp

theorem choice_row {sch : Sched ℝ L σ} {dom : σ → Prop} (hn : M.actions.Nodup) (hS : M.Stochastic) (hB : Behaves sch P dom)
    (s : Fin n) (m : σ) (x : L) : M.choiceProb P s m x * ∑ s', M.prob s x s' = M.choiceProb P s m x := by
  by_cases h : M.Allowed s x
  · obtain ⟨s1, h1⟩ := h
    have hx : x ∈ M.actions := by
      by_contra hna
      rw [M.prob_not_mem s x s1 hna] at h1
      exact lt_irrefl _ h1
    obtain ⟨i, hi, rfl⟩ := List.mem_iff_getElem.1 hx
    have e : ∀ s', M.prob s M.actions[i] s' = M.matrix s ⟨i, hi⟩ s' := fun s' => M.prob_getElem hn s ⟨i, hi⟩ s'
    have h2 : ∑ s', M.prob s M.actions[i] s' = 1 := by
      simp only [e]
      rcases hS.2.2.2 s ⟨i, hi⟩ with h3 | h3
      · exact h3
      · rw [Finset.sum_eq_zero_iff_of_nonneg (fun s' _ => hS.2.2.1 _ _ _)] at h3
        rw [e s1, h3 s1 (Finset.mem_univ _)] at h1
        exact absurd h1 (lt_irrefl _)
    rw [h2, mul_one]
  · unfold choiceProb
    rw [if_neg h, zero_mul]

theorem choice_sum (A : Finset L) (hA : ∀ x ∈ M.actions, x ∈ A) (s : Fin n) (m : σ) (hq : 0 < M.acceptProb P s m) :
    ∑ x ∈ A, M.choiceProb P s m x = 1 := by
  classical
  have hsub : (M.actions.toFinset.filter (fun x => M.Allowed s x)) ⊆ A := fun x hx => hA x (List.mem_toFinset.1 (Finset.mem_filter.1 hx).1)
  rw [← Finset.sum_subset hsub]
  · have : ∀ x ∈ M.actions.toFinset.filter (fun x => M.Allowed s x), M.choiceProb P s m x = P.propose m x / M.acceptProb P s m := by
      intro x hx
      unfold choiceProb
      rw [if_pos (Finset.mem_filter.1 hx).2]
    rw [Finset.sum_congr rfl this, ← Finset.sum_div]
    have e : ∑ x ∈ M.actions.toFinset.filter (fun x => M.Allowed s x), P.propose m x = M.acceptProb P s m := by
      unfold acceptProb
      congr
    rw [e, div_self hq.ne']
  · intro x _ hx
    unfold choiceProb
    rw [if_neg]
    rintro ⟨s', hs'⟩
    refine hx (Finset.mem_filter.2 ⟨List.mem_toFinset.2 ?_, s', hs'⟩)
    by_contra hna
    rw [M.prob_not_mem s x s' hna] at hs'
    exact lt_irrefl _ hs'

section
variable {sch : Sched ℝ L σ} {dom : σ → Prop} (hn : M.actions.Nodup) (hS : M.Stochastic) (hB : Behaves sch P dom)
  (hq : ∀ s m, dom m → 0 < M.acceptProb P s m) (A : Finset L) (hA : ∀ s, M.labelling s ∈ A) (hA' : ∀ x ∈ M.actions, x ∈ A)
include hn hS hB hq hA hA'

theorem sum_runSuf (k : ℕ) (m : σ) (hm : dom m) (s : Fin n) : ∑ w ∈ tracesOver A (2 * k + 1), M.runSuf P m s w = 1 := by
  induction k generalizing m s with
  | zero =>
    rw [sum_tracesOver_succ, tracesOver_zero]
    simp only [Finset.sum_singleton, runSuf]
    rw [Finset.sum_ite_eq, if_pos (hA s)]
  | succ k ih =>
    have h := expected_succ (M := M) (P := P) A hA (fun _ => 1) (fun _ _ _ => 0) (by simp) k m s
    simp only [mul_one, zero_mul, zero_add] at h
    rw [show 2 * (k + 1) + 1 = 2 * k + 3 by ring, h]
    simp only [ih _ (hB.obs m hm _).2, mul_one, ← Finset.mul_sum]
    rw [Finset.sum_congr rfl (fun x _ => choice_row hn hS hB s m x), choice_sum A hA' s m (hq s m hm)]

theorem expected_uses (hinj : Function.Injective M.labelling) (i : Fin n) (a : L) (ha : a ∈ A) (j : Fin n) (k : ℕ) (m : σ) (hm : dom m) (s : Fin n) :
    ∑ w ∈ tracesOver A (2 * k + 1), M.runSuf P m s w * ((List.range (w.length / 2)).countP
        (fun k => w[2 * k]? = some (M.labelling i) ∧ w[2 * k + 1]? = some a ∧ w[2 * k + 2]? = some (M.labelling j)) : ℕ)
      = M.prob i a j * ∑ w ∈ tracesOver A (2 * k + 1), M.runSuf P m s w * ((List.range (w.length / 2)).countP
        (fun k => w[2 * k]? = some (M.labelling i) ∧ w[2 * k + 1]? = some a) : ℕ) := by
  induction k generalizing m s with
  | zero =>
    rw [sum_tracesOver_succ, sum_tracesOver_succ, tracesOver_zero]
    simp
  | succ k ih =>
    have hlen : ∀ (o x o' : L) (w : List L), (o :: x :: o' :: w).length / 2 = (o' :: w).length / 2 + 1 := by
      intro o x o' w
      simp only [List.length_cons]; omega
    rw [show 2 * (k + 1) + 1 = 2 * k + 3 by ring,
      expected_succ (M := M) (P := P) A hA (fun w => ((List.range (w.length / 2)).countP
        (fun k => w[2 * k]? = some (M.labelling i) ∧ w[2 * k + 1]? = some a ∧ w[2 * k + 2]? = some (M.labelling j)) : ℕ))
        (fun o x o' => if o = M.labelling i ∧ x = a ∧ o' = M.labelling j then 1 else 0) (by
          intro o x o' w
          rw [hlen, List.range_succ_eq_map, List.countP_cons, List.countP_map, Nat.cast_add, add_comm]
          congr 1
          by_cases h : o = M.labelling i ∧ x = a ∧ o' = M.labelling j <;> simp [h]),
      expected_succ (M := M) (P := P) A hA (fun w => ((List.range (w.length / 2)).countP
        (fun k => w[2 * k]? = some (M.labelling i) ∧ w[2 * k + 1]? = some a) : ℕ))
        (fun o x _ => if o = M.labelling i ∧ x = a then 1 else 0) (by
          intro o x o' w
          rw [hlen, List.range_succ_eq_map, List.countP_cons, List.countP_map, Nat.cast_add, add_comm]
          congr 1
          by_cases h : o = M.labelling i ∧ x = a <;> simp [h])]
    simp only [sum_runSuf hn hS hB hq A hA hA' k _ (hB.obs m hm _).2, ih _ (hB.obs m hm _).2, mul_one, hinj.eq_iff]
    simp only [mul_add, Finset.sum_add_distrib]
    congr 1
    · by_cases h : s = i
      · subst h
        have e1 : ∑ x ∈ A, ∑ s', M.choiceProb P s m x * M.prob s x s' * (if s = s ∧ x = a ∧ s' = j then (1:ℝ) else 0)
            = M.choiceProb P s m a * M.prob s a j := by
          rw [Finset.sum_eq_single_of_mem a ha (fun x _ hx => by simp [hx])]
          simp
        have e2 : ∑ x ∈ A, ∑ s', M.choiceProb P s m x * M.prob s x s' * (if s = s ∧ x = a then (1:ℝ) else 0)
            = M.choiceProb P s m a := by
          rw [Finset.sum_eq_single_of_mem a ha (fun x _ hx => by simp [hx])]
          simp only [and_self, if_true, mul_one]
          rw [← Finset.mul_sum, choice_row hn hS hB]
        rw [e1, e2]
        ring
      · simp [h]
    · rw [Finset.mul_sum]
      refine Finset.sum_congr rfl (fun x _ => ?_)
      rw [Finset.mul_sum]
      exact Finset.sum_congr rfl (fun s' _ => by ring)

end
end MDP
end Jajapy
