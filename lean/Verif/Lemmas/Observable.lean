import Verif.Spec.Observable
import Verif.Lemmas.BWMC
import Verif.Lemmas.Draws

/-! Baum-Welch tables of a chain whose states have pairwise different labels. -/

set_option linter.unusedSectionVars false

namespace Jajapy

open Finset Spec BW

section
variable {K L : Type} {n : ℕ} [Field K] [DecidableEq L]

/-- The probability of following a path from its first state. -/
def chain (a : Fin n → Fin n → K) : List (Fin n) → K
  | [] => 1
  | s :: r => (match r with | [] => 1 | s' :: _ => a s s') * chain a r

theorem chain_cons_cons (a : Fin n → Fin n → K) (s s' : Fin n) (r : List (Fin n)) :
    chain a (s :: s' :: r) = a s s' * chain a (s' :: r) := rfl
theorem chain_single (a : Fin n → Fin n → K) (s : Fin n) : chain a [s] = 1 := by simp [chain]

theorem MC.step_lab (M : MC K L n) (hinj : Function.Injective M.labelling) (s0 s ss : Fin n) :
    M.step s ss (M.labelling s0) = if s = s0 then M.matrix s ss else 0 := by
  unfold step
  by_cases h : s = s0
  · rw [if_pos (by rw [h]), if_pos h, one_mul]
  · rw [if_neg (fun h' => h (hinj h')), if_neg h, zero_mul]

theorem MC.beta_det (M : MC K L n) (hinj : Function.Injective M.labelling) (hm : ∀ s, ∑ s', M.matrix s s' = 1)
    (s0 : Fin n) (r : List (Fin n)) (ss : Fin n) :
    beta0 M.step (fun _ => 1) ((s0 :: r).map M.labelling) ss = if ss = s0 then chain M.matrix (s0 :: r) else 0 := by
  induction r generalizing s0 ss with
  | nil =>
    simp only [List.map_cons, List.map_nil, beta0_cons, beta0_nil, bwd, M.step_lab hinj, chain_single]
    by_cases h : ss = s0
    · simp [h, hm]
    · simp [h]
  | cons s1 r ih =>
    rw [List.map_cons, beta0_cons]
    unfold bwd
    simp only [M.step_lab hinj, ih]
    by_cases h : ss = s0
    · subst h
      simp [chain_cons_cons, mul_comm]
    · simp [h]

theorem MC.fwd_det (M : MC K L n) (hinj : Function.Injective M.labelling) (v : Fin n → K) (s0 ss : Fin n) :
    fwd M.step v (M.labelling s0) ss = v s0 * M.matrix s0 ss := by
  unfold fwd
  simp only [M.step_lab hinj]
  simp

theorem MC.use_det (M : MC K L n) (hinj : Function.Injective M.labelling) (hm : ∀ s, ∑ s', M.matrix s s' = 1)
    (c : K) (v : Fin n → K) (s0 : Fin n) (r : List (Fin n)) (s ss : Fin n) :
    use M.step v (fun _ => 1) (fun _ => 1) c ((s0 :: r).map M.labelling) s ss =
      v s0 * chain M.matrix (s0 :: r) * c *
        ((((s0 :: r).zip r).count (s, ss) : ℕ) + if (s0 :: r).getLast? = some s then M.matrix s ss else 0) := by
  induction r generalizing s0 v with
  | nil =>
    rw [List.map_cons, List.map_nil, use_cons, use_nil, M.step_lab hinj]
    by_cases h : s = s0
    · subst h; simp [chain_single]; ring
    · simp [chain_single, h, Ne.symm h]
  | cons s1 r ih =>
    rw [List.map_cons, use_cons, ih, M.step_lab hinj, M.fwd_det hinj, M.beta_det hinj hm, List.zip_cons_cons, List.count_cons,
      List.getLast?_cons_cons, chain_cons_cons]
    by_cases h : s = s0
    · subst h
      by_cases h' : ss = s1
      · subst h'; simp; ring
      · simp [h', Ne.symm h', mul_assoc]
    · simp [h, Ne.symm h, mul_assoc]

theorem MC.weight_det (M : MC K L n) (hinj : Function.Injective M.labelling) (hm : ∀ s, ∑ s', M.matrix s s' = 1)
    (s0 : Fin n) (r : List (Fin n)) :
    totalWeight M.initialState M.step (fun _ => 1) ((s0 :: r).map M.labelling) = M.initialState s0 * chain M.matrix (s0 :: r) := by
  rw [totalWeight_eq]
  simp only [M.beta_det hinj hm]
  simp

/-- A trace of positive probability is the sequence of labels of a path. -/
theorem MC.path_of_lik (M : MC K L n) (w : List L) (h : M.lik w ≠ 0) : ∃ s0 r, w = (s0 :: r).map M.labelling := by
  cases w with
  | nil => exact absurd rfl h
  | cons o os =>
    unfold MC.lik listProb traceProb at h
    obtain ⟨p, _, hp⟩ := Finset.exists_ne_zero_of_sum_ne_zero h
    have hk : ∀ k : Fin (os.length + 1), M.labelling (p k) = (o :: os).get k := by
      intro k
      by_contra hk
      apply hp
      rw [Finset.prod_eq_zero (Finset.mem_univ k) (if_neg hk), mul_zero]
    refine ⟨p 0, List.ofFn (fun k : Fin os.length => p k.succ), ?_⟩
    have : (o :: os) = List.ofFn (fun k => (o :: os).get k) := (List.ofFn_get _).symm
    rw [this, show (p 0 :: List.ofFn (fun k : Fin os.length => p k.succ)) = List.ofFn p from (List.ofFn_succ).symm, List.map_ofFn]
    congr 1
    funext k
    exact (hk k).symm

theorem count_zip_lab (lab : Fin n → L) (hinj : Function.Injective lab) (p : List (Fin n)) (s ss : Fin n) :
    ((p.map lab).zip (p.map lab).tail).count (lab s, lab ss) = (p.zip p.tail).count (s, ss) := by
  rw [← List.map_tail, List.zip_map]
  exact List.count_map_of_injective _ _ (hinj.prodMap hinj) (s, ss)

theorem last_lab (lab : Fin n → L) (hinj : Function.Injective lab) (p : List (Fin n)) (s : Fin n) :
    (p.map lab).getLast? = some (lab s) ↔ p.getLast? = some s := by
  rw [List.getLast?_map]
  exact ⟨fun h => by
    cases hp : p.getLast? with
    | none => rw [hp] at h; cases h
    | some x => rw [hp] at h; injection h with h; rw [hinj h], fun h => by rw [h]; rfl⟩

theorem sum_count_pairs (p : List (Fin n)) (s : Fin n) : ∑ ss, (p.zip p.tail).count (s, ss) = p.dropLast.count s := by
  induction p with
  | nil => simp
  | cons x p ih =>
    cases p with
    | nil => simp
    | cons y p =>
      simp only [List.tail_cons, List.zip_cons_cons, List.count_cons, List.dropLast_cons_cons] at ih ⊢
      rw [Finset.sum_add_distrib, ih]
      by_cases h : x = s <;> simp [h]

/-- The expected number of uses of a transition: the observed moves, plus the unobserved move after the end of each trace
that ends in the state. -/
theorem MC.num_det [DecidableEq K] [CharZero K] (M : MC K L n) (hinj : Function.Injective M.labelling) (hm : ∀ s, ∑ s', M.matrix s s' = 1)
    (S : TSet L) (hpos : ∀ w ∈ S.sequences, M.lik w ≠ 0) (s ss : Fin n) :
    numMC M S s ss = moves S (M.labelling s) (M.labelling ss) + ends S (M.labelling s) * M.matrix s ss := by
  have hp : ∀ x ∈ S.sequences.zip S.times, ∃ s0 r, x.1 = (s0 :: r).map M.labelling := fun x hx =>
    M.path_of_lik _ (hpos _ (List.of_mem_zip hx).1)
  have hne : ∀ x ∈ S.sequences.zip S.times, totalWeight M.initialState M.step (fun _ => 1) x.1 ≠ 0 := by
    intro x hx
    have h := hpos _ (List.of_mem_zip hx).1
    rwa [M.lik_eq hm _ (by obtain ⟨a, b, e⟩ := hp x hx; rw [e]; simp)] at h
  have e : possMC M S = S.sequences.zip S.times := by
    unfold possMC
    rw [List.filter_eq_self]
    intro x hx
    simpa using hne x hx
  unfold numMC
  rw [e]
  unfold moves ends
  rw [Nat.cast_list_sum, Nat.cast_list_sum, List.map_map, List.map_map, ← List.sum_map_mul_right, ← List.sum_map_add]
  congr 1
  apply List.map_congr_left
  intro x hx
  obtain ⟨s0, r, hx1⟩ := hp x hx
  have hw := hne x hx
  simp only [wkMC, Function.comp]
  rw [hx1] at hw ⊢
  rw [M.use_det hinj hm, count_zip_lab _ hinj, List.tail_cons]
  simp only [last_lab _ hinj]
  rw [M.weight_det hinj hm] at hw ⊢
  rw [mul_div_cancel₀ _ hw]
  push_cast
  split_ifs <;> ring

theorem MC.sum_moves (M : MC K L n) (hinj : Function.Injective M.labelling)
    (S : TSet L) (hpos : ∀ w ∈ S.sequences, M.lik w ≠ 0) (s : Fin n) :
    ∑ ss, moves S (M.labelling s) (M.labelling ss) = leaves S (M.labelling s) := by
  unfold moves leaves
  rw [sum_map_comm]
  congr 1
  apply List.map_congr_left
  intro x hx
  obtain ⟨s0, r, hx1⟩ := M.path_of_lik _ (hpos _ (List.of_mem_zip hx).1)
  rw [hx1, ← Finset.mul_sum]
  simp only [count_zip_lab _ hinj]
  rw [sum_count_pairs, ← List.map_dropLast, List.count_map_of_injective _ _ hinj]

theorem MC.den_det [DecidableEq K] [CharZero K] (M : MC K L n) (hinj : Function.Injective M.labelling) (hm : ∀ s, ∑ s', M.matrix s s' = 1)
    (S : TSet L) (hpos : ∀ w ∈ S.sequences, M.lik w ≠ 0) (s : Fin n) :
    denMC M S s = leaves S (M.labelling s) + ends S (M.labelling s) := by
  rw [← sum_numMC]
  simp only [M.num_det hinj hm S hpos]
  rw [Finset.sum_add_distrib, ← Finset.mul_sum, hm, mul_one, ← Nat.cast_sum, M.sum_moves hinj S hpos]

end

section likelihood
variable {L : Type} {n : ℕ} [DecidableEq L]

theorem log_chain (a : Fin n → Fin n → ℝ) (s0 : Fin n) (r : List (Fin n)) (h : chain a (s0 :: r) ≠ 0) :
    Real.log (chain a (s0 :: r)) = ∑ s, ∑ ss, (((s0 :: r).zip r).count (s, ss) : ℕ) * Real.log (a s ss) := by
  induction r generalizing s0 with
  | nil => simp [chain_single]
  | cons s1 r ih =>
    rw [chain_cons_cons] at h ⊢
    rw [Real.log_mul (left_ne_zero_of_mul h) (right_ne_zero_of_mul h), ih _ (right_ne_zero_of_mul h)]
    simp only [List.zip_cons_cons, List.count_cons, Nat.cast_add, add_mul, Finset.sum_add_distrib]
    rw [add_comm]
    congr 1
    rw [Finset.sum_eq_single s0, Finset.sum_eq_single s1]
    · simp
    · intro b _ hb; simp [Ne.symm hb]
    · simp
    · intro b _ hb
      apply Finset.sum_eq_zero
      intro c _
      simp [Ne.symm hb]
    · simp

/-- The part of the log-likelihood of a trace that depends on the initial distribution only. -/
noncomputable def startLog (lab : Fin n → L) (init : Fin n → ℝ) (w : List L) : ℝ :=
  ∑ s, if w.head? = some (lab s) then Real.log (init s) else 0

theorem MC.log_lik_det (M : MC ℝ L n) (hinj : Function.Injective M.labelling) (hm : ∀ s, ∑ s', M.matrix s s' = 1)
    (w : List L) (h : M.lik w ≠ 0) :
    Real.log (M.lik w) = startLog M.labelling M.initialState w +
      ∑ s, ∑ ss, ((w.zip w.tail).count (M.labelling s, M.labelling ss) : ℕ) * Real.log (M.matrix s ss) := by
  obtain ⟨s0, r, rfl⟩ := M.path_of_lik w h
  rw [M.lik_eq hm _ (by simp), M.weight_det hinj hm] at h ⊢
  rw [Real.log_mul (left_ne_zero_of_mul h) (right_ne_zero_of_mul h), log_chain _ _ _ (right_ne_zero_of_mul h)]
  congr 1
  · unfold startLog
    rw [Finset.sum_eq_single s0]
    · simp
    · intro b _ hb
      rw [if_neg]
      simp only [List.map_cons, List.head?_cons, Option.some.injEq]
      exact fun h' => hb (hinj h').symm
    · simp
  · simp only [count_zip_lab _ hinj, List.tail_cons]

theorem MC.avg_det (M : MC ℝ L n) (hM : M.Stochastic) (hinj : Function.Injective M.labelling)
    (S : TSet L) (hpos : ∀ w ∈ S.sequences, M.lik w ≠ 0) (hnn : ∀ w, 0 ≤ M.lik w) :
    avgLogLik M.lik S = (((S.sequences.zip S.times).map (fun x => x.2 * startLog M.labelling M.initialState x.1)).sum +
      ∑ s, ∑ ss, (moves S (M.labelling s) (M.labelling ss) : ℕ) * Real.log (M.matrix s ss)) / (S.times.sum : ℕ) := by
  unfold avgLogLik
  congr 1
  rw [List.filter_eq_self.2 (fun x hx => by
    simpa using lt_of_le_of_ne (hnn _) (hpos x.1 (List.of_mem_zip hx).1).symm)]
  have e : ∀ s ss, ((moves S (M.labelling s) (M.labelling ss) : ℕ) : ℝ) * Real.log (M.matrix s ss) =
      ((S.sequences.zip S.times).map (fun x => (x.2 : ℝ) *
        (((x.1.zip x.1.tail).count (M.labelling s, M.labelling ss) : ℕ) * Real.log (M.matrix s ss)))).sum := by
    intro s ss
    unfold moves
    rw [Nat.cast_list_sum, List.map_map, ← List.sum_map_mul_right]
    congr 1
    apply List.map_congr_left
    intro x _
    simp only [Function.comp]
    push_cast
    ring
  simp only [e, sum_map_comm]
  rw [← List.sum_map_add]
  congr 1
  apply List.map_congr_left
  intro x hx
  rw [M.log_lik_det hinj hM.2.2.2 _ (hpos x.1 (List.of_mem_zip hx).1), mul_add]
  congr 1
  rw [Finset.mul_sum]
  refine Finset.sum_congr rfl (fun s _ => ?_)
  rw [Finset.mul_sum]

/-- The frequencies maximise the log-likelihood of the moves. -/
theorem moves_gibbs {ι : Type} [Fintype ι] (m : ι → ℕ) (a : ι → ℝ) (ha : ∀ i, 0 ≤ a i) (hs : ∑ i, a i ≤ 1)
    (hpos : ∀ i, m i ≠ 0 → a i ≠ 0) (D : ℕ) (hD : ∑ i, m i = D) (hD0 : D ≠ 0) :
    ∑ i, (m i : ℝ) * Real.log (a i) ≤ ∑ i, (m i : ℝ) * Real.log (m i / D) := by
  have hDc : ∑ i, (m i : ℝ) = D := by rw [← hD]; push_cast; rfl
  have h := gibbs Finset.univ (fun i => (m i : ℝ)) a (fun i _ => Nat.cast_nonneg _) (fun i _ => ha i) hs
    (fun i _ hi => lt_of_le_of_ne (ha i) (hpos i (by
      intro h0; rw [h0] at hi; simp at hi)).symm)
    (by rw [hDc]; exact_mod_cast Nat.pos_of_ne_zero hD0)
  rw [hDc] at h
  rw [← sub_nonneg, ← Finset.sum_sub_distrib]
  refine h.trans (le_of_eq (Finset.sum_congr rfl (fun i _ => ?_)))
  rw [← mul_sub]
  by_cases h0 : m i = 0
  · simp [h0]
  · rw [Real.log_div (div_ne_zero (Nat.cast_ne_zero.2 h0) (Nat.cast_ne_zero.2 hD0)) (hpos i h0)]

end likelihood

end Jajapy
