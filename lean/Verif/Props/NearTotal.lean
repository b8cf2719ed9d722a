import Verif.Props.NearHMM
import Mathlib.Algebra.Order.BigOperators.Group.Finset

/-!
Property C110, absolute errors: the probabilities of all the traces of a given length together.
-/

set_option linter.unusedSectionVars false
set_option autoImplicit false

namespace Jajapy

open Spec BW Finset

theorem sum_cons_words {O : Type} {t : ℕ} (A : Finset O) (f : (Fin (t + 1) → O) → ℝ) :
    ∑ w ∈ Fintype.piFinset (fun _ : Fin (t + 1) => A), f w = ∑ o ∈ A, ∑ w ∈ Fintype.piFinset (fun _ : Fin t => A), f (Fin.cons o w) := by
  rw [← Finset.sum_product']
  refine Finset.sum_nbij' (fun w => (w 0, fun k => w k.succ)) (fun p => Fin.cons p.1 p.2) ?_ ?_ ?_ ?_ ?_
  · intro w hw
    rw [Fintype.mem_piFinset] at hw
    exact Finset.mem_product.2 ⟨hw 0, Fintype.mem_piFinset.2 (fun k => hw k.succ)⟩
  · intro p hp
    obtain ⟨h1, h2⟩ := Finset.mem_product.1 hp
    rw [Fintype.mem_piFinset] at h2 ⊢
    intro k
    refine Fin.cases ?_ (fun k => ?_) k
    · simpa using h1
    · simpa using h2 k
  · intro w _
    exact Fin.cons_self_tail w
  · intro p _
    simp
  · intro w _
    exact congrArg f (Fin.cons_self_tail w).symm

namespace Iface
variable {O : Type} {n : ℕ} {M M' : Iface ℝ O n} {a a' : Fin n → Fin n → ℝ} {A : Finset O} {α β : ℝ}
  (ht : ∀ s t o, M.tau s t o = a s t * M.b s o) (ht' : ∀ s t o, M'.tau s t o = a' s t * M'.b s o)
  (ha : ∀ s t, 0 ≤ a s t) (ha' : ∀ s t, 0 ≤ a' s t) (hb : ∀ s o, 0 ≤ M.b s o) (hb' : ∀ s o, 0 ≤ M'.b s o)
  (has : ∀ s, ∑ t, a s t ≤ 1) (has' : ∀ s, ∑ t, a' s t ≤ 1) (hbs : ∀ s, ∑ o ∈ A, M.b s o ≤ 1) (hbs' : ∀ s, ∑ o ∈ A, M'.b s o ≤ 1)
  (hα : ∀ s, ∑ t, |a s t - a' s t| ≤ α) (hβ : ∀ s, ∑ o ∈ A, |M.b s o - M'.b s o| ≤ β)

theorem three (v v' x x' y y' : ℝ) (hx : 0 ≤ x) (hx' : 0 ≤ x') (hy : 0 ≤ y) (hy' : 0 ≤ y') :
    |v * (x * y) - v' * (x' * y')| ≤ |v - v'| * (x * y) + |v'| * (|y - y'| * x + y' * |x - x'|) := by
  have e : v * (x * y) - v' * (x' * y') = (v - v') * (x * y) + v' * ((y - y') * x + y' * (x - x')) := by ring
  rw [e]
  refine (abs_add_le _ _).trans (add_le_add ?_ ?_)
  · rw [abs_mul, abs_of_nonneg (mul_nonneg hx hy)]
  · rw [abs_mul]
    refine mul_le_mul_of_nonneg_left ((abs_add_le _ _).trans (add_le_add ?_ ?_)) (abs_nonneg _)
    · rw [abs_mul, abs_of_nonneg hx]
    · rw [abs_mul, abs_of_nonneg hy']

include ht ht' ha ha' hb hb' has hbs hbs' hα hβ in
theorem fwd_diff (hα0 : 0 ≤ α) (hβ0 : 0 ≤ β) (v v' : Fin n → ℝ) :
    ∑ o ∈ A, ∑ t, |M.fwdStep v o t - M'.fwdStep v' o t| ≤ ∑ s, |v s - v' s| + (∑ s, |v' s|) * (α + β) := by
  have h1 : ∀ o t, |M.fwdStep v o t - M'.fwdStep v' o t|
      ≤ ∑ s, (|v s - v' s| * (a s t * M.b s o) + |v' s| * (|M.b s o - M'.b s o| * a s t + M'.b s o * |a s t - a' s t|)) := by
    intro o t
    unfold fwdStep
    rw [← Finset.sum_sub_distrib]
    refine (Finset.abs_sum_le_sum_abs _ _).trans (Finset.sum_le_sum (fun s _ => ?_))
    rw [ht, ht']
    exact three _ _ _ _ _ _ (ha s t) (ha' s t) (hb s o) (hb' s o)
  refine (Finset.sum_le_sum (fun o _ => Finset.sum_le_sum (fun t _ => h1 o t))).trans ?_
  have h2 : ∀ o, ∑ t, ∑ s, (|v s - v' s| * (a s t * M.b s o) + |v' s| * (|M.b s o - M'.b s o| * a s t + M'.b s o * |a s t - a' s t|))
      = ∑ s, (|v s - v' s| * (M.b s o * ∑ t, a s t) + |v' s| * (|M.b s o - M'.b s o| * ∑ t, a s t + M'.b s o * ∑ t, |a s t - a' s t|)) := by
    intro o
    rw [Finset.sum_comm]
    refine Finset.sum_congr rfl (fun s _ => ?_)
    rw [Finset.sum_add_distrib, ← Finset.mul_sum, ← Finset.mul_sum, Finset.sum_add_distrib, ← Finset.mul_sum, ← Finset.mul_sum, ← Finset.sum_mul,
      mul_comm (∑ t, a s t)]
  simp only [h2]
  rw [Finset.sum_comm, Finset.sum_mul, ← Finset.sum_add_distrib]
  refine Finset.sum_le_sum (fun s _ => ?_)
  rw [Finset.sum_add_distrib, ← Finset.mul_sum, ← Finset.mul_sum, Finset.sum_add_distrib, ← Finset.sum_mul, ← Finset.sum_mul, ← Finset.sum_mul]
  have p1 : (∑ o ∈ A, M.b s o) * ∑ t, a s t ≤ 1 :=
    mul_le_one₀ (hbs s) (Finset.sum_nonneg (fun t _ => ha s t)) (has s)
  have p2 : (∑ o ∈ A, |M.b s o - M'.b s o|) * ∑ t, a s t ≤ β :=
    (mul_le_of_le_one_right (Finset.sum_nonneg (fun o _ => abs_nonneg _)) (has s)).trans (hβ s)
  have p3 : (∑ o ∈ A, M'.b s o) * ∑ t, |a s t - a' s t| ≤ α :=
    (mul_le_of_le_one_left (Finset.sum_nonneg (fun o _ => abs_nonneg _)) (hbs' s)).trans (hα s)
  refine add_le_add (mul_le_of_le_one_right (abs_nonneg _) p1) (mul_le_mul_of_nonneg_left ?_ (abs_nonneg _))
  linarith

include ht' ha' hb' has' hbs' in
theorem fwd_mass (v' : Fin n → ℝ) : ∑ o ∈ A, ∑ t, |M'.fwdStep v' o t| ≤ ∑ s, |v' s| := by
  have h1 : ∀ o t, |M'.fwdStep v' o t| ≤ ∑ s, |v' s| * (a' s t * M'.b s o) := by
    intro o t
    unfold fwdStep
    refine (Finset.abs_sum_le_sum_abs _ _).trans (Finset.sum_le_sum (fun s _ => ?_))
    rw [ht', abs_mul, abs_of_nonneg (mul_nonneg (ha' s t) (hb' s o))]
  refine (Finset.sum_le_sum (fun o _ => Finset.sum_le_sum (fun t _ => h1 o t))).trans ?_
  have h2 : ∀ o, ∑ t, ∑ s, |v' s| * (a' s t * M'.b s o) = ∑ s, |v' s| * (M'.b s o * ∑ t, a' s t) := by
    intro o
    rw [Finset.sum_comm]
    refine Finset.sum_congr rfl (fun s _ => ?_)
    rw [← Finset.mul_sum, ← Finset.sum_mul, mul_comm (∑ t, a' s t)]
  simp only [h2]
  rw [Finset.sum_comm]
  refine Finset.sum_le_sum (fun s _ => ?_)
  rw [← Finset.mul_sum, ← Finset.sum_mul]
  exact mul_le_of_le_one_right (abs_nonneg _) (mul_le_one₀ (hbs' s) (Finset.sum_nonneg (fun t _ => ha' s t)) (has' s))

include ht ht' ha ha' hb hb' has has' hbs hbs' hα hβ in
theorem words_diff (hα0 : 0 ≤ α) (hβ0 : 0 ≤ β) (t : ℕ) : ∀ v v' : Fin n → ℝ,
    ∑ w ∈ Fintype.piFinset (fun _ : Fin (t + 1) => A), |∑ s, M.seqLoop v (w 0) (List.ofFn fun k : Fin t => w k.succ) s
        - ∑ s, M'.seqLoop v' (w 0) (List.ofFn fun k : Fin t => w k.succ) s|
      ≤ ∑ s, |v s - v' s| + (∑ s, |v' s|) * (t * α + (t + 1) * β) := by
  induction t with
  | zero =>
    intro v v'
    rw [sum_cons_words]
    simp only [List.ofFn_zero, Fin.cons_zero, seqLoop]
    have hcard : ∀ f : O → ℝ, ∑ o ∈ A, ∑ w ∈ Fintype.piFinset (fun _ : Fin 0 => A), f o = ∑ o ∈ A, f o := by
      intro f
      refine Finset.sum_congr rfl (fun o _ => ?_)
      rw [Finset.sum_const, Fintype.card_piFinset]
      simp
    rw [hcard (fun o => |∑ s, v s * M.b s o - ∑ s, v' s * M'.b s o|)]
    have h1 : ∀ o, |∑ s, v s * M.b s o - ∑ s, v' s * M'.b s o| ≤ ∑ s, (|v s - v' s| * M.b s o + |v' s| * |M.b s o - M'.b s o|) := by
      intro o
      rw [← Finset.sum_sub_distrib]
      refine (Finset.abs_sum_le_sum_abs _ _).trans (Finset.sum_le_sum (fun s _ => ?_))
      have e : v s * M.b s o - v' s * M'.b s o = (v s - v' s) * M.b s o + v' s * (M.b s o - M'.b s o) := by ring
      rw [e]
      refine (abs_add_le _ _).trans (add_le_add ?_ ?_)
      · rw [abs_mul, abs_of_nonneg (hb s o)]
      · rw [abs_mul]
    refine (Finset.sum_le_sum (fun o _ => h1 o)).trans ?_
    rw [Finset.sum_comm, Finset.sum_mul, ← Finset.sum_add_distrib]
    refine Finset.sum_le_sum (fun s _ => ?_)
    rw [Finset.sum_add_distrib, ← Finset.mul_sum, ← Finset.mul_sum]
    refine add_le_add (mul_le_of_le_one_right (abs_nonneg _) (hbs s)) (mul_le_mul_of_nonneg_left ?_ (abs_nonneg _))
    simpa using hβ s
  | succ t ih =>
    intro v v'
    rw [sum_cons_words]
    simp only [Fin.cons_zero, Fin.cons_succ]
    have h1 : ∀ o ∈ A, ∑ w ∈ Fintype.piFinset (fun _ : Fin (t + 1) => A), |∑ s, M.seqLoop v o (List.ofFn fun k : Fin (t + 1) => w k) s
        - ∑ s, M'.seqLoop v' o (List.ofFn fun k : Fin (t + 1) => w k) s|
        ≤ ∑ s, |M.fwdStep v o s - M'.fwdStep v' o s| + (∑ s, |M'.fwdStep v' o s|) * (t * α + (t + 1) * β) := by
      intro o _
      refine le_trans (le_of_eq ?_) (ih (M.fwdStep v o) (M'.fwdStep v' o))
      refine Finset.sum_congr rfl (fun w _ => ?_)
      rw [List.ofFn_succ, seqLoop, seqLoop]
    refine (Finset.sum_le_sum h1).trans ?_
    rw [Finset.sum_add_distrib, ← Finset.sum_mul]
    have h2 := fwd_diff ht ht' ha ha' hb hb' has hbs hbs' hα hβ hα0 hβ0 v v'
    have h3 := fwd_mass ht' ha' hb' has' hbs' v'
    have h4 : 0 ≤ (t : ℝ) * α + (t + 1) * β := by positivity
    have h5 := mul_le_mul_of_nonneg_right h3 h4
    push_cast
    nlinarith

end Iface

/-- C110, Markov chain, absolute errors: if each row of the matrix is changed by at most `α` altogether and the initial distribution by at most `δ`, the
probabilities of all the traces with `t + 1` symbols are changed by at most `δ + t * α` altogether. -/
theorem MC.total_near {L : Type} [DecidableEq L] {n : ℕ} {M M' : MC ℝ L n} (h : M.Stochastic) (h' : M'.Stochastic) (hl : M'.labelling = M.labelling)
    {α δ : ℝ} (hα : ∀ s, ∑ t, |M.matrix s t - M'.matrix s t| ≤ α) (hδ : ∑ s, |M.initialState s - M'.initialState s| ≤ δ) (A : Finset L) (t : ℕ) :
    ∃ P P' : (Fin (t+1) → L) → ℝ, (∀ w, M.iface.seqProb (List.ofFn w) = .ok (P w)) ∧ (∀ w, M'.iface.seqProb (List.ofFn w) = .ok (P' w)) ∧
      ∑ w ∈ Fintype.piFinset (fun _ : Fin (t+1) => A), |P w - P' w| ≤ δ + t * α := by
  have hbs : ∀ (M : MC ℝ L n) s, ∑ o ∈ A, M.iface.b s o ≤ 1 := by
    intro M s
    simp only [iface, MC.b]
    rw [Finset.sum_ite_eq]
    split_ifs <;> norm_num
  have hb0 : ∀ (M : MC ℝ L n) s o, 0 ≤ M.iface.b s o := by
    intro M s o
    simp only [iface, MC.b]
    split_ifs <;> norm_num
  have hb : ∀ s, ∑ o ∈ A, |M.iface.b s o - M'.iface.b s o| ≤ 0 := by
    intro s
    simp [iface, MC.b, hl]
  rcases Nat.eq_zero_or_pos n with rfl | hn
  · exact absurd h.2.1 (by simp)
  have hα0 : 0 ≤ α := (Finset.sum_nonneg (fun _ _ => abs_nonneg _)).trans (hα ⟨0, hn⟩)
  have key := Iface.words_diff (M := M.iface) (M' := M'.iface) M.tau_factor M'.tau_factor h.2.2.1 h'.2.2.1 (hb0 M) (hb0 M') (fun s => (h.2.2.2 s).le)
    (fun s => (h'.2.2.2 s).le) (hbs M) (hbs M') hα hb hα0 le_rfl t M.initialState M'.initialState
  refine ⟨_, _, fun w => by rw [List.ofFn_succ]; rfl, fun w => by rw [List.ofFn_succ]; rfl, key.trans ?_⟩
  have hs : ∑ s, |M'.initialState s| = 1 := by
    rw [← h'.2.1]
    exact Finset.sum_congr rfl (fun s _ => abs_of_nonneg (h'.1 s))
  rw [hs]
  linarith

/-- C110, hidden Markov model, absolute errors: `β` bounds the change of a row of emission probabilities. -/
theorem HMM.total_near {L : Type} [DecidableEq L] {n : ℕ} {M M' : HMM ℝ L n} (h : M.Stochastic) (h' : M'.Stochastic) (hn : M.alphabet.Nodup)
    (hl : M'.alphabet = M.alphabet) {α β δ : ℝ} (hα : ∀ s, ∑ t, |M.matrix s t - M'.matrix s t| ≤ α)
    (hβ : ∀ s, ∑ o ∈ M.alphabet.toFinset, |M.emit s o - M'.emit s o| ≤ β) (hδ : ∑ s, |M.initialState s - M'.initialState s| ≤ δ) (t : ℕ) :
    ∃ P P' : (Fin (t+1) → L) → ℝ, (∀ w, M.iface.seqProb (List.ofFn w) = .ok (P w)) ∧ (∀ w, M'.iface.seqProb (List.ofFn w) = .ok (P' w)) ∧
      ∑ w ∈ Fintype.piFinset (fun _ : Fin (t+1) => M.alphabet.toFinset), |P w - P' w| ≤ δ + t * α + (t + 1) * β := by
  have hn' : M'.alphabet.Nodup := by rw [hl]; exact hn
  have hb0 : ∀ (M : HMM ℝ L n), M.Stochastic → ∀ s o, 0 ≤ M.iface.b s o := by
    intro M h s o
    simp only [iface, HMM.b]
    split_ifs
    · exact h.2.2.2.2.1 _ _
    · exact le_rfl
  have hbs : ∀ (M : HMM ℝ L n), M.Stochastic → M.alphabet.Nodup → ∀ s, ∑ o ∈ M.alphabet.toFinset, M.iface.b s o ≤ 1 := by
    intro M h hn s
    simp only [iface, M.b_eq_emit hn]
    unfold emit
    rw [Finset.sum_comm]
    refine le_of_eq (Eq.trans (Finset.sum_congr rfl (fun i _ => ?_)) (h.2.2.2.2.2 s))
    rw [Finset.sum_ite_eq, if_pos (by simp)]
  rcases Nat.eq_zero_or_pos n with rfl | hpos
  · exact absurd h.2.1 (by simp)
  have hα0 : 0 ≤ α := (Finset.sum_nonneg (fun _ _ => abs_nonneg _)).trans (hα ⟨0, hpos⟩)
  have hβ0 : 0 ≤ β := (Finset.sum_nonneg (fun _ _ => abs_nonneg _)).trans (hβ ⟨0, hpos⟩)
  have key := Iface.words_diff (M := M.iface) (M' := M'.iface) M.tau_factor M'.tau_factor h.2.2.1 h'.2.2.1 (hb0 M h) (hb0 M' h')
    (fun s => (h.2.2.2.1 s).le) (fun s => (h'.2.2.2.1 s).le) (hbs M h hn) (by rw [← hl]; exact hbs M' h' hn') hα
    (fun s => by simp only [iface, M.b_eq_emit hn, M'.b_eq_emit hn']; exact hβ s) hα0 hβ0 t M.initialState M'.initialState
  refine ⟨_, _, fun w => by rw [List.ofFn_succ]; rfl, fun w => by rw [List.ofFn_succ]; rfl, key.trans ?_⟩
  have hs : ∑ s, |M'.initialState s| = 1 := by
    rw [← h'.2.1]
    exact Finset.sum_congr rfl (fun s _ => abs_of_nonneg (h'.1 s))
  rw [hs]
  linarith

end Jajapy
