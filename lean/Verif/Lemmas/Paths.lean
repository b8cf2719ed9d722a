import Mathlib.Algebra.BigOperators.Ring.Finset
import Mathlib.Algebra.BigOperators.Fin
import Mathlib.Algebra.Order.BigOperators.Ring.Finset
import Mathlib.Tactic.Ring
import Verif.Model.MC
import Verif.Spec.Paths

set_option linter.unusedSectionVars false

namespace Jajapy

open Finset Spec

section paths
variable {K O : Type} [CommSemiring K] {n : ℕ}

theorem sum_fin_succ_fun {t : ℕ} (f : (Fin (t+1) → Fin n) → K) :
    ∑ p : Fin (t+1) → Fin n, f p = ∑ p : Fin t → Fin n, ∑ x, f (Fin.cons x p : Fin (t+1) → Fin n) := by
  rw [Finset.sum_comm, ← Fintype.sum_prod_type']
  exact (Fintype.sum_equiv (Fin.consEquiv (fun _ : Fin (t+1) => Fin n)) _ _ (fun _ => rfl)).symm

theorem traceProb_zero (init : Fin n → K) (a : Fin n → Fin n → K) (b : Fin n → O → K) (w : Fin 1 → O) :
    traceProb init a b w = ∑ s, init s * b s (w 0) := by
  unfold traceProb
  rw [sum_fin_succ_fun]
  simp

theorem traceProb_succ (init : Fin n → K) (a : Fin n → Fin n → K) (b : Fin n → O → K) {t : ℕ} (w : Fin (t+2) → O) :
    traceProb init a b w = traceProb (fun s => ∑ ss, init ss * (a ss s * b ss (w 0))) a b (fun k => w k.succ) := by
  unfold traceProb
  rw [sum_fin_succ_fun]
  apply Finset.sum_congr rfl
  intro p _
  rw [Finset.sum_mul, Finset.sum_mul]
  apply Finset.sum_congr rfl
  intro x _
  rw [Fin.prod_univ_succ, Fin.prod_univ_succ (n := t+1)]
  simp only [Fin.cons_zero, Fin.castSucc_zero, Fin.cons_succ, ← Fin.succ_castSucc]
  ring

/-- The total probability of all the observation sequences of a given length over `A`. -/
theorem sum_traceProb (init : Fin n → K) (a : Fin n → Fin n → K) (b : Fin n → O → K) (A : Finset O)
    (hi : ∑ s, init s = 1) (ha : ∀ s, ∑ s', a s s' = 1) (hb : ∀ s, ∑ o ∈ A, b s o = 1) (t : ℕ) :
    ∑ w ∈ Fintype.piFinset (fun _ : Fin (t+1) => A), traceProb init a b w = 1 := by
  unfold traceProb
  rw [Finset.sum_comm]
  have e : ∀ p : Fin (t+1) → Fin n, ∑ w ∈ Fintype.piFinset (fun _ : Fin (t+1) => A),
      init (p 0) * (∏ k : Fin t, a (p k.castSucc) (p k.succ)) * ∏ k : Fin (t+1), b (p k) (w k)
      = init (p 0) * ∏ k : Fin t, a (p k.castSucc) (p k.succ) := by
    intro p
    rw [← Finset.mul_sum, ← Finset.prod_univ_sum]
    simp [hb]
  rw [Finset.sum_congr rfl (fun p _ => e p)]
  have key : ∀ (t : ℕ) (init : Fin n → K), ∑ p : Fin (t+1) → Fin n, init (p 0) * ∏ k : Fin t, a (p k.castSucc) (p k.succ)
      = ∑ s, init s := by
    intro t
    induction t with
    | zero => intro init; rw [sum_fin_succ_fun]; simp
    | succ t ih =>
      intro init
      rw [sum_fin_succ_fun]
      have : ∀ p : Fin (t+1) → Fin n, ∑ x, (init ((Fin.cons x p : Fin (t+2) → Fin n) 0) *
          ∏ k : Fin (t+1), a ((Fin.cons x p : Fin (t+2) → Fin n) k.castSucc) ((Fin.cons x p : Fin (t+2) → Fin n) k.succ))
          = (∑ x, init x * a x (p 0)) * ∏ k : Fin t, a (p k.castSucc) (p k.succ) := by
        intro p
        rw [Finset.sum_mul]
        apply Finset.sum_congr rfl
        intro x _
        rw [Fin.prod_univ_succ]
        simp only [Fin.cons_zero, Fin.castSucc_zero, Fin.cons_succ, ← Fin.succ_castSucc]
        ring
      rw [Finset.sum_congr rfl (fun p _ => this p), ih (fun s => ∑ x, init x * a x s)]
      rw [Finset.sum_comm]
      simp [← Finset.mul_sum, ha]
  rw [key, hi]

end paths

namespace Iface

variable {K O : Type} {n : ℕ} [Field K]

theorem seqLoop_sum (M : Iface K O n) (a : Fin n → Fin n → K) (h : ∀ s s' o, M.tau s s' o = a s s' * M.b s o)
    (v : Fin n → K) (o : O) (os : List O) :
    ∑ s, M.seqLoop v o os s = listProb v a M.b (o :: os) := by
  induction os generalizing v o with
  | nil =>
    simp only [seqLoop, listProb]
    rw [traceProb_zero]; rfl
  | cons o' os ih =>
    simp only [seqLoop]
    rw [ih]
    simp only [listProb]
    refine Eq.trans ?_ (traceProb_succ v a M.b (t := os.length) (fun k => (o :: o' :: os).get k)).symm
    congr 1
    funext s
    simp only [fwdStep, h]
    rfl

/-- The forward algorithm computes the sum over paths. -/
theorem seqProb_eq (M : Iface K O n) (a : Fin n → Fin n → K) (h : ∀ s s' o, M.tau s s' o = a s s' * M.b s o)
    (w : List O) (hw : w ≠ []) : M.seqProb w = .ok (listProb M.init a M.b w) := by
  cases w with
  | nil => exact absurd rfl hw
  | cons o os => rw [seqProb, seqLoop_sum M a h]

theorem listProb_ofFn (init : Fin n → K) (a : Fin n → Fin n → K) (b : Fin n → O → K) {t : ℕ} (w : Fin (t+1) → O) :
    listProb init a b (List.ofFn w) = traceProb init a b w := by
  induction t generalizing init with
  | zero =>
    have : List.ofFn w = [w 0] := by simp
    rw [this, traceProb_zero]
    exact traceProb_zero init a b _
  | succ t ih =>
    rw [traceProb_succ, ← ih]
    rw [List.ofFn_succ, List.ofFn_succ]
    simp only [listProb]
    exact traceProb_succ init a b (t := (List.ofFn fun i : Fin t => w i.succ.succ).length) _

/-! ### the table of the single-process version -/

/-- The rows of the forward table. -/
def rows (M : Iface K O n) (seq : List O) : List (Fin n → K) := seq.scanl M.fwdStep M.init

theorem rows_length (M : Iface K O n) (seq : List O) : (M.rows seq).length = seq.length + 1 := by simp [rows]

theorem rows_succ (M : Iface K O n) (seq : List O) (k : ℕ) (v : Fin n → K) (o : O) (hv : (M.rows seq)[k]? = some v)
    (ho : seq[k]? = some o) : (M.rows seq)[k+1]? = some (M.fwdStep v o) := by
  unfold rows at *
  rw [List.getElem?_succ_scanl, hv, ho]
  rfl

theorem rows_take (M : Iface K O n) (seq : List O) (k : ℕ) : (M.rows seq).take (k+1) = M.rows (seq.take k) := by
  unfold rows
  rw [List.take_scanl]

theorem update_fold (M : Iface K O n) (seq : List O) (m c : ℕ) (hc : c + m = seq.length) (al : List (Fin n → K))
    (hl : al.length = seq.length + 1) (hal : ∀ i ≤ c, al[i]? = (M.rows seq)[i]?) :
    (List.range' c m).foldl (M.updateRow seq) al = M.rows seq := by
  induction m generalizing c al with
  | zero =>
    simp only [List.range'_zero, List.foldl_nil]
    apply List.ext_getElem?
    intro i
    by_cases hi : i ≤ c
    · exact hal i hi
    · rw [List.getElem?_eq_none (by omega), List.getElem?_eq_none (by rw [rows_length]; omega)]
  | succ m ih =>
    rw [List.range'_succ, List.foldl_cons]
    obtain ⟨v, hv⟩ : ∃ v, (M.rows seq)[c]? = some v :=
      ⟨_, List.getElem?_eq_getElem (by rw [rows_length]; omega)⟩
    obtain ⟨o, ho⟩ : ∃ o, seq[c]? = some o := ⟨_, List.getElem?_eq_getElem (by omega)⟩
    have hu : M.updateRow seq al c = al.set (c+1) (M.fwdStep v o) := by
      unfold updateRow
      rw [hal c le_rfl, hv, ho]
    rw [hu]
    apply ih (c+1) (by omega)
    · simpa using hl
    · intro i hi
      by_cases h1 : i = c + 1
      · subst h1
        rw [rows_succ M seq c v o hv ho, List.getElem?_set_self (by omega)]
      · rw [List.getElem?_set_ne (by omega)]
        exact hal i (by omega)

theorem resize_length (len : ℕ) (al : List (Fin n → K)) : (resize len al).length = len + 1 := by
  unfold resize
  split_ifs with h
  · simp; omega
  · simp; omega

theorem resize_getElem? (len : ℕ) (al : List (Fin n → K)) (i : ℕ) (h : i < al.length) (h' : i < len + 1) :
    (resize len al)[i]? = al[i]? := by
  unfold resize
  split_ifs with hl
  · rw [List.getElem?_append_left h]
  · rw [List.getElem?_take_of_lt h']

/-- `_updateAlphaMatrix` computes the forward table of the new sequence whenever the first `common+1` rows are right. -/
theorem updateAlphaMatrix_eq (M : Iface K O n) (seq : List O) (c : ℕ) (hc : c ≤ seq.length) (al : List (Fin n → K))
    (hlen : c < al.length) (hal : ∀ i ≤ c, al[i]? = (M.rows seq)[i]?) : M.updateAlphaMatrix seq c al = M.rows seq := by
  unfold updateAlphaMatrix
  apply update_fold M seq _ c (by omega) _ (resize_length _ _)
  intro i hi
  rw [resize_getElem? _ _ _ (by omega) (by omega), hal i hi]

theorem commonPrefix_spec [DecidableEq O] (p q : List O) :
    commonPrefix p q ≤ p.length ∧ commonPrefix p q ≤ q.length ∧ p.take (commonPrefix p q) = q.take (commonPrefix p q) := by
  fun_induction commonPrefix p q with
  | case1 a as b bs h => simp
  | case2 a as b bs h ih => simp at h; simp [ih, h]
  | case3 p q h => simp

theorem update_next [DecidableEq O] (M : Iface K O n) (p seq : List O) :
    M.updateAlphaMatrix seq (commonPrefix p seq) (M.rows p) = M.rows seq := by
  obtain ⟨h1, h2, h3⟩ := commonPrefix_spec p seq
  apply updateAlphaMatrix_eq M seq _ h2 _ (by rw [rows_length]; omega)
  intro i hi
  have e : (M.rows p).take (commonPrefix p seq + 1) = (M.rows seq).take (commonPrefix p seq + 1) := by
    rw [rows_take, rows_take, h3]
  have := congrArg (fun l => l[i]?) e
  simpa [List.getElem?_take_of_lt (show i < commonPrefix p seq + 1 by omega)] using this

theorem update_first (M : Iface K O n) (s0 seq : List O) :
    M.updateAlphaMatrix seq 0 (M.initAlphaMatrix s0.length) = M.rows seq := by
  apply updateAlphaMatrix_eq M seq 0 (by omega) _ (by simp [initAlphaMatrix])
  intro i hi
  have : i = 0 := by omega
  subst this
  cases seq <;> simp [initAlphaMatrix, rows]

theorem rows_last (M : Iface K O n) (seq : List O) : (M.rows seq).getLast?.getD (fun _ => 0) = seq.foldl M.fwdStep M.init := by
  unfold rows
  rw [List.getLast?_scanl]
  rfl

/-- With rows of sum 1, summing the last row of the table gives the probability of the sequence. -/
theorem foldl_sum_eq_seqLoop (M : Iface K O n) (a : Fin n → Fin n → K) (h : ∀ s s' o, M.tau s s' o = a s s' * M.b s o)
    (ha : ∀ s, ∑ s', a s s' = 1) (o : O) (os : List O) (v : Fin n → K) :
    ∑ s, (o :: os).foldl M.fwdStep v s = ∑ s, M.seqLoop v o os s := by
  induction os generalizing v o with
  | nil =>
    simp only [List.foldl_cons, List.foldl_nil, fwdStep, seqLoop]
    rw [Finset.sum_comm]
    apply Finset.sum_congr rfl
    intro s _
    simp only [h]
    have : ∀ x, v s * (a s x * M.b s o) = (v s * M.b s o) * a s x := fun x => by ring
    rw [Finset.sum_congr rfl (fun x _ => this x), ← Finset.mul_sum, ha, mul_one]
  | cons o' os ih => exact ih o' (M.fwdStep v o)

theorem oneprocLoop_eq [DecidableEq O] (M : Iface ℝ O n) (l : List (List O × ℕ)) (p : List O) (ll : ℝ) :
    M.oneprocLoop l (some p) (M.rows p) ll
      = ll + (l.map (fun q => if 0 < ∑ s, q.1.foldl M.fwdStep M.init s
          then Real.log (∑ s, q.1.foldl M.fwdStep M.init s) * q.2 else 0)).sum := by
  induction l generalizing p ll with
  | nil => simp [oneprocLoop]
  | cons q l ih =>
    obtain ⟨seq, t⟩ := q
    simp only [oneprocLoop, List.map_cons, List.sum_cons]
    rw [update_next, ih, rows_last]
    split_ifs <;> ring

end Iface
end Jajapy
