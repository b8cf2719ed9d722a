import Mathlib.Tactic.Linarith
import Verif.Lemmas.Paths
import Verif.Lemmas.TSet
import Verif.Props.TSet

set_option linter.unusedSectionVars false

namespace Jajapy

open Finset Spec

theorem List.mapM_ok {α β : Type} (f : α → Py β) (g : α → β) (l : List α) (h : ∀ x ∈ l, f x = .ok (g x)) :
    l.mapM f = .ok (l.map g) := by
  induction l with
  | nil => rfl
  | cons x l ih =>
    rw [List.mapM_cons, h x (by simp), ih (fun y hy => h y (by simp [hy]))]
    rfl

theorem list_nonpos (l : List ℝ) (h : ∀ x ∈ l, x ≤ 0) : l.sum ≤ 0 ∧ (l.sum = 0 → ∀ x ∈ l, x = 0) := by
  induction l with
  | nil => simp
  | cons y l ih =>
    obtain ⟨h1, h2⟩ := ih (fun x hx => h x (by simp [hx]))
    have hy := h y (by simp)
    rw [List.sum_cons]
    refine ⟨by linarith, fun h0 => ?_⟩
    intro x hx
    rcases List.mem_cons.1 hx with rfl | hx
    · linarith
    · exact h2 (by linarith) x hx

namespace Iface

variable {O : Type} {n : ℕ}

theorem multiproc_eq (M : Iface ℝ O n) (P : List O → ℝ) (cpus : ℕ) (hc : 2 ≤ cpus) (S : TSet O)
    (h : ∀ w ∈ S.sequences, M.seqProb w = .ok (P w)) :
    M.logLikelihoodMultiproc cpus S = .ok (avgLogLik P S) := by
  unfold logLikelihoodMultiproc
  rw [if_neg (by omega)]
  rw [List.mapM_ok _ (fun p : List O × ℕ => if 0 < P p.1 then some (Real.log (P p.1) * p.2) else none)]
  swap
  · intro p hp
    simp only [computeAlphas, h p.1 (List.of_mem_zip hp).1]
    rfl
  simp only [bind, Except.bind, pure, Except.pure]
  have e : ((((S.sequences.zip S.times).map (fun p : List O × ℕ => if 0 < P p.1 then some (Real.log (P p.1) * p.2) else none)).filterMap
keepResult).sum : ℝ)
      = (((S.sequences.zip S.times).filter (fun p => 0 < P p.1)).map (fun p => p.2 * Real.log (P p.1))).sum := by
    induction S.sequences.zip S.times with
    | nil => simp
    | cons q l ih =>
      rw [List.map_cons, List.filterMap_cons, List.filter_cons]
      by_cases hq : 0 < P q.1
      · simp only [hq, if_true, decide_true, keepResult]
        by_cases h0 : Real.log (P q.1) * q.2 ≠ 0
        · simp only [if_pos h0, List.sum_cons, ih, List.map_cons]
          ring
        · simp only [if_neg h0, ih, List.map_cons, List.sum_cons]
          push Not at h0
          rw [mul_comm] at h0
          rw [h0, zero_add]
      · simp only [hq, if_false, decide_false, ih, keepResult]
        simp
  rw [e]
  unfold avgLogLik
  congr 1
  split_ifs with h0
  · rw [h0]; simp
  · rfl

theorem oneproc_eq [LinearOrder O] (M : Iface ℝ O n) (P : List O → ℝ) (S : TSet O) (hne : S.sequences ≠ [])
    (hlen : S.times.length = S.sequences.length)
    (h : ∀ w ∈ S.sequences, ∑ s, w.foldl M.fwdStep M.init s = P w) :
    M.logLikelihoodOneproc S = .ok (avgLogLik P S) := by
  obtain ⟨hp, -, -, hl⟩ := TSet.sort_spec S
  have hz : S.sort.sequences.zip S.sort.times ≠ [] := by
    intro h0
    rw [h0] at hp
    have := hp.length_eq
    rw [List.length_zip, hlen] at this
    simp at this
    exact hne (List.length_eq_zero_iff.1 this.symm)
  have htimes : S.sort.times.sum = S.times.sum := by
    have := (hp.map Prod.snd).sum_eq
    rwa [List.map_snd_zip (by omega), List.map_snd_zip (by omega)] at this
  unfold logLikelihoodOneproc
  cases hs : S.sort.sequences with
  | nil => rw [hs] at hz; simp at hz
  | cons s0 rest =>
    have hs0 : S.sort.sequences.zip S.sort.times = (s0 :: rest).zip S.sort.times := by rw [hs]
    simp only [hs, htimes]
    rw [← hs0]
    cases ht : S.sort.times with
    | nil => rw [hs, ht] at hl; simp at hl
    | cons t0 trest =>
      rw [← ht]
      unfold avgLogLik
      congr 2
      have e1 : M.oneprocLoop (S.sort.sequences.zip S.sort.times) none (M.initAlphaMatrix s0.length) 0
          = ((S.sort.sequences.zip S.sort.times).map (fun q => if 0 < ∑ s, q.1.foldl M.fwdStep M.init s
          then Real.log (∑ s, q.1.foldl M.fwdStep M.init s) * q.2 else 0)).sum := by
        rw [hs, ht, List.zip_cons_cons]
        simp only [oneprocLoop, List.map_cons, List.sum_cons]
        rw [update_first, oneprocLoop_eq, rows_last, zero_add]
      rw [e1, (hp.map _).sum_eq]
      have h' : ∀ q ∈ S.sequences.zip S.times, ∑ s, q.1.foldl M.fwdStep M.init s = P q.1 :=
        fun q hq => h q.1 (List.of_mem_zip hq).1
      clear e1 hp hz hs0
      generalize S.sequences.zip S.times = z at h' ⊢
      induction z with
      | nil => simp
      | cons q l ih =>
        rw [List.map_cons, List.sum_cons, ih (fun q hq => h' q (by simp [hq])), List.filter_cons, h' q (by simp)]
        by_cases hq : 0 < P q.1
        · simp [hq, mul_comm]
        · simp [hq]

end Iface

/-! ### sums over the entries of a set -/

namespace TSet
variable {O : Type} [DecidableEq O]

theorem sum_zip_eq (S : TSet O) (hlen : S.times.length = S.sequences.length) (f : List O → ℝ) (F : Finset (List O))
    (hF : ∀ w ∈ S.sequences, w ∈ F) :
    ((S.sequences.zip S.times).map (fun p => (p.2 : ℝ) * f p.1)).sum = ∑ w ∈ F, (S.mult w : ℝ) * f w := by
  unfold mult
  revert hF
  generalize S.sequences = seqs at *
  generalize S.times = times at *
  intro hF
  induction seqs generalizing times with
  | nil => simp
  | cons s seqs ih =>
    cases times with
    | nil => simp at hlen
    | cons t times =>
      rw [List.zip_cons_cons, List.map_cons, List.sum_cons, ih times (by simpa using hlen) (fun w hw => hF w (by simp [hw]))]
      have h2 : ∀ w, ((((((s, t) :: seqs.zip times).filter (fun p => p.1 = w)).map (·.2)).sum : ℕ) : ℝ) * f w
          = (if s = w then (t : ℝ) * f w else 0) +
            (((((seqs.zip times).filter (fun p => p.1 = w)).map (·.2)).sum : ℕ) : ℝ) * f w := by
        intro w
        by_cases h : s = w <;> simp [List.filter_cons, h, add_mul]
      rw [Finset.sum_congr rfl (fun w _ => h2 w), Finset.sum_add_distrib]
      congr 1
      rw [Finset.sum_ite_eq, if_pos (hF s (by simp))]

theorem sum_times_eq (S : TSet O) (hlen : S.times.length = S.sequences.length) (F : Finset (List O))
    (hF : ∀ w ∈ S.sequences, w ∈ F) : ((S.times.sum : ℕ) : ℝ) = ∑ w ∈ F, (S.mult w : ℝ) := by
  have := sum_zip_eq S hlen (fun _ => 1) F hF
  simp only [mul_one] at this
  rw [← this, Nat.cast_list_sum]
  have e : (S.sequences.zip S.times).map (fun p => (p.2 : ℝ)) = ((S.sequences.zip S.times).map Prod.snd).map Nat.cast := by
    rw [List.map_map]; rfl
  rw [e, List.map_snd_zip (by omega)]

open Classical in
theorem avgLogLik_eq (P : List O → ℝ) (S : TSet O) (hlen : S.times.length = S.sequences.length) (F : Finset (List O))
    (hF : ∀ w ∈ S.sequences, w ∈ F) :
    avgLogLik P S = (∑ w ∈ F, (S.mult w : ℝ) * (if 0 < P w then Real.log (P w) else 0)) / ∑ w ∈ F, (S.mult w : ℝ) := by
  rw [← sum_times_eq S hlen F hF, ← sum_zip_eq S hlen _ F hF]
  unfold avgLogLik
  congr 1
  induction S.sequences.zip S.times with
  | nil => simp
  | cons q l ih =>
    rw [List.filter_cons, List.map_cons, List.sum_cons, ← ih]
    by_cases h : 0 < P q.1 <;> simp [h]

end TSet
end Jajapy
