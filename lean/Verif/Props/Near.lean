import Verif.Lemmas.Near
import Verif.Props.Folding

/-!
Property C110: small relative errors of the parameters change likelihoods and learnt models only a little.
-/

set_option linter.unusedSectionVars false
set_option autoImplicit false

namespace Jajapy

open Spec BW

/-! ### Sets of traces -/

theorem avgLogLik_near {O : Type} (P P' : List O → ℝ) (C : List O → ℝ) (hC : ∀ w, 1 ≤ C w) (S : TSet O)
    (h : ∀ w ∈ S.sequences, Spec.Near (C w) (P w) (P' w)) :
    |avgLogLik P S - avgLogLik P' S| ≤ ((S.sequences.zip S.times).map (fun p => p.2 * Real.log (C p.1))).sum / (S.times.sum : ℕ) := by
  classical
  unfold avgLogLik
  rw [← sub_div, abs_div, abs_of_nonneg (Nat.cast_nonneg (α := ℝ) S.times.sum)]
  refine div_le_div_of_nonneg_right ?_ (Nat.cast_nonneg _)
  have hz : ∀ p ∈ S.sequences.zip S.times, Spec.Near (C p.1) (P p.1) (P' p.1) := fun p hp => h p.1 (List.of_mem_zip hp).1
  generalize S.sequences.zip S.times = l at hz
  induction l with
  | nil => simp
  | cons p l ih =>
    have h1 := ih (fun q hq => hz q (List.mem_cons_of_mem _ hq))
    have h2 := hz p List.mem_cons_self
    have h3 : 0 ≤ (p.2 : ℝ) * Real.log (C p.1) := mul_nonneg (Nat.cast_nonneg _) (Real.log_nonneg (hC _))
    by_cases hp : 0 < P p.1
    · have hp' := h2.pos.1 hp
      have h4 : |(p.2 : ℝ) * Real.log (P p.1) - p.2 * Real.log (P' p.1)| ≤ p.2 * Real.log (C p.1) := by
        rw [← mul_sub, abs_mul, abs_of_nonneg (Nat.cast_nonneg (α := ℝ) p.2)]
        exact mul_le_mul_of_nonneg_left (h2.log hp) (Nat.cast_nonneg _)
      rw [List.filter_cons_of_pos (by simpa using hp), List.filter_cons_of_pos (by simpa using hp'), List.map_cons, List.map_cons, List.map_cons,
        List.sum_cons, List.sum_cons, List.sum_cons]
      refine le_trans (le_of_eq ?_) ((abs_add_le _ _).trans (add_le_add h4 h1))
      congr 1
      ring
    · have hp' : ¬ 0 < P' p.1 := fun h0 => hp (h2.pos.2 h0)
      rw [List.filter_cons_of_neg (by simpa using hp), List.filter_cons_of_neg (by simpa using hp'), List.map_cons, List.sum_cons]
      linarith

theorem avgLogLik_near_pow {O : Type} (P P' : List O → ℝ) (c : ℝ) (hc : 1 ≤ c) (a b : ℕ) (S : TSet O) (hlen : S.times.length = S.sequences.length)
    (h : ∀ w ∈ S.sequences, Spec.Near (c ^ (a * w.length + b)) (P w) (P' w)) :
    |avgLogLik P S - avgLogLik P' S| ≤ (a * symbols S + b * (S.times.sum : ℕ)) * Real.log c / (S.times.sum : ℕ) := by
  refine (avgLogLik_near P P' (fun w => c ^ (a * w.length + b)) (fun w => one_le_pow₀ hc) S h).trans (le_of_eq ?_)
  congr 1
  have : (S.times.sum : ℕ) = ((S.sequences.zip S.times).map (fun p => p.2)).sum := by
    have h2 : (S.sequences.zip S.times).map (fun p => p.2) = S.times := List.map_snd_zip (by omega)
    rw [h2]
  rw [this]
  unfold symbols
  generalize S.sequences.zip S.times = l
  induction l with
  | nil => simp
  | cons p l ih =>
    simp only [List.map_cons, List.sum_cons, Real.log_pow, Nat.cast_add, Nat.cast_mul] at ih ⊢
    rw [ih]
    ring

theorem exists_length_bound {O : Type} (S : TSet O) : ∃ T, ∀ w ∈ S.sequences, w.length ≤ T :=
  ⟨(S.sequences.map List.length).sum, fun w hw => List.single_le_sum (by simp) _ (List.mem_map_of_mem hw)⟩

theorem exists_root (e : ℝ) (he : 1 < e) (N : ℕ) : ∃ c, 1 < c ∧ c ^ N ≤ e := by
  refine ⟨Real.exp (Real.log e / (N + 1)), ?_, ?_⟩
  · rw [Real.one_lt_exp_iff]
    exact div_pos (Real.log_pos he) (by positivity)
  · rw [← Real.exp_nat_mul]
    calc Real.exp (N * (Real.log e / (N + 1))) ≤ Real.exp (Real.log e) := by
          rw [Real.exp_le_exp]
          have h0 := Real.log_pos he
          rw [mul_div_assoc', div_le_iff₀ (by positivity)]
          nlinarith
      _ = e := Real.exp_log (by linarith)

/-! ### The abstract class -/

namespace Iface
variable {O : Type} {n : ℕ} {c d : ℝ} (hc : 1 ≤ c) {M M' : Iface ℝ O n} (ht : ∀ s t o, Spec.Near c (M.tau s t o) (M'.tau s t o))
  (hb : ∀ s o, Spec.Near d (M.b s o) (M'.b s o)) (hd : 1 ≤ d)

include hc ht hb hd in
theorem seqLoop_near (os : List O) : ∀ (o : O) {a : ℝ}, 0 ≤ a → ∀ (v v' : Fin n → ℝ), (∀ s, Spec.Near a (v s) (v' s)) → ∀ s,
    Spec.Near (a * c ^ os.length * d) (M.seqLoop v o os s) (M'.seqLoop v' o os s) := by
  induction os with
  | nil =>
    intro o a ha v v' hv s
    simp only [seqLoop, List.length_nil, pow_zero, mul_one]
    exact (hv s).mul (hb s o) ha
  | cons o' os ih =>
    intro o a ha v v' hv s
    rw [seqLoop, seqLoop]
    have h1 : ∀ s, Spec.Near (a * c) (M.fwdStep v o s) (M'.fwdStep v' o s) := fwd_near (κ := fun _ => c) ht ha v v' hv o
    have := ih o' (mul_nonneg ha (zero_le_one.trans hc)) _ _ h1 s
    rwa [List.length_cons, pow_succ', ← mul_assoc]

end Iface

/-! ### Markov chains -/

namespace MC
variable {L : Type} [DecidableEq L] {n : ℕ} {c : ℝ} {M M' : MC ℝ L n}

theorem Near.tau (h : Near c M M') (s t : Fin n) (o : L) : Spec.Near c (M.tau s t o) (M'.tau s t o) := by
  unfold MC.tau
  rw [h.labelling]
  split_ifs
  · exact Spec.Near.zero
  · exact h.matrix s t

theorem Near.b (h : Near c M M') (s : Fin n) (o : L) : Spec.Near 1 (M.b s o) (M'.b s o) := by
  unfold MC.b
  rw [h.labelling]
  split_ifs
  · exact Spec.Near.refl zero_le_one le_rfl
  · exact Spec.Near.refl le_rfl le_rfl

/-- C110, Markov chain: the likelihood of a trace is the same up to the factor `c` for each of its symbols. -/
theorem likelihood_near (hc : 1 ≤ c) (h : Near c M M') (w : List L) (hw : w ≠ []) : Spec.Near (c ^ w.length) (M.lik w) (M'.lik w) := by
  have h1 : ∀ (M : MC ℝ L n) o os, M.lik (o :: os) = ∑ s, M.iface.seqLoop M.iface.init o os s := by
    intro M o os
    have := M.seqProb_eq_paths (o :: os) (by simp)
    rw [Iface.seqProb] at this
    exact (Except.ok.inj this).symm
  cases w with
  | nil => exact absurd rfl hw
  | cons o os =>
    rw [h1, h1]
    refine Spec.Near.sum _ _ _ (fun s _ => ?_)
    have := Iface.seqLoop_near (M := M.iface) (M' := M'.iface) hc h.tau h.b le_rfl os o (zero_le_one.trans hc) _ _ h.initial s
    rwa [mul_one, ← pow_succ', ← List.length_cons (a := o)] at this

/-- C110, Markov chain: the log-likelihood of a set changes by at most `log c` times the mean length of the traces. -/
theorem logLikelihood_near (hc : 1 ≤ c) (h : Near c M M') (cpus : ℕ) (h2 : 2 ≤ cpus) (S : TSet L) (hlen : S.times.length = S.sequences.length)
    (hne : ∀ w ∈ S.sequences, w ≠ []) : ∃ x x', M.iface.logLikelihoodMultiproc cpus S = .ok x ∧ M'.iface.logLikelihoodMultiproc cpus S = .ok x' ∧
      |x - x'| ≤ symbols S * Real.log c / (S.times.sum : ℕ) := by
  refine ⟨_, _, M.logLikelihood_spec cpus h2 S hne, M'.logLikelihood_spec cpus h2 S hne, ?_⟩
  have := avgLogLik_near_pow M.lik M'.lik c hc 1 0 S hlen (fun w hw => by simpa using likelihood_near hc h w (hne w hw))
  simp only [Nat.cast_one, one_mul, Nat.cast_zero, zero_mul, add_zero] at this
  exact this

theorem lastSum_near (hc : 1 ≤ c) (h : Near c M M') (w : List L) :
    Spec.Near (c ^ (w.length + 1)) (lastSum (alphas M.tau M.initialState w)) (lastSum (alphas M'.tau M'.initialState w)) := by
  have := BW.lastSum_near (κ := fun _ => c) (fun _ => hc) h.tau (zero_le_one.trans hc) w _ _ h.initial
  simpa [pow_succ'] using this

/-- The first part of C110 for `_logLikelihood_oneproc`. -/
theorem oneproc_near {L : Type} [LinearOrder L] {M M' : MC ℝ L n} (hc : 1 ≤ c) (h : Near c M M') (S : TSet L) (h0 : S.sequences ≠ [])
    (hlen : S.times.length = S.sequences.length) : ∃ x x', M.iface.logLikelihoodOneproc S = .ok x ∧ M'.iface.logLikelihoodOneproc S = .ok x' ∧
      |x - x'| ≤ (symbols S + (S.times.sum : ℕ)) * Real.log c / (S.times.sum : ℕ) := by
  refine ⟨_, _, M.iface.oneproc_eq (fun w => ∑ s, w.foldl M.iface.fwdStep M.iface.init s) S h0 hlen (fun _ _ => rfl),
    M'.iface.oneproc_eq (fun w => ∑ s, w.foldl M'.iface.fwdStep M'.iface.init s) S h0 hlen (fun _ _ => rfl), ?_⟩
  have := avgLogLik_near_pow (fun w => ∑ s, w.foldl M.iface.fwdStep M.iface.init s) (fun w => ∑ s, w.foldl M'.iface.fwdStep M'.iface.init s) c hc 1 1 S hlen
    (fun w _ => Spec.Near.sum _ _ _ (fun s _ => by
      have := foldl_near (κ := fun _ => c) (fun _ => hc) h.tau w (zero_le_one.trans hc) _ _ h.initial s
      rw [List.map_const', List.prod_replicate, ← pow_succ'] at this
      rw [one_mul]
      exact this))
  simpa using this

/-- C110, Markov chain, one iteration of the learning: it raises the same exception, or the new probabilities are the same up to a factor that
only depends on `c` and on the length `T` of the longest trace, and so is the log-likelihood up to a difference. -/
theorem step_near (hc : 1 ≤ c) (h : Near c M M') (processes : ℕ) (S : TSet L) (T : ℕ) (hT : ∀ w ∈ S.sequences, w.length ≤ T) :
    SameOutcome (fun a b => Near (c ^ (4 * (T + 1))) a.1 b.1) (stepMC processes S M) (stepMC processes S M') := by
  have hc0 := zero_le_one.trans hc
  have hp : ∀ k : ℕ, 0 ≤ c ^ k := fun k => pow_nonneg hc0 k
  unfold stepMC workMC
  refine SameOutcome.bind (R := List.Forall₂ (fun (w w' : WorkMC ℝ n) => (∀ s, Spec.Near (c ^ (2 * (T + 1))) (w.den s) (w'.den s)) ∧
    (∀ s t, Spec.Near (c ^ (2 * (T + 1))) (w.num s t) (w'.num s t)))) (collect_same _ _ ?_) ?_
  · rw [List.forall₂_map_left_iff, List.forall₂_map_right_iff]
    refine List.forall₂_same.2 (fun p hpS => ?_)
    have hl := lastSum_near hc h p.1
    have hlT : p.1.length ≤ T := hT _ (List.of_mem_zip hpS).1
    unfold processWorkMC
    dsimp only
    by_cases h0 : lastSum (alphas M.tau M.initialState p.1) = 0
    · rw [if_pos h0, if_pos (hl.eq_zero.1 h0)]
      exact Option.Rel.none
    · rw [if_neg h0, if_neg (fun h1 => h0 (hl.eq_zero.2 h1))]
      have hC : Spec.Near (c ^ (p.1.length + 1)) ((p.2 : ℝ) / lastSum (alphas M.tau M.initialState p.1))
          ((p.2 : ℝ) / lastSum (alphas M'.tau M'.initialState p.1)) := by
        have := (Spec.Near.refl (Nat.cast_nonneg (α := ℝ) p.2) le_rfl).div hl zero_le_one
        rwa [one_mul] at this
      have hpow : c * (p.1.map (fun _ => c)).prod * c ^ (p.1.length + 1) ≤ c ^ (2 * (T + 1)) := by
        rw [List.map_const', List.prod_replicate, ← pow_succ', ← pow_add]
        exact pow_le_pow_right₀ hc (by omega)
      refine Option.Rel.some ⟨fun s => ?_, fun s t => ?_⟩
      · exact (visits_near (κ := fun _ => c) (fun _ => hc) h.tau (fun _ => 1) hC (fun _ => 1) (fun _ => 1)
          (fun _ => Spec.Near.refl zero_le_one le_rfl) p.1 (fun _ _ => zero_le_one) s hc0 _ _ h.initial).mono hpow
      · exact (uses_near (κ := fun _ => c) (fun _ => hc) h.tau (fun _ => 1) hC (fun _ => 1) (fun _ => 1)
          (fun _ => Spec.Near.refl zero_le_one le_rfl) p.1 (fun _ _ => zero_le_one) s t hc0 _ _ h.initial).mono hpow
  · intro l l' hl
    have hden : ∀ s, Spec.Near (c ^ (2 * (T + 1))) (l.map (fun w => w.den s)).sum (l'.map (fun w => w.den s)).sum :=
      fun s => Spec.Near.listSum (hl.imp (fun a b hab => hab.1 s))
    have hnum : ∀ s t, Spec.Near (c ^ (2 * (T + 1))) (l.map (fun w => w.num s t)).sum (l'.map (fun w => w.num s t)).sum :=
      fun s t => Spec.Near.listSum (hl.imp (fun a b hab => hab.2 s t))
    have hle : c ≤ c ^ (4 * (T + 1)) := by
      calc c = c ^ 1 := (pow_one c).symm
        _ ≤ _ := pow_le_pow_right₀ hc (by omega)
    refine ⟨h.labelling, fun s t => ?_, fun s => (h.initial s).mono hle⟩
    simp only [updateMC]
    by_cases h0 : (l.map (fun w => w.den s)).sum = 0
    · rw [if_pos h0, if_pos ((hden s).eq_zero.1 h0)]
      exact (h.matrix s t).mono hle
    · rw [if_neg h0, if_neg (fun h1 => h0 ((hden s).eq_zero.2 h1))]
      refine ((hnum s t).div (hden s) (hp _)).mono (le_of_eq ?_)
      rw [← pow_add]
      congr 1
      ring

/-- C110, Markov chain, any number of iterations. -/
theorem rounds_near (processes : ℕ) (S : TSet L) (T : ℕ) (hT : ∀ w ∈ S.sequences, w.length ≤ T) (k : ℕ) : ∀ {c : ℝ}, 1 ≤ c → ∀ {M M' : MC ℝ L n}, Near c M M' →
    SameOutcome (Near (c ^ ((4 * (T + 1)) ^ k))) (rounds (stepMC processes S) k M) (rounds (stepMC processes S) k M') := by
  induction k with
  | zero =>
    intro c _ M M' h
    rw [pow_zero, pow_one]
    exact h
  | succ k ih =>
    intro c hc M M' h
    refine SameOutcome.bind (step_near hc h processes S T hT) (fun a b hab => ?_)
    have := ih (one_le_pow₀ hc) hab
    rwa [← pow_mul, ← pow_succ'] at this

/-- C110: after any number of iterations the learnt probabilities are as near as wanted, if the first ones are near enough. -/
theorem rounds_continuous (processes : ℕ) (S : TSet L) (k : ℕ) (e : ℝ) (he : 1 < e) : ∃ c, 1 < c ∧ ∀ M M' : MC ℝ L n, Near c M M' →
    SameOutcome (Near e) (rounds (stepMC processes S) k M) (rounds (stepMC processes S) k M') := by
  obtain ⟨T, hT⟩ : ∃ T, ∀ w ∈ S.sequences, w.length ≤ T := exists_length_bound S
  obtain ⟨c, hc, hce⟩ := exists_root e he ((4 * (T + 1)) ^ k)
  exact ⟨c, hc, fun M M' h => (rounds_near processes S T hT k hc.le h).mono (fun _ _ hab => ⟨hab.labelling, fun s t => (hab.matrix s t).mono hce,
    fun s => (hab.initial s).mono hce⟩)⟩

end MC
end Jajapy
