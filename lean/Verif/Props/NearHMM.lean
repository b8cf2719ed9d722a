import Verif.Props.Near

/-!
Property C110, hidden Markov models.
-/

set_option linter.unusedSectionVars false
set_option autoImplicit false

namespace Jajapy

open Spec BW

namespace HMM
variable {L : Type} [DecidableEq L] {n : ℕ} {c : ℝ} {M M' : HMM ℝ L n}

theorem Near.b (h : Near c M M') (hn : M.alphabet.Nodup) (s : Fin n) (o : L) : Spec.Near c (M.b s o) (M'.b s o) := by
  rw [M.b_eq_emit hn, M'.b_eq_emit (h.alphabet.nodup_iff.2 hn)]
  exact h.emit s o

theorem Near.tau (hc : 1 ≤ c) (h : Near c M M') (hn : M.alphabet.Nodup) (s t : Fin n) (o : L) : Spec.Near (c ^ 2) (M.tau s t o) (M'.tau s t o) := by
  unfold HMM.tau
  rw [pow_two]
  exact (h.matrix s t).mul (h.b hn s o) (zero_le_one.trans hc)

/-- C110, hidden Markov model: a trace of `k` symbols uses one initial probability, `k-1` transitions and `k` emissions. -/
theorem likelihood_near (hc : 1 ≤ c) (h : Near c M M') (hn : M.alphabet.Nodup) (w : List L) (hw : w ≠ []) :
    Spec.Near (c ^ (2 * w.length)) (M.lik w) (M'.lik w) := by
  have h1 : ∀ (M : HMM ℝ L n), M.alphabet.Nodup → ∀ o os, M.lik (o :: os) = ∑ s, M.iface.seqLoop M.iface.init o os s := by
    intro M hn o os
    have := M.seqProb_eq_paths (o :: os) (by simp)
    rw [Iface.seqProb] at this
    have hb : M.b = M.emit := by
      funext s o
      exact M.b_eq_emit hn s o
    rw [hb] at this
    exact (Except.ok.inj this).symm
  cases w with
  | nil => exact absurd rfl hw
  | cons o os =>
    rw [h1 M hn, h1 M' (h.alphabet.nodup_iff.2 hn)]
    refine Spec.Near.sum _ _ _ (fun s _ => ?_)
    have := Iface.seqLoop_near (M := M.iface) (M' := M'.iface) (one_le_pow₀ hc) (h.tau hc hn) (h.b hn) hc os o (zero_le_one.trans hc) _ _ h.initial s
    refine this.mono (le_of_eq ?_)
    rw [List.length_cons, ← pow_mul]
    ring

/-- C110, hidden Markov model: the log-likelihood of a set. -/
theorem logLikelihood_near (hc : 1 ≤ c) (h : Near c M M') (hn : M.alphabet.Nodup) (cpus : ℕ) (h2 : 2 ≤ cpus) (S : TSet L)
    (hlen : S.times.length = S.sequences.length) (hne : ∀ w ∈ S.sequences, w ≠ []) :
    ∃ x x', M.iface.logLikelihoodMultiproc cpus S = .ok x ∧ M'.iface.logLikelihoodMultiproc cpus S = .ok x' ∧
      |x - x'| ≤ 2 * symbols S * Real.log c / (S.times.sum : ℕ) := by
  have e : ∀ M : HMM ℝ L n, M.alphabet.Nodup → M.iface.logLikelihoodMultiproc cpus S = .ok (avgLogLik M.lik S) := by
    intro M hn
    rw [M.logLikelihood_spec cpus h2 S hne]
    have hb : M.b = M.emit := by
      funext s o
      exact M.b_eq_emit hn s o
    rw [hb]
    rfl
  refine ⟨_, _, e M hn, e M' (h.alphabet.nodup_iff.2 hn), ?_⟩
  have := avgLogLik_near_pow M.lik M'.lik c hc 2 0 S hlen (fun w hw => by simpa using likelihood_near hc h hn w (hne w hw))
  simp only [Nat.cast_zero, zero_mul, add_zero, Nat.cast_ofNat] at this
  exact this

/-- C110 for `_logLikelihood_oneproc`. -/
theorem oneproc_near {L : Type} [LinearOrder L] {M M' : HMM ℝ L n} (hc : 1 ≤ c) (h : Near c M M') (hn : M.alphabet.Nodup) (S : TSet L) (h0 : S.sequences ≠ [])
    (hlen : S.times.length = S.sequences.length) : ∃ x x', M.iface.logLikelihoodOneproc S = .ok x ∧ M'.iface.logLikelihoodOneproc S = .ok x' ∧
      |x - x'| ≤ (2 * symbols S + (S.times.sum : ℕ)) * Real.log c / (S.times.sum : ℕ) := by
  refine ⟨_, _, M.iface.oneproc_eq (fun w => ∑ s, w.foldl M.iface.fwdStep M.iface.init s) S h0 hlen (fun _ _ => rfl),
    M'.iface.oneproc_eq (fun w => ∑ s, w.foldl M'.iface.fwdStep M'.iface.init s) S h0 hlen (fun _ _ => rfl), ?_⟩
  have := avgLogLik_near_pow (fun w => ∑ s, w.foldl M.iface.fwdStep M.iface.init s) (fun w => ∑ s, w.foldl M'.iface.fwdStep M'.iface.init s) c hc 2 1 S hlen
    (fun w _ => Spec.Near.sum _ _ _ (fun s _ => by
      have := foldl_near (κ := fun _ => c ^ 2) (fun _ => one_le_pow₀ hc) (h.tau hc hn) w (zero_le_one.trans hc) _ _ h.initial s
      rw [List.map_const', List.prod_replicate, ← pow_mul, ← pow_succ'] at this
      exact this))
  simpa using this

/-- The results of the workers agree up to a factor. -/
def WorkNear (B : ℝ) (A A' : List L) (w : WorkHMM ℝ n A.length) (w' : WorkHMM ℝ n A'.length) : Prop :=
  (∀ s, Spec.Near B (w.den s) (w'.den s)) ∧ (∀ s t, Spec.Near B (w.numA s t) (w'.numA s t)) ∧
  (∀ s, Spec.Near B (w.numInit s) (w'.numInit s)) ∧
  (∀ s (i : Fin A.length) (i' : Fin A'.length), A'[i'] = A[i] → Spec.Near B (w.numB s i) (w'.numB s i'))

/-- C110, hidden Markov model, one iteration of the learning. -/
theorem step_near (hc : 1 ≤ c) (h : Near c M M') (hn : M.alphabet.Nodup) (processes : ℕ) (S : TSet L) (T : ℕ) (hT : ∀ w ∈ S.sequences, w.length ≤ T) :
    SameOutcome (fun a b => Near (c ^ (4 * (2 * T + 1))) a.1 b.1 ∧ a.1.alphabet = M.alphabet) (stepHMM processes S M) (stepHMM processes S M') := by
  have hc0 := zero_le_one.trans hc
  have hc2 : ∀ o : L, 1 ≤ c ^ 2 := fun _ => one_le_pow₀ hc
  have ht := h.tau hc hn
  have hn' : M'.alphabet.Nodup := h.alphabet.nodup_iff.2 hn
  have hp : ∀ k : ℕ, 0 ≤ c ^ k := fun k => pow_nonneg hc0 k
  unfold stepHMM workHMM
  refine SameOutcome.bind (R := List.Forall₂ (WorkNear (c ^ (2 * (2 * T + 1))) M.alphabet M'.alphabet)) (collect_same _ _ ?_) ?_
  · rw [List.forall₂_map_left_iff, List.forall₂_map_right_iff]
    refine List.forall₂_same.2 (fun p hpS => ?_)
    have hl := lastSum_near (κ := fun _ => c ^ 2) hc2 ht hc0 p.1 _ _ h.initial
    rw [List.map_const', List.prod_replicate, ← pow_mul, ← pow_succ'] at hl
    have hlT : p.1.length ≤ T := hT _ (List.of_mem_zip hpS).1
    unfold processWorkHMM
    dsimp only
    by_cases h0 : lastSum (alphas M.tau M.initialState p.1) = 0
    · rw [if_pos h0, if_pos (hl.eq_zero.1 h0)]
      exact Option.Rel.none
    · rw [if_neg h0, if_neg (fun h1 => h0 (hl.eq_zero.2 h1))]
      have hC := (Spec.Near.refl (Nat.cast_nonneg (α := ℝ) p.2) le_rfl).div hl zero_le_one
      rw [one_mul] at hC
      have hpow : c * (p.1.map (fun _ => c ^ 2)).prod * c ^ (2 * p.1.length + 1) ≤ c ^ (2 * (2 * T + 1)) := by
        rw [List.map_const', List.prod_replicate, ← pow_mul, ← pow_succ', ← pow_add]
        exact pow_le_pow_right₀ hc (by omega)
      refine Option.Rel.some ⟨fun s => ?_, fun s t => ?_, fun s => ?_, fun s i i' hi => ?_⟩
      · exact (visits_near (κ := fun _ => c ^ 2) hc2 ht (fun _ => 1) hC (fun _ => 1) (fun _ => 1)
          (fun _ => Spec.Near.refl zero_le_one le_rfl) p.1 (fun _ _ => zero_le_one) s hc0 _ _ h.initial).mono hpow
      · exact (uses_near (κ := fun _ => c ^ 2) hc2 ht (fun _ => 1) hC (fun _ => 1) (fun _ => 1)
          (fun _ => Spec.Near.refl zero_le_one le_rfl) p.1 (fun _ _ => zero_le_one) s t hc0 _ _ h.initial).mono hpow
      · dsimp only
        rw [alphas_headD, alphas_headD, betas_headD, betas_headD, mul_div_assoc, mul_div_assoc]
        exact (((h.initial s).mul (beta0_near (κ := fun _ => c ^ 2) hc2 ht p.1 (fun _ => 1) (fun _ => 1) (fun _ => Spec.Near.refl zero_le_one le_rfl) s) hc0).mul hC
          (mul_nonneg hc0 (zero_le_one.trans (one_le_prod hc2 _)))).mono hpow
      · dsimp only
        rw [hi]
        exact (visits_near (κ := fun _ => c ^ 2) hc2 ht _ hC (fun _ => 1) (fun _ => 1)
          (fun _ => Spec.Near.refl zero_le_one le_rfl) p.1 (fun _ _ => by split_ifs <;> norm_num) s hc0 _ _ h.initial).mono hpow
  · intro l l' hl
    have hden : ∀ s, Spec.Near (c ^ (2 * (2 * T + 1))) (l.map (fun w => w.den s)).sum (l'.map (fun w => w.den s)).sum :=
      fun s => Spec.Near.listSum (hl.imp (fun a b hab => hab.1 s))
    have hle : c ≤ c ^ (4 * (2 * T + 1)) := le_self_pow₀ hc (by omega)
    have hpw : c ^ (2 * (2 * T + 1)) * c ^ (2 * (2 * T + 1)) = c ^ (4 * (2 * T + 1)) := by
      rw [← pow_add]
      congr 1
      ring
    refine ⟨⟨h.alphabet, fun s t => ?_, fun s o => ?_, fun s => ?_⟩, rfl⟩
    · simp only [updateHMM]
      by_cases h0 : (l.map (fun w => w.den s)).sum = 0
      · rw [if_pos h0, if_pos ((hden s).eq_zero.1 h0)]
        exact (h.matrix s t).mono hle
      · rw [if_neg h0, if_neg (fun h1 => h0 ((hden s).eq_zero.2 h1))]
        exact ((Spec.Near.listSum (hl.imp (fun a b hab => hab.2.1 s t))).div (hden s) (hp _)).mono (le_of_eq hpw)
    · have e1 : (updateHMM M' l').emit s o = (updateHMM M' l').b s o := ((updateHMM M' l').b_eq_emit hn' _ _).symm
      have e2 : (updateHMM M l).emit s o = (updateHMM M l).b s o := ((updateHMM M l).b_eq_emit hn _ _).symm
      rw [e1, e2]
      have hb := h.b hn s o
      unfold HMM.b at hb ⊢
      simp only [updateHMM]
      by_cases ho : o ∈ M.alphabet
      · have ho' : o ∈ M'.alphabet := h.alphabet.mem_iff.2 ho
        rw [dif_pos ho, dif_pos ho'] at hb ⊢
        by_cases h0 : (l.map (fun w => w.den s)).sum = 0
        · rw [if_pos h0, if_pos ((hden s).eq_zero.1 h0)]
          exact hb.mono hle
        · rw [if_neg h0, if_neg (fun h1 => h0 ((hden s).eq_zero.2 h1))]
          exact ((Spec.Near.listSum (hl.imp (fun a b hab => hab.2.2.2 s _ _ (by simp)))).div (hden s) (hp _)).mono (le_of_eq hpw)
      · have ho' : o ∉ M'.alphabet := fun hc => ho (h.alphabet.mem_iff.1 hc)
        rw [dif_neg ho, dif_neg ho']
        exact Spec.Near.zero
    · simp only [updateHMM]
      have hi : ∀ s, Spec.Near (c ^ (2 * (2 * T + 1))) (l.map (fun w => w.numInit s)).sum (l'.map (fun w => w.numInit s)).sum :=
        fun s => Spec.Near.listSum (hl.imp (fun a b hab => hab.2.2.1 s))
      exact ((hi s).div (Spec.Near.sum _ _ _ (fun t _ => hi t)) (hp _)).mono (le_of_eq hpw)

/-- C110, hidden Markov model, any number of iterations. -/
theorem rounds_near (processes : ℕ) (S : TSet L) (T : ℕ) (hT : ∀ w ∈ S.sequences, w.length ≤ T) (k : ℕ) : ∀ {c : ℝ}, 1 ≤ c → ∀ {M M' : HMM ℝ L n}, Near c M M' →
    M.alphabet.Nodup → SameOutcome (Near (c ^ ((4 * (2 * T + 1)) ^ k))) (rounds (stepHMM processes S) k M) (rounds (stepHMM processes S) k M') := by
  induction k with
  | zero =>
    intro c _ M M' h _
    rw [pow_zero, pow_one]
    exact h
  | succ k ih =>
    intro c hc M M' h hn
    refine SameOutcome.bind (step_near hc h hn processes S T hT) (fun a b hab => ?_)
    have := ih (one_le_pow₀ hc) hab.1 (by rw [hab.2]; exact hn)
    rwa [← pow_mul, ← pow_succ'] at this

end HMM
end Jajapy
