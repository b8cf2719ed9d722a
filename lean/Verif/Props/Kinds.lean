import Verif.Lemmas.Kinds
import Verif.Lemmas.EM
import Verif.Props.Simulation
import Verif.Props.Renaming
import Verif.Props.BWCTMC

/-!
Property C108: the same process as a Markov chain, as a hidden Markov model, as an MDP with one action, as a CTMC.
-/

set_option autoImplicit false
set_option linter.unusedSectionVars false

namespace Jajapy

open Spec BW

theorem Spec.SameOutcome.andLeft {A A' : Type} {R : A → A' → Prop} {x : Py A} {x' : Py A'} {P : A → Prop} (h : SameOutcome R x x')
    (hp : ∀ a, x = .ok a → P a) : SameOutcome (fun a b => R a b ∧ P a) x x' := by
  cases x <;> cases x'
  · exact h
  · exact h
  · exact h
  · exact ⟨h, hp _ rfl⟩

/-! ### Hidden Markov models -/

namespace MC
variable {L : Type} [DecidableEq L] {n : ℕ}

theorem IsHMM.iface {M : MC ℝ L n} {H : HMM ℝ L n} (h : M.IsHMM H) : H.iface = M.iface := by
  have hb : H.b = M.b := by
    funext s o
    rw [H.b_eq_emit h.alphabet, h.emit]
    rfl
  have ht : H.tau = M.tau := by
    funext s s' o
    unfold HMM.tau MC.tau
    rw [hb, h.matrix]
    unfold MC.b
    by_cases ho : M.labelling s = o
    · simp [ho]
    · simp [ho, Ne.symm ho]
  unfold HMM.iface MC.iface
  rw [hb, ht, funext h.initial]

/-- C108: as a hidden Markov model the chain gives every trace the same likelihood, and `logLikelihood` returns the same value (or raises the same
exception) on every set. -/
theorem likelihood_asHMM (M : MC ℝ L n) (H : HMM ℝ L n) (h : M.IsHMM H) :
    (∀ w, H.iface.seqProb w = M.iface.seqProb w) ∧ ∀ cpus S, H.iface.logLikelihoodMultiproc cpus S = M.iface.logLikelihoodMultiproc cpus S := by
  rw [h.iface]
  exact ⟨fun _ => rfl, fun _ _ => rfl⟩

/-- The same for the computation with one process. -/
theorem oneproc_asHMM {L : Type} [LinearOrder L] (M : MC ℝ L n) (H : HMM ℝ L n) (h : M.IsHMM H) (S : TSet L) :
    H.iface.logLikelihoodOneproc S = M.iface.logLikelihoodOneproc S := by
  rw [h.iface]

theorem IsHMM.output {M : MC ℝ L n} {H : HMM ℝ L n} (h : M.IsHMM H) (s : Fin n) (i : Fin H.alphabet.length) :
    H.output s i = if M.labelling s = H.alphabet[i] then 1 else 0 := by
  rw [← (H.b_spec h.alphabet s).1 i, H.b_eq_emit h.alphabet, h.emit]

theorem IsHMM.label_mem {M : MC ℝ L n} {H : HMM ℝ L n} (h : M.IsHMM H) (s : Fin n) : M.labelling s ∈ H.alphabet := by
  by_contra hc
  have h1 := (H.b_spec h.alphabet s).2 _ hc
  rw [H.b_eq_emit h.alphabet, h.emit] at h1
  simp at h1

theorem IsHMM.output_sum {M : MC ℝ L n} {H : HMM ℝ L n} (h : M.IsHMM H) (s : Fin n) : ∑ i, H.output s i = 1 := by
  have := h.emit s (M.labelling s)
  rw [if_pos rfl] at this
  rw [← this]
  unfold HMM.emit
  refine Finset.sum_congr rfl (fun i _ => ?_)
  rw [h.output]
  by_cases hi : M.labelling s = H.alphabet[i]
  · rw [if_pos hi, if_pos hi.symm]
  · rw [if_neg hi, if_neg (Ne.symm hi)]

/-- C108: the two simulators have the same law: `run(k)` of the chain and `run(k+1)` of the hidden Markov model return each trace with the same
probability. -/
theorem run_asHMM (M : MC ℝ L n) (hM : M.Stochastic) (H : HMM ℝ L n) (h : M.IsHMM H) (k : ℕ) (w : List L) (hw : w.length = k + 1) :
    drawsLaw {d | H.run (k + 1) d = .ok w} = drawsLaw {d | M.run k d = .ok w} := by
  obtain ⟨hi0, hi, h0, hm⟩ := hM
  obtain ⟨p, hp, h1⟩ := M.run_law hi0 hi h0 hm k w hw
  obtain ⟨q, hq, h2⟩ := H.run_law h.alphabet (fun s => by rw [h.initial]; exact hi0 s) (by rw [← hi]; exact Finset.sum_congr rfl (fun s _ => h.initial s))
    (fun s s' => by rw [h.matrix]; exact h0 s s') (fun s => by rw [← hm s]; exact Finset.sum_congr rfl (fun s' _ => h.matrix s s'))
    (fun s i => by rw [h.output]; split_ifs <;> norm_num) h.output_sum (k + 1) (by omega) w hw
  rw [h.iface, hp] at hq
  cases hq
  rw [h1, h2]

/-- The results of the workers agree. -/
def WorkAs (M : MC ℝ L n) (s₀ : Fin n) (A : List L) (w : WorkMC ℝ n) (w' : WorkHMM ℝ n A.length) : Prop :=
  w'.den = w.den ∧ w'.numA = w.num ∧ w'.proba = w.proba ∧ w'.times = w.times ∧ 1 ≤ w.times ∧
  (∀ s i, w'.numB s i = if M.labelling s = A[i] then w.den s else 0) ∧ ∀ s, w'.numInit s = if s = s₀ then (w.times : ℝ) else 0

theorem step_asHMM (processes : ℕ) (S : TSet L) (hS : ∀ t ∈ S.times, 1 ≤ t) (s₀ : Fin n) (M : MC ℝ L n) (H : HMM ℝ L n)
    (h : M.IsHMM H ∧ M.StartsIn s₀) :
    SameOutcome (fun a b => (a.1.IsHMM b.1 ∧ a.1.StartsIn s₀) ∧ b.2 = a.2 + 0) (stepMC processes S M) (stepHMM processes S H) := by
  obtain ⟨h, hs⟩ := h
  have ht : H.tau = M.tau := congrArg Iface.tau h.iface
  have hinit : H.initialState = M.initialState := funext h.initial
  unfold stepMC stepHMM workMC workHMM
  refine SameOutcome.bind (R := fun l l' => List.Forall₂ (WorkAs M s₀ H.alphabet) l l' ∧ l ≠ [])
    (SameOutcome.andLeft (collect_same _ _ ?_) (fun a ha => (collect_ok _ _ _ _ ha).2.1)) ?_
  · rw [List.forall₂_map_left_iff, List.forall₂_map_right_iff]
    refine List.forall₂_same.2 (fun p hp => ?_)
    unfold processWorkMC processWorkHMM
    rw [ht, hinit]
    dsimp only
    split_ifs with h0
    · exact Option.Rel.none
    · refine Option.Rel.some ⟨rfl, rfl, rfl, rfl, hS _ (List.of_mem_zip hp).2, fun s i => ?_, fun s => ?_⟩
      · dsimp only
        rw [visits_own M.labelling (fun s ss o ho => by unfold MC.tau; rw [if_pos ho])]
        split_ifs
        · rw [one_mul]
        · rw [zero_mul]
      · dsimp only
        rw [alphas_headD, betas_headD, hs s]
        split_ifs with hss
        · subst hss
          have : lastSum (alphas M.tau M.initialState p.1) = beta0 M.tau (fun _ => 1) p.1 s := by
            rw [lastSum_eq]
            simp [hs _]
          rw [this] at h0 ⊢
          field_simp
        · simp
  · rintro l l' ⟨hl, hne⟩
    have hden : ∀ s, (l'.map (fun w => w.den s)).sum = (l.map (fun w => w.den s)).sum := fun s => sum_same' hl (fun a b hab => by rw [hab.1])
    have hB : ∀ s i, (l'.map (fun w => w.numB s i)).sum = if M.labelling s = H.alphabet[i] then (l.map (fun w => w.den s)).sum else 0 := by
      intro s i
      split_ifs with hi
      · exact sum_same' hl (fun a b hab => by rw [hab.2.2.2.2.2.1, if_pos hi])
      · rw [sum_same' hl (g := fun _ => 0) (fun a b hab => by rw [hab.2.2.2.2.2.1, if_neg hi])]
        simp
    have hI : ∀ s, (l'.map (fun w => w.numInit s)).sum = if s = s₀ then (l.map (fun w => (w.times : ℝ))).sum else 0 := by
      intro s
      split_ifs with hi
      · exact sum_same' hl (fun a b hab => by rw [hab.2.2.2.2.2.2, if_pos hi])
      · rw [sum_same' hl (g := fun _ => 0) (fun a b hab => by rw [hab.2.2.2.2.2.2, if_neg hi])]
        simp
    have hpos : 0 < (l.map (fun w => (w.times : ℝ))).sum := by
      obtain ⟨w, l, rfl⟩ := List.exists_cons_of_ne_nil hne
      cases hl with
      | cons hab hl =>
        rw [List.map_cons, List.sum_cons]
        have h1 : (1 : ℝ) ≤ w.times := by exact_mod_cast hab.2.2.2.2.1
        have h2 : 0 ≤ (l.map (fun w => (w.times : ℝ))).sum := List.sum_nonneg (by simp)
        linarith
    refine ⟨⟨⟨fun s s' => ?_, fun s => ?_, h.alphabet, fun s o => ?_⟩, hs⟩, ?_⟩
    · simp only [updateHMM, updateMC]
      rw [hden, sum_same' hl (g := fun w => w.num s s') (fun a b hab => by rw [hab.2.1]), h.matrix]
    · simp only [updateHMM, updateMC]
      simp only [hI]
      rw [hs s, Finset.sum_ite_eq' Finset.univ s₀, if_pos (Finset.mem_univ _)]
      split_ifs
      · exact div_self hpos.ne'
      · exact zero_div _
    · have e1 : (updateHMM H l').emit s o = (updateHMM H l').b s o := ((updateHMM H l').b_eq_emit h.alphabet _ _).symm
      rw [e1]
      have hb := congrFun (congrFun (congrArg Iface.b h.iface) s) o
      simp only [HMM.iface, MC.iface, MC.b] at hb
      unfold HMM.b at hb ⊢
      simp only [updateHMM, updateMC]
      by_cases ho : o ∈ H.alphabet
      · rw [dif_pos ho] at hb ⊢
        simp only [hden, hB]
        have he : H.alphabet[(⟨H.alphabet.idxOf o, List.idxOf_lt_length_of_mem ho⟩ : Fin H.alphabet.length)] = o := by simp
        simp only [he]
        by_cases h1 : (l.map (fun w => w.den s)).sum = 0
        · rw [if_pos h1, hb]
        · rw [if_neg h1]
          by_cases h2 : M.labelling s = o
          · rw [if_pos h2, if_pos h2, div_self h1]
          · rw [if_neg h2, if_neg h2, zero_div]
      · rw [dif_neg ho]
        exact (if_neg (fun hc : M.labelling s = o => ho (hc ▸ h.label_mem s))).symm
    · simp only [logLik, List.map_map, add_zero]
      exact sum_same' hl (fun a b hab => by simp [hab.2.2.1, hab.2.2.2.1])

/-- C108: learning the chain as a hidden Markov model gives the same transition probabilities, after the same number of iterations and with the same
reported value, or raises the same exception; the states go on emitting their labels. -/
theorem fit_asHMM (M : MC ℝ L n) (H : HMM ℝ L n) (h : M.IsHMM H) (s₀ : Fin n) (hs : M.StartsIn s₀) (processes : ℕ) (S : TSet L)
    (hS : ∀ t ∈ S.times, 1 ≤ t) (epsilon : ℝ) (maxIt : ℕ) :
    SameOutcome (fun st st' => st.h.IsHMM st'.h ∧ st'.counter = st.counter ∧ st'.ll = st.ll)
      (fit (stepMC processes S) epsilon maxIt M) (fit (stepHMM processes S) epsilon maxIt H) :=
  (fit_same (step_asHMM processes S hS s₀) epsilon maxIt ⟨h, hs⟩).mono (fun _ _ hl => ⟨hl.h.1, hl.counter, by rw [hl.ll]; simp⟩)

end MC

/-! ### CTMCs -/

namespace CTMC
variable {L : Type} [DecidableEq L] {n : ℕ}

/-- C108: on untimed traces a CTMC gives the same likelihoods as its embedded chain. -/
theorem likelihood_embedded (M : CTMC ℝ L n) :
    (∀ w, M.iface.seqProb w = M.embedded.iface.seqProb w) ∧
    ∀ cpus S, M.iface.logLikelihoodMultiproc cpus S = M.embedded.iface.logLikelihoodMultiproc cpus S := by
  have : M.iface = M.embedded.iface := by
    unfold CTMC.iface MC.iface
    rw [← M.tau_embedded]
    rfl
  rw [this]
  exact ⟨fun _ => rfl, fun _ _ => rfl⟩

/-- C108: learning a CTMC from untimed traces is learning its embedded chain. -/
theorem fit_embedded (M : CTMC ℝ L n) (processes : ℕ) (S : TSet L) (hS : ∀ w ∈ S.sequences, 2 ≤ w.length) (epsilon : ℝ) (maxIt : ℕ) :
    SameOutcome (fun st st' => st.h.embedded = st'.h ∧ st'.counter = st.counter ∧ st'.ll = st.ll)
      (fit (stepUntimed processes (fun _ _ => false) S) epsilon maxIt M) (fit (stepMC processes S) epsilon maxIt M.embedded) := by
  refine (fit_same (R := fun C M => C.embedded = M) (c := 0) ?_ epsilon maxIt rfl).mono (fun _ _ hl => ⟨hl.h, hl.counter, by rw [hl.ll]; simp⟩)
  rintro C _ rfl
  rw [C.bw_untimed_refines processes S hS]
  cases stepUntimed processes (fun _ _ => false) S C with
  | error e => rfl
  | ok r => exact ⟨rfl, by simp⟩

end CTMC
end Jajapy
