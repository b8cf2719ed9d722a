import Verif.Props.Renaming
import Verif.Props.BWGoHMM

/-!
Properties C87 and C88, Gaussian-observation hidden Markov models.
-/

set_option linter.unusedSectionVars false

namespace Jajapy

open Spec BW

section positive
variable {O : Type} {n : ℕ} {tau : Fin n → Fin n → O → ℝ}

theorem fwd_pos (ht : ∀ s ss o, 0 < tau s ss o) (v : Fin n → ℝ) (hv : ∀ s, 0 < v s) (o : O) (s : Fin n) : 0 < fwd tau v o s :=
  Finset.sum_pos (fun ss _ => mul_pos (hv ss) (ht ss s o)) ⟨s, Finset.mem_univ s⟩

theorem beta0_pos_all (ht : ∀ s ss o, 0 < tau s ss o) (os : List O) (s : Fin n) : 0 < beta0 tau (fun _ => 1) os s := by
  induction os generalizing s with
  | nil => exact one_pos
  | cons o os ih =>
    rw [beta0_cons]
    exact Finset.sum_pos (fun ss _ => mul_pos (ih ss) (ht s ss o)) ⟨s, Finset.mem_univ s⟩

theorem vis_pos_all (ht : ∀ s ss o, 0 < tau s ss o) (φ : O → ℝ) (h0 : ∀ o, 0 ≤ φ o) (C : ℝ) (hC : 0 < C) (os : List O) (s : Fin n) :
    ∀ v : Fin n → ℝ, (∀ s, 0 < v s) → 0 ≤ vis tau v (fun _ => 1) φ C os s ∧ ((∃ o ∈ os, 0 < φ o) → 0 < vis tau v (fun _ => 1) φ C os s) := by
  induction os with
  | nil => intro v _; simp
  | cons o os ih =>
    intro v hv
    obtain ⟨i1, i2⟩ := ih _ (fwd_pos ht v hv o)
    have hw : 0 < v s * beta0 tau (fun _ => 1) (o :: os) s := mul_pos (hv s) (beta0_pos_all ht _ s)
    rw [vis_cons]
    refine ⟨add_nonneg (mul_nonneg (mul_nonneg hw.le (h0 o)) hC.le) i1, ?_⟩
    rintro ⟨x, hx, hp⟩
    rcases List.mem_cons.1 hx with rfl | hx
    · exact add_pos_of_pos_of_nonneg (mul_pos (mul_pos hw hp) hC) i1
    · exact add_pos_of_nonneg_of_pos (mul_nonneg (mul_nonneg hw.le (h0 o)) hC.le) (i2 ⟨x, hx, hp⟩)

theorem use_pos_all (ht : ∀ s ss o, 0 < tau s ss o) (C : ℝ) (hC : 0 < C) (os : List O) (s ss : Fin n) :
    ∀ v : Fin n → ℝ, (∀ s, 0 < v s) → 0 ≤ use tau v (fun _ => 1) (fun _ => 1) C os s ss ∧
      (os ≠ [] → 0 < use tau v (fun _ => 1) (fun _ => 1) C os s ss) := by
  induction os with
  | nil => intro v _; simp
  | cons o os ih =>
    intro v hv
    obtain ⟨i1, -⟩ := ih _ (fwd_pos ht v hv o)
    have hw : 0 < v s * tau s ss o * beta0 tau (fun _ => 1) os ss := mul_pos (mul_pos (hv s) (ht s ss o)) (beta0_pos_all ht _ ss)
    have : 0 < use tau v (fun _ => 1) (fun _ => 1) C (o :: os) s ss := by
      rw [use_cons]
      exact add_pos_of_pos_of_nonneg (mul_pos (mul_pos hw one_pos) hC) i1
    exact ⟨this.le, fun _ => this⟩

end positive

namespace GoHMM
variable {n d : ℕ} {σ : Equiv.Perm (Fin n)} {a b : Fin d → ℝ} {M M' : GoHMM n d}

/-- The observation in the new units. -/
def rescale (a b : Fin d → ℝ) (o : Fin d → ℝ) : Fin d → ℝ := fun i => a i * o i + b i

/-- The factor of the densities. -/
noncomputable def unitFactor (a : Fin d → ℝ) : ℝ := ∏ i, |a i|⁻¹

theorem unitFactor_pos (ha : ∀ i, a i ≠ 0) : 0 < unitFactor a := Finset.prod_pos (fun i _ => inv_pos.2 (abs_pos.2 (ha i)))

theorem Renamed.bEq (h : Renamed σ a b M M') (ha : ∀ i, a i ≠ 0) (hs : (∀ s i, 0 < M.sigma s i) ∨ ∀ i, |a i| = 1) (s : Fin n) (o : Fin d → ℝ) :
    M'.b s (rescale a b o) = unitFactor a * M.b (σ s) o := by
  unfold GoHMM.b unitFactor
  rw [← Finset.prod_mul_distrib]
  refine Finset.prod_congr rfl (fun i _ => ?_)
  unfold bn rescale
  rw [h.sigma, h.mu]
  have ha' : 0 < |a i| := abs_pos.2 (ha i)
  have hsg : |a i| * M.sigma (σ s) i ≤ 0 ↔ M.sigma (σ s) i ≤ 0 := by
    constructor
    · intro hc; by_contra hp; exact absurd (mul_pos ha' (not_le.1 hp)) (not_lt.2 hc)
    · intro hc; exact mul_nonpos_of_nonneg_of_nonpos ha'.le hc
  have heq : a i * o i + b i = a i * M.mu (σ s) i + b i ↔ o i = M.mu (σ s) i := by
    rw [add_left_inj, mul_right_inj' (ha i)]
  by_cases h1 : M.sigma (σ s) i ≤ 0
  · rw [if_pos h1, if_pos (hsg.2 h1)]
    rcases hs with hs | hs
    · exact absurd (hs (σ s) i) (not_lt.2 h1)
    · rw [hs i, inv_one, one_mul]
      by_cases h2 : o i = M.mu (σ s) i
      · rw [if_pos h2, if_pos (heq.2 h2)]
      · rw [if_neg h2, if_neg (fun hc => h2 (heq.1 hc))]
  · rw [if_neg h1, if_neg (fun hc => h1 (hsg.1 hc))]
    have e : ((a i * M.mu (σ s) i + b i - (a i * o i + b i)) / (|a i| * M.sigma (σ s) i)) ^ 2 = ((M.mu (σ s) i - o i) / M.sigma (σ s) i) ^ 2 := by
      rw [div_pow, div_pow, mul_pow, sq_abs, show a i * M.mu (σ s) i + b i - (a i * o i + b i) = a i * (M.mu (σ s) i - o i) by ring, mul_pow,
        mul_div_mul_left _ _ (pow_ne_zero 2 (ha i))]
    rw [e]
    rw [mul_assoc, div_mul_eq_div_div_swap, div_eq_inv_mul]

theorem Renamed.tau (h : Renamed σ a b M M') (ha : ∀ i, a i ≠ 0) (hs : (∀ s i, 0 < M.sigma s i) ∨ ∀ i, |a i| = 1) (s ss : Fin n) (o : Fin d → ℝ) :
    M'.tau s ss (rescale a b o) = unitFactor a * M.tau (σ s) (σ ss) o := by
  unfold GoHMM.tau
  rw [h.bEq ha hs, h.matrix]
  ring

theorem unitFactor_one (ha : ∀ i, |a i| = 1) : unitFactor a = 1 := by simp [unitFactor, ha]

/-- C87, GoHMM: other numbers for the states (and other signs and origins for the entries of the observations): the likelihood of a trace and of a set. -/
theorem likelihood_renamed (h : Renamed σ a b M M') (ha : ∀ i, |a i| = 1) :
    (∀ w, M'.iface.seqProb (w.map (rescale a b)) = M.iface.seqProb w) ∧
    ∀ S, (∀ cpus, M'.iface.logLikelihoodMultiproc cpus (renameSet (rescale a b) S) = M.iface.logLikelihoodMultiproc cpus S) := by
  have ha0 : ∀ i, a i ≠ 0 := fun i h0 => by have := ha i; simp [h0] at this
  have ht : ∀ s ss o, M'.iface.tau s ss (rescale a b o) = M.iface.tau (σ s) (σ ss) o := by
    intro s ss o
    have := h.tau ha0 (Or.inr ha) s ss o
    rwa [unitFactor_one ha, one_mul] at this
  have hb : ∀ s o, M'.iface.b s (rescale a b o) = M.iface.b (σ s) o := by
    intro s o
    have := h.bEq ha0 (Or.inr ha) s o
    rwa [unitFactor_one ha, one_mul] at this
  exact ⟨Iface.seqProb_ren ht hb h.initial, fun S cpus => Iface.multiproc_ren ht hb h.initial cpus S⟩

theorem sufProb_rescale {A : Fin n → Fin n → ℝ} {A' : Fin n → Fin n → ℝ} {B : Fin n → (Fin d → ℝ) → ℝ} {B' : Fin n → (Fin d → ℝ) → ℝ} {c : ℝ}
    (hA : ∀ s s', A' s s' = A (σ s) (σ s')) (hB : ∀ s o, B' s (rescale a b o) = c * B (σ s) o) (os : List (Fin d → ℝ)) :
    ∀ s, sufProb A' B' s (os.map (rescale a b)) = c ^ os.length * sufProb A B (σ s) os := by
  induction os with
  | nil => intro s; simp [sufProb]
  | cons o os ih =>
    intro s
    cases os with
    | nil => simp [sufProb, hB]
    | cons o' os =>
      have e : ∑ s', A' s s' * sufProb A' B' s' (rescale a b o' :: os.map (rescale a b))
          = c ^ (o' :: os).length * ∑ s', A (σ s) s' * sufProb A B s' (o' :: os) := by
        rw [Finset.mul_sum]
        refine ((Equiv.sum_comp σ _).symm.trans (Finset.sum_congr rfl (fun s' _ => ?_))).symm
        have := ih s'
        rw [List.map_cons] at this
        rw [this, hA]
        ring
      rw [List.map_cons, List.map_cons, sufProb, sufProb, hB, e, List.length_cons (a := o), pow_succ]
      ring

/-- C88, GoHMM: the density of a trace is per new unit, once per observation. -/
theorem lik_renamed (h : Renamed σ a b M M') (ha : ∀ i, a i ≠ 0) (hs : ∀ s i, 0 < M.sigma s i) (w : List (Fin d → ℝ)) :
    M'.lik (w.map (rescale a b)) = unitFactor a ^ w.length * M.lik w := by
  cases w with
  | nil =>
    unfold lik listProb
    simp
  | cons o os =>
    unfold lik
    have hs' : ∀ s i, 0 ≤ M'.sigma s i := fun s i => by rw [h.sigma]; exact mul_nonneg (abs_nonneg _) (hs _ _).le
    rw [List.map_cons, listProb_eq_sufProb, listProb_eq_sufProb, ← List.map_cons (f := rescale a b), Finset.mul_sum]
    refine ((Equiv.sum_comp σ _).symm.trans (Finset.sum_congr rfl (fun s _ => ?_))).symm
    rw [sufProb_rescale (c := unitFactor a) h.matrix (B := M.emit) (fun s o => ?_) (o :: os) s, h.initial]
    · ring
    · rw [← M.b_eq_emit (fun s i => (hs s i).le), ← M'.b_eq_emit hs', h.bEq ha (Or.inl hs)]

/-! ### Learning -/

/-- The results of the workers agree: the sums of observations are in the new units. -/
structure WorkSame (σ : Equiv.Perm (Fin n)) (a b : Fin d → ℝ) (w w' : WorkGoHMM n d) : Prop where
  den : ∀ s, w'.den s = w.den (σ s)
  numA : ∀ s ss, w'.numA s ss = w.numA (σ s) (σ ss)
  numMu : ∀ s i, w'.numMu s i = a i * w.numMu (σ s) i + b i * w.den (σ s)
  numVa : ∀ s i, w'.numVa s i = a i ^ 2 * w.numVa (σ s) i
  numInit : ∀ s, w'.numInit s = w.numInit (σ s)
  proba : ∃ j : ℕ, w'.proba = unitFactor a ^ j * w.proba
  times : w'.times = w.times

theorem sum_affine {A B : Type} {R : A → B → Prop} {l : List A} {l' : List B} (k k' : ℝ) {g e : A → ℝ} {g' : B → ℝ}
    (h : List.Forall₂ R l l') (hg : ∀ x y, R x y → g' y = k * g x + k' * e x) : (l'.map g').sum = k * (l.map g).sum + k' * (l.map e).sum := by
  induction h with
  | nil => simp
  | cons hab _ ih =>
    rw [List.map_cons, List.map_cons, List.map_cons, List.sum_cons, List.sum_cons, List.sum_cons, ih, hg _ _ hab]
    ring

theorem work_renamed (ha : ∀ i, a i ≠ 0) (processes : ℕ) (S : TSet (Fin d → ℝ)) (h : Renamed σ a b M M')
    (hs : (∀ s i, 0 < M.sigma s i) ∨ ∀ i, |a i| = 1) :
    SameOutcome (List.Forall₂ (WorkSame σ a b)) (workGoHMM processes S M) (workGoHMM processes (renameSet (rescale a b) S) M') := by
  have ht := h.tau ha hs
  have hu := unitFactor_pos ha
  unfold workGoHMM
  refine collect_same _ _ ?_
  rw [List.forall₂_map_left_iff, List.forall₂_map_right_iff]
  refine (zip_renamed (rescale a b) S).imp ?_
  rintro p q rfl
  unfold processWorkGoHMM
  dsimp only
  have hp := lastSum_ren ht p.1 M.initialState M'.initialState h.initial
  rw [hp]
  have hc : unitFactor a ^ p.1.length ≠ 0 := (pow_pos hu _).ne'
  by_cases h0 : lastSum (alphas M.tau M.initialState p.1) = 0
  · rw [if_pos h0, if_pos (by rw [h0, mul_zero])]
    exact Option.Rel.none
  · rw [if_neg h0, if_neg (mul_ne_zero hc h0)]
    have hC : (p.2 : ℝ) / lastSum (alphas M.tau M.initialState p.1)
        = 1 * unitFactor a ^ p.1.length * (p.2 / (unitFactor a ^ p.1.length * lastSum (alphas M.tau M.initialState p.1))) := by
      field_simp
    have hv : ∀ (φ φ' : (Fin d → ℝ) → ℝ) (k l : ℝ), (∀ o, φ' (rescale a b o) = k * φ o + l) → ∀ s, _ = _ := fun φ φ' k l hφ s =>
      visits_ren ht φ φ' k l hφ (p.2 / lastSum (alphas M.tau M.initialState p.1))
        (p.2 / (unitFactor a ^ p.1.length * lastSum (alphas M.tau M.initialState p.1))) (fun _ => 1) (fun _ => 1) (fun _ => rfl) p.1 s 1
        M.initialState M'.initialState (by simpa using h.initial) hC
    refine Option.Rel.some ⟨fun s => ?_, fun s ss => ?_, fun s i => ?_, fun s i => ?_, fun s => ?_, ⟨_, rfl⟩, rfl⟩
    · dsimp only
      rw [hv (fun _ => 1) (fun _ => 1) 1 0 (by simp)]
      ring
    · dsimp only
      exact uses_ren ht (fun _ => 1) (fun _ => 1) (by simp) _ _ (fun _ => 1) (fun _ => 1) (fun _ => rfl) p.1 s ss 1 M.initialState M'.initialState
          (by simpa using h.initial) hC
    · dsimp only
      exact hv (fun o => o i) (fun o => o i) (a i) (b i) (fun o => rfl) s
    · dsimp only
      rw [hv (fun o => (o i - M.mu (σ s) i) ^ 2) (fun o => (o i - M'.mu s i) ^ 2) (a i ^ 2) 0 (fun o => by rw [h.mu]; unfold rescale; ring) s]
      ring
    · dsimp only
      rw [alphas_headD, alphas_headD, betas_headD, betas_headD, beta0_ren ht p.1 (fun _ => 1) (fun _ => 1) (fun _ => rfl), h.initial]
      field_simp

/-- C87 and C88, one iteration: the same exception, or the model in the new units, if the standard deviations are positive and every state is visited, or
if the lengths of the units do not change. -/
theorem step_renamed (ha : ∀ i, a i ≠ 0) (processes : ℕ) (S : TSet (Fin d → ℝ)) (M M' : GoHMM n d) (h : Renamed σ a b M M')
    (hs : ((∀ s i, 0 < M.sigma s i) ∧ ∀ s, denGo M S s ≠ 0) ∨ ∀ i, |a i| = 1) :
    SameOutcome (fun x y => Renamed σ a b x.1 y.1 ∧ ((∀ i, |a i| = 1) → y.2 = x.2 + 0)) (stepGoHMM processes S M)
      (stepGoHMM processes (renameSet (rescale a b) S) M') := by
  have key := work_renamed ha processes S h (hs.imp And.left id)
  unfold stepGoHMM
  cases hw : workGoHMM processes S M with
  | error e =>
    rw [hw] at key
    cases hw' : workGoHMM processes (renameSet (rescale a b) S) M' with
    | error e' => rw [hw'] at key; exact key
    | ok y => rw [hw'] at key; exact absurd key (by simp [SameOutcome])
  | ok l =>
    rw [hw] at key
    cases hw' : workGoHMM processes (renameSet (rescale a b) S) M' with
    | error e' => rw [hw'] at key; exact absurd key (by simp [SameOutcome])
    | ok l' =>
      rw [hw'] at key
      have hl : List.Forall₂ (WorkSame σ a b) l l' := key
      have hden : ∀ s, (l'.map (fun w => w.den s)).sum = (l.map (fun w => w.den (σ s))).sum := fun s => sum_same' hl (fun a b hab => hab.den s)
      have hinit : ∀ s, (l'.map (fun w => w.numInit s)).sum = (l.map (fun w => w.numInit (σ s))).sum :=
        fun s => sum_same' hl (fun a b hab => hab.numInit s)
      have hvis : (∀ s, (l.map (fun w => w.den s)).sum ≠ 0) ∨ ∀ i, |a i| = 1 := by
        refine hs.imp (fun hs s => ?_) id
        have e := (workGo_ok processes S M (fun s i => (hs.1 s i).le) l hw).1
        rw [e, List.map_map]
        exact hs.2 s
      refine ⟨⟨fun s s' => ?_, fun s i => ?_, fun s i => ?_, fun s => ?_⟩, fun ha1 => ?_⟩
      · simp only [updateGoHMM]
        rw [hden, sum_same' hl (g := fun w => w.numA (σ s) (σ s')) (fun a b hab => hab.numA s s'), h.matrix]
      · simp only [updateGoHMM]
        rw [hden, sum_affine (a i) (b i) hl (g := fun w => w.numMu (σ s) i) (e := fun w => w.den (σ s)) (fun a b hab => hab.numMu s i), h.mu]
        by_cases h0 : (l.map (fun w => w.den (σ s))).sum = 0
        · rw [if_pos h0, if_pos h0]
        · rw [if_neg h0, if_neg h0]
          field_simp
      · simp only [updateGoHMM]
        rw [hden, sum_same (a i ^ 2) hl (g := fun w => w.numVa (σ s) i) (fun a b hab => hab.numVa s i), h.sigma]
        by_cases h0 : (l.map (fun w => w.den (σ s))).sum = 0
        · rw [if_pos h0, if_pos h0]
          rcases hvis with hvis | hvis
          · exact absurd h0 (hvis (σ s))
          · rw [hvis i, one_mul, one_mul]
        · rw [if_neg h0, if_neg h0, mul_div_assoc, Real.sqrt_mul (sq_nonneg _), Real.sqrt_sq_eq_abs]
      · simp only [updateGoHMM]
        rw [hinit]
        congr 1
        rw [← Equiv.sum_comp σ (fun s' => (l.map (fun w => w.numInit s')).sum)]
        exact Finset.sum_congr rfl (fun s _ => hinit s)
      · simp only [logLik, List.map_map, add_zero]
        refine sum_same' hl (fun x y hab => ?_)
        obtain ⟨j, hj⟩ := hab.proba
        rw [unitFactor_one ha1, one_pow, one_mul] at hj
        simp [hj, hab.times]

/-- C87, GoHMM: learning with other numbers for the states (and other signs and origins for the entries of the observations). -/
theorem fit_renamed (h : Renamed σ a b M M') (ha : ∀ i, |a i| = 1) (processes : ℕ) (S : TSet (Fin d → ℝ)) (epsilon : ℝ) (maxIt : ℕ) :
    SameOutcome (fun st st' => Renamed σ a b st.h st'.h ∧ st'.counter = st.counter ∧ st'.ll = st.ll)
      (fit (stepGoHMM processes S) epsilon maxIt M) (fit (stepGoHMM processes (renameSet (rescale a b) S)) epsilon maxIt M') := by
  have ha0 : ∀ i, a i ≠ 0 := fun i h0 => by have := ha i; simp [h0] at this
  exact (fit_same (R := Renamed σ a b) (c := 0) (fun M M' hM => (step_renamed ha0 processes S M M' hM (Or.inr ha)).mono
    (fun _ _ hx => ⟨hx.1, hx.2 ha⟩)) epsilon maxIt h).mono (fun _ _ hl => ⟨hl.h, hl.counter, by rw [hl.ll]; simp⟩)

/-- Everything is possible: no probability and no standard deviation is 0. -/
def Full (M : GoHMM n d) : Prop := M.Valid ∧ (∀ s, 0 < M.initialState s) ∧ (∀ s s', 0 < M.matrix s s') ∧ ∀ s i, 0 < M.sigma s i

theorem Full.step_pos (h : M.Full) (s ss : Fin n) (o : Fin d → ℝ) : 0 < M.step s ss o :=
  mul_pos (M.emit_pos s (h.2.2.2 s) o) (h.2.2.1 s ss)

theorem Full.nonempty (h : M.Full) : Nonempty (Fin n) := by
  by_contra hn
  rw [not_nonempty_iff] at hn
  have := h.1.2.1
  simp at this

theorem Full.tw_pos (h : M.Full) (w : List (Fin d → ℝ)) : 0 < twGo M w := by
  obtain ⟨s⟩ := h.nonempty
  unfold twGo
  rw [totalWeight_eq]
  exact Finset.sum_pos (fun s _ => mul_pos (h.2.1 s) (beta0_pos_all h.step_pos w s)) ⟨s, Finset.mem_univ s⟩

theorem Full.poss (h : M.Full) (S : TSet (Fin d → ℝ)) : possGo M S = S.sequences.zip S.times := by
  unfold possGo
  rw [List.filter_eq_self]
  intro x _
  simpa using (h.tw_pos x.1).ne'

/-- The entries of the observations vary. -/
def Varied (S : TSet (Fin d → ℝ)) : Prop := ∀ i, ∃ w ∈ S.sequences, ∃ w' ∈ S.sequences, ∃ o ∈ w, ∃ o' ∈ w', o i ≠ o' i

theorem Full.counts (h : M.Full) (S : TSet (Fin d → ℝ)) (hlen : S.times.length = S.sequences.length) (ht : ∀ t ∈ S.times, 1 ≤ t)
    (hne : ∀ w ∈ S.sequences, w ≠ []) (h0 : S.sequences ≠ []) :
    (∀ s, 0 < denGo M S s) ∧ (∀ s ss, 0 < numAGo M S s ss) ∧ (∀ s, 0 < initGo M S s) ∧ (Varied S → ∀ s i, 0 < numVaGo M S s i) := by
  have hz : S.sequences.zip S.times ≠ [] := by
    intro hc
    have := congrArg List.length hc
    rw [List.length_zip, hlen, min_self] at this
    exact h0 (List.length_eq_zero_iff.1 this)
  obtain ⟨x, hx⟩ := List.exists_mem_of_ne_nil _ hz
  have hC : ∀ x ∈ S.sequences.zip S.times, (0:ℝ) < x.2 / twGo M x.1 := fun x hx =>
    div_pos (Nat.cast_pos.2 (ht _ (List.of_mem_zip hx).2)) (h.tw_pos _)
  have hs := h.step_pos
  unfold denGo numAGo initGo numVaGo
  rw [h.poss]
  refine ⟨fun s => ?_, fun s ss => ?_, fun s => ?_, fun hv s i => ?_⟩
  · have hpos : ∀ x ∈ S.sequences.zip S.times, 0 < (wkGo M x).den s := by
      intro x hx
      obtain ⟨o, ho⟩ := List.exists_mem_of_ne_nil _ (hne _ (List.of_mem_zip hx).1)
      exact (vis_pos_all hs (fun _ => 1) (fun _ => zero_le_one) _ (hC x hx) x.1 s _ h.2.1).2 ⟨o, ho, one_pos⟩
    exact sum_map_pos _ _ (fun x hx => (hpos x hx).le) x hx (hpos x hx)
  · have hpos : ∀ x ∈ S.sequences.zip S.times, 0 < (wkGo M x).numA s ss := fun x hx =>
      (use_pos_all hs _ (hC x hx) x.1 s ss _ h.2.1).2 (hne _ (List.of_mem_zip hx).1)
    exact sum_map_pos _ _ (fun x hx => (hpos x hx).le) x hx (hpos x hx)
  · have hpos : ∀ x ∈ S.sequences.zip S.times, 0 < (wkGo M x).numInit s := fun x hx =>
      div_pos (mul_pos (mul_pos (h.2.1 s) (beta0_pos_all hs _ _)) (Nat.cast_pos.2 (ht _ (List.of_mem_zip hx).2))) (h.tw_pos _)
    exact sum_map_pos _ _ (fun x hx => (hpos x hx).le) x hx (hpos x hx)
  · obtain ⟨w, hw, w', hw', o, ho, o', ho', hne'⟩ := hv i
    obtain ⟨v, hv, q, hq, hm⟩ : ∃ v ∈ S.sequences, ∃ q ∈ v, q i ≠ M.mu s i := by
      by_cases hc : o i = M.mu s i
      · exact ⟨w', hw', o', ho', fun hc' => hne' (hc.trans hc'.symm)⟩
      · exact ⟨w, hw, o, ho, hc⟩
    obtain ⟨k, hk, rfl⟩ := List.getElem_of_mem hv
    have hmem : (S.sequences[k], S.times[k]'(by omega)) ∈ S.sequences.zip S.times := by
      rw [List.mem_iff_getElem]
      exact ⟨k, by rw [List.length_zip]; omega, by rw [List.getElem_zip]⟩
    have hvp := fun (x : List (Fin d → ℝ) × ℕ) hx =>
      vis_pos_all hs (fun o => (o i - M.mu s i) ^ 2) (fun _ => sq_nonneg _) _ (hC x hx) x.1 s _ h.2.1
    exact sum_map_pos _ _ (fun x hx => (hvp x hx).1) _ hmem ((hvp _ hmem).2 ⟨q, hq, by have := sub_ne_zero.2 hm; positivity⟩)

theorem Full.step (h : M.Full) (processes : ℕ) (S : TSet (Fin d → ℝ)) (hlen : S.times.length = S.sequences.length) (ht : ∀ t ∈ S.times, 1 ≤ t)
    (hne : ∀ w ∈ S.sequences, w ≠ []) (hv : Varied S) {N : GoHMM n d} {ll : ℝ} (hstep : stepGoHMM processes S M = .ok (N, ll)) : N.Full := by
  obtain ⟨h1, h2, _⟩ := stepGo_ok _ _ _ _ h.1.2.2.2.2 _ hstep
  have h0 : S.sequences ≠ [] := by
    intro hc
    rw [h.poss, hc] at h2
    exact h2 rfl
  obtain ⟨c1, c2, c3, c4⟩ := h.counts S hlen ht hne h0
  obtain ⟨s0⟩ := h.nonempty
  refine ⟨M.bw_step_valid processes S N ll h.1 ht hstep, fun s => ?_, fun s s' => ?_, fun s i => ?_⟩
  · rw [h1]
    exact div_pos (c3 s) (Finset.sum_pos (fun s _ => c3 s) ⟨s, Finset.mem_univ s⟩)
  · rw [h1]
    simp only [newGo]
    rw [if_neg (c1 s).ne']
    exact div_pos (c2 s s') (c1 s)
  · rw [h1]
    simp only [newGo]
    rw [if_neg (c1 s).ne']
    exact Real.sqrt_pos.2 (div_pos (c4 hv s i) (c1 s))

/-- The number of observations of a set, with the multiplicities. -/
noncomputable def obsCount (S : TSet (Fin d → ℝ)) : ℝ := ((S.sequences.zip S.times).map (fun x => (x.2 : ℝ) * x.1.length)).sum

/-- C88, GoHMM: with the observations and the initial model expressed in other units, learning takes the same number of iterations, the learned model is
the same in the new units, and the reported values differ by the same constant at every iteration. -/
theorem fit_units_partial (ha : ∀ i, a i ≠ 0) (h : Renamed σ a b M M') (hM : M.Full) (processes : ℕ) (S : TSet (Fin d → ℝ))
    (hlen : S.times.length = S.sequences.length) (ht : ∀ t ∈ S.times, 1 ≤ t) (hne : ∀ w ∈ S.sequences, w ≠ []) (hv : Varied S) (epsilon : ℝ)
    (maxIt : ℕ) :
    SameOutcome (fun st st' => Renamed σ a b st.h st'.h ∧ st'.counter = st.counter ∧ st'.ll = st.ll.map (· - obsCount S * ∑ i, Real.log |a i|))
      (fit (stepGoHMM processes S) epsilon maxIt M) (fit (stepGoHMM processes (renameSet (rescale a b) S)) epsilon maxIt M') := by
  refine (fit_same (R := fun M1 M1' => Renamed σ a b M1 M1' ∧ M1.Full) (c := -(obsCount S * ∑ i, Real.log |a i|)) (fun M1 M1' hM1 => ?_)
    epsilon maxIt ⟨h, hM⟩).mono (fun _ _ hl => ⟨hl.h.1, hl.counter, by rw [hl.ll]; simp [sub_eq_add_neg]⟩)
  obtain ⟨h1, h2⟩ := hM1
  by_cases h0 : S.sequences = []
  · have e1 : stepGoHMM processes S M1 = .error .typeError := by
      unfold stepGoHMM workGoHMM collect
      simp [h0, bind, Except.bind]
    have e2 : stepGoHMM processes (renameSet (rescale a b) S) M1' = .error .typeError := by
      unfold stepGoHMM workGoHMM collect
      simp [h0, renameSet, bind, Except.bind]
    rw [e1, e2]
    rfl
  obtain ⟨c1, -⟩ := h2.counts S hlen ht hne h0
  have key := step_renamed ha processes S M1 M1' h1 (Or.inl ⟨h2.2.2.2, fun s => (c1 s).ne'⟩)
  cases hs : stepGoHMM processes S M1 with
  | error e =>
    rw [hs] at key
    cases hs' : stepGoHMM processes (renameSet (rescale a b) S) M1' with
    | error e' => rw [hs'] at key; exact key
    | ok y => rw [hs'] at key; exact absurd key (by simp [SameOutcome])
  | ok x =>
    rw [hs] at key
    cases hs' : stepGoHMM processes (renameSet (rescale a b) S) M1' with
    | error e' => rw [hs'] at key; exact absurd key (by simp [SameOutcome])
    | ok y =>
      rw [hs'] at key
      refine ⟨⟨key.1, h2.step processes S hlen ht hne hv hs⟩, ?_⟩
      have hsg' : ∀ s i, 0 ≤ M1'.sigma s i := fun s i => by rw [h1.sigma]; exact mul_nonneg (abs_nonneg _) (h2.2.2.2 _ _).le
      have hm' : ∀ s, ∑ s', M1'.matrix s s' = 1 := fun s => by
        rw [← h2.1.2.2.2.1 (σ s), ← Equiv.sum_comp σ (M1.matrix (σ s))]
        exact Finset.sum_congr rfl (fun s' _ => h1.matrix s s')
      have hl := lik_renamed h1 ha h2.2.2.2
      have hpos : ∀ w ∈ S.sequences, 0 < M1.lik w := fun w hw => M1.lik_pos h2.1 h2.2.2.2 w (hne w hw)
      have hu := unitFactor_pos ha
      rw [(M1.bw_update_spec processes S x.1 x.2 h2.1.2.2.2.2 h2.1.2.2.2.1 hne hs).2.2.2.2,
        (M1'.bw_update_spec processes _ y.1 y.2 hsg' hm' (by simpa [renameSet] using hne) hs').2.2.2.2]
      have f1 : (S.sequences.zip S.times).filter (fun x => decide (M1.lik x.1 ≠ 0)) = S.sequences.zip S.times := by
        rw [List.filter_eq_self]
        intro x hx
        simpa using (hpos _ (List.of_mem_zip hx).1).ne'
      have f2 : (S.sequences.zip S.times).filter ((fun x : List (Fin d → ℝ) × ℕ => decide (M1'.lik x.1 ≠ 0)) ∘ Prod.map (List.map (rescale a b)) id)
          = S.sequences.zip S.times := by
        rw [List.filter_eq_self]
        intro x hx
        simp only [Function.comp, Prod.map]
        rw [decide_eq_true_eq, hl]
        exact mul_ne_zero (pow_pos hu _).ne' (hpos _ (List.of_mem_zip hx).1).ne'
      unfold overSet obsCount renameSet
      dsimp only
      rw [List.zip_map_left, List.filter_map, List.map_map, f1, f2, ← sub_eq_add_neg, ← List.sum_map_mul_right, eq_sub_iff_add_eq,
        ← List.sum_map_add]
      congr 1
      refine List.map_congr_left (fun x hx => ?_)
      simp only [Function.comp, Prod.map, id]
      rw [hl, Real.log_mul (pow_pos hu _).ne' (hpos _ (List.of_mem_zip hx).1).ne', Real.log_pow]
      have : Real.log (unitFactor a) = - ∑ i, Real.log |a i| := by
        unfold unitFactor
        rw [Real.log_prod (fun i _ => inv_ne_zero (abs_ne_zero.2 (ha i))), ← Finset.sum_neg_distrib]
        exact Finset.sum_congr rfl (fun i _ => Real.log_inv _)
      rw [this]
      ring

end GoHMM
end Jajapy
