import Mathlib.Tactic.NormNum
import Mathlib.Tactic.FinCases
import Mathlib.Tactic.Linarith
import Verif.Lemmas.Likelihood

/-!
Properties C25-C29: the log-likelihood functions.
-/

set_option linter.unusedSectionVars false

namespace Jajapy

open Finset Spec

/-- A three-state chain used as an example: states 0 and 1 emit labels 0 and 1, state 2 is the initial state. -/
def exMC (K : Type) [Field K] : MC K ℕ 3 where
  matrix := ![![1/2, 1/2, 0], ![1, 0, 0], ![1, 0, 0]]
  labelling := ![0, 1, 2]
  initialState := ![0, 0, 1]

/-- A two-state hidden Markov model used as an example. -/
def exHMM (K : Type) [Field K] : HMM K ℕ 2 where
  matrix := ![![1/2, 1/2], ![1/4, 3/4]]
  alphabet := [7, 8]
  output := ![![1/3, 2/3], ![1, 0]]
  initialState := ![1, 0]

theorem MC.tau_factor {K L : Type} [Field K] [DecidableEq L] {n : ℕ} (M : MC K L n) (s s' : Fin n) (o : L) :
    M.iface.tau s s' o = M.matrix s s' * M.iface.b s o := by
  simp only [MC.iface, MC.tau, MC.b]
  by_cases h : M.labelling s = o
  · subst h; simp
  · simp [h, Ne.symm h]

theorem HMM.tau_factor {K L : Type} [Field K] [DecidableEq L] {n : ℕ} (M : HMM K L n) (s s' : Fin n) (o : L) :
    M.iface.tau s s' o = M.matrix s s' * M.iface.b s o := rfl

/-! ### C25: the reported likelihood is the sum over the state paths -/

/-- C25 for Markov chains: whatever the matrix, the number whose logarithm is reported for a trace is the sum over all
state paths of the probability of the path, for the paths whose labels are the trace. -/
theorem MC.seqProb_eq_paths {K L : Type} [Field K] [DecidableEq L] {n : ℕ} (M : MC K L n) (w : List L) (hw : w ≠ []) :
    M.iface.seqProb w
      = .ok (listProb M.initialState M.matrix (fun s o => if M.labelling s = o then 1 else 0) w) :=
  Iface.seqProb_eq M.iface M.matrix M.tau_factor w hw

/-- C25 for hidden Markov models. -/
theorem HMM.seqProb_eq_paths {K O : Type} [Field K] [DecidableEq O] {n : ℕ} (M : HMM K O n) (w : List O) (hw : w ≠ []) :
    M.iface.seqProb w = .ok (listProb M.initialState M.matrix M.b w) :=
  Iface.seqProb_eq M.iface M.matrix M.tau_factor w hw

/-- The emission function of an HMM is the output matrix read through the alphabet. -/
theorem HMM.b_spec {K O : Type} [Field K] [DecidableEq O] {n : ℕ} (M : HMM K O n) (hn : M.alphabet.Nodup) (s : Fin n) :
    (∀ i : Fin M.alphabet.length, M.b s M.alphabet[i] = M.output s i) ∧ ∀ o, o ∉ M.alphabet → M.b s o = 0 := by
  refine ⟨fun i => ?_, fun o ho => by simp [HMM.b, ho]⟩
  unfold HMM.b
  have h : M.alphabet[i] ∈ M.alphabet := List.getElem_mem _
  rw [dif_pos h]
  congr 1
  apply Fin.ext
  exact hn.idxOf_getElem i.1 i.2

/-- C25, whole sets, Markov chains: `logLikelihood` returns the average log-likelihood of the path sums. -/
theorem MC.logLikelihood_spec {L : Type} [DecidableEq L] {n : ℕ} (M : MC ℝ L n) (cpus : ℕ) (hc : 2 ≤ cpus) (S : TSet L)
    (hne : ∀ w ∈ S.sequences, w ≠ []) :
    M.iface.logLikelihoodMultiproc cpus S
      = .ok (avgLogLik (listProb M.initialState M.matrix (fun s o => if M.labelling s = o then 1 else 0)) S) :=
  Iface.multiproc_eq _ _ cpus hc S (fun w hw => M.seqProb_eq_paths w (hne w hw))

/-- C25, whole sets, hidden Markov models. -/
theorem HMM.logLikelihood_spec {O : Type} [DecidableEq O] {n : ℕ} (M : HMM ℝ O n) (cpus : ℕ) (hc : 2 ≤ cpus) (S : TSet O)
    (hne : ∀ w ∈ S.sequences, w ≠ []) :
    M.iface.logLikelihoodMultiproc cpus S = .ok (avgLogLik (listProb M.initialState M.matrix M.b) S) :=
  Iface.multiproc_eq _ _ cpus hc S (fun w hw => M.seqProb_eq_paths w (hne w hw))

/-- The error branches: an empty trace anywhere in the set raises IndexError, one processor raises ValueError. -/
theorem logLikelihood_raises {O : Type} {n : ℕ} (M : Iface ℝ O n) (cpus : ℕ) (S : TSet O)
    (hlen : S.times.length = S.sequences.length) :
    (cpus < 2 → M.logLikelihoodMultiproc cpus S = .error .valueError) ∧
    (2 ≤ cpus → [] ∈ S.sequences → M.logLikelihoodMultiproc cpus S = .error .indexError) := by
  constructor
  · intro h; simp [Iface.logLikelihoodMultiproc, h]
  · intro h hm
    have key : ∀ l : List (List O × ℕ), (∃ t, ([], t) ∈ l) →
        l.mapM (fun p => M.computeAlphas p.1 p.2) = .error .indexError := by
      intro l
      induction l with
      | nil => simp
      | cons q l ih =>
        rintro ⟨t, ht⟩
        rw [List.mapM_cons]
        obtain ⟨w, u⟩ := q
        cases w with
        | nil => rfl
        | cons o os =>
          have : ∃ t, ([], t) ∈ l := ⟨t, by simpa using ht⟩
          rw [ih this]
          rfl
    obtain ⟨i, hi, hi'⟩ := List.mem_iff_getElem.1 hm
    have : ([], S.times[i]'(by omega)) ∈ S.sequences.zip S.times := by
      rw [List.mem_iff_getElem]
      exact ⟨i, by simp; omega, by simp [hi']⟩
    unfold Iface.logLikelihoodMultiproc
    rw [if_neg (by omega), key _ ⟨_, this⟩]
    rfl

example : (exMC ℚ).iface.seqProb [2, 0, 0, 1] = .ok (1/4) := by decide +kernel
example : (exHMM ℚ).iface.seqProb [7, 8] = .ok (1/9) := by decide +kernel

/-! ### C26: the likelihoods of all the traces of a given length sum to 1 -/

theorem MC.sum_seqProb {K L : Type} [Field K] [DecidableEq L] {n : ℕ} (M : MC K L n) (A : Finset L)
    (hA : ∀ s, M.labelling s ∈ A) (hi : ∑ s, M.initialState s = 1) (hm : ∀ s, ∑ s', M.matrix s s' = 1) (t : ℕ) :
    ∃ P : (Fin (t+1) → L) → K, (∀ w, M.iface.seqProb (List.ofFn w) = .ok (P w)) ∧
      ∑ w ∈ Fintype.piFinset (fun _ : Fin (t+1) => A), P w = 1 := by
  refine ⟨fun w => traceProb M.initialState M.matrix (fun s o => if M.labelling s = o then 1 else 0) w, fun w => ?_, ?_⟩
  · rw [MC.seqProb_eq_paths _ _ (by simp), Iface.listProb_ofFn]
  · apply sum_traceProb _ _ _ _ hi hm
    intro s
    rw [Finset.sum_ite_eq, if_pos (hA s)]

theorem HMM.sum_seqProb {K O : Type} [Field K] [DecidableEq O] {n : ℕ} (M : HMM K O n) (hn : M.alphabet.Nodup)
    (hi : ∑ s, M.initialState s = 1) (hm : ∀ s, ∑ s', M.matrix s s' = 1) (ho : ∀ s, ∑ i, M.output s i = 1) (t : ℕ) :
    ∃ P : (Fin (t+1) → O) → K, (∀ w, M.iface.seqProb (List.ofFn w) = .ok (P w)) ∧
      ∑ w ∈ Fintype.piFinset (fun _ : Fin (t+1) => M.alphabet.toFinset), P w = 1 := by
  refine ⟨fun w => traceProb M.initialState M.matrix M.b w, fun w => ?_, ?_⟩
  · rw [HMM.seqProb_eq_paths _ _ (by simp), Iface.listProb_ofFn]
  · apply sum_traceProb _ _ _ _ hi hm
    intro s
    rw [← ho s, List.sum_toFinset _ hn]
    have e : ∑ i, M.output s i = ∑ i : Fin M.alphabet.length, M.b s M.alphabet[i] :=
      Finset.sum_congr rfl (fun i _ => ((M.b_spec hn s).1 i).symm)
    rw [e]
    simp

example : (∀ s, (exMC ℚ).labelling s ∈ ({0, 1, 2} : Finset ℕ)) ∧ ∑ s, (exMC ℚ).initialState s = 1 ∧
    ∀ s, ∑ s', (exMC ℚ).matrix s s' = 1 := by decide +kernel
example : (exHMM ℚ).alphabet.Nodup ∧ ∑ s, (exHMM ℚ).initialState s = 1 ∧
    (∀ s, ∑ s', (exHMM ℚ).matrix s s' = 1) ∧ ∀ s, ∑ i, (exHMM ℚ).output s i = 1 := by decide +kernel

/-- Every likelihood is between 0 and 1. -/
theorem MC.seqProb_mem_unit {L : Type} [DecidableEq L] {n : ℕ} (M : MC ℝ L n)
    (hi0 : ∀ s, 0 ≤ M.initialState s) (hi : ∑ s, M.initialState s = 1)
    (hm0 : ∀ s s', 0 ≤ M.matrix s s') (hm : ∀ s, ∑ s', M.matrix s s' = 1) (w : List L) (hw : w ≠ []) :
    ∃ p, M.iface.seqProb w = .ok p ∧ 0 ≤ p ∧ p ≤ 1 := by
  have hb0 : ∀ (s : Fin n) (o : L), (0:ℝ) ≤ (fun s o => if M.labelling s = o then 1 else 0) s o := by
    intro s o
    simp only
    split_ifs <;> norm_num
  refine ⟨_, M.seqProb_eq_paths w hw, ?_, ?_⟩
  all_goals
    obtain ⟨t, f, rfl⟩ : ∃ (t : ℕ) (f : Fin (t+1) → L), w = List.ofFn f := by
      cases w with
      | nil => exact absurd rfl hw
      | cons o os => exact ⟨os.length, (o :: os).get, (List.ofFn_get (o :: os)).symm⟩
    rw [Iface.listProb_ofFn]
  · unfold traceProb
    refine Finset.sum_nonneg (fun p _ => mul_nonneg (mul_nonneg (hi0 _) (Finset.prod_nonneg (fun k _ => hm0 _ _)))
      (Finset.prod_nonneg (fun k _ => ?_)))
    exact hb0 _ _
  · have h1 := sum_traceProb M.initialState M.matrix (fun s (o : L) => if M.labelling s = o then (1:ℝ) else 0)
      (Finset.univ.image M.labelling ∪ Finset.univ.image f) hi hm (fun s => by
        rw [Finset.sum_ite_eq, if_pos (by simp)]) t
    refine le_of_le_of_eq ?_ h1
    apply Finset.single_le_sum (f := fun w => traceProb M.initialState M.matrix
      (fun s (o : L) => if M.labelling s = o then (1:ℝ) else 0) w)
    · intro w _
      unfold traceProb
      refine Finset.sum_nonneg (fun p _ => mul_nonneg (mul_nonneg (hi0 _) (Finset.prod_nonneg (fun k _ => hm0 _ _)))
        (Finset.prod_nonneg (fun k _ => ?_)))
      exact hb0 _ _
    · simp [Fintype.mem_piFinset]

/-! ### C27: the single-process and the multi-process versions agree -/

theorem oneproc_eq_multiproc {O : Type} [LinearOrder O] {n : ℕ} (M : Iface ℝ O n) (a : Fin n → Fin n → ℝ)
    (hf : ∀ s s' o, M.tau s s' o = a s s' * M.b s o) (ha : ∀ s, ∑ s', a s s' = 1) (cpus : ℕ) (hc : 2 ≤ cpus)
    (S : TSet O) (h0 : S.sequences ≠ []) (hlen : S.times.length = S.sequences.length) (hne : ∀ w ∈ S.sequences, w ≠ []) :
    M.logLikelihoodOneproc S = M.logLikelihoodMultiproc cpus S := by
  rw [Iface.multiproc_eq M (listProb M.init a M.b) cpus hc S (fun w hw => Iface.seqProb_eq M a hf w (hne w hw)),
    Iface.oneproc_eq M (listProb M.init a M.b) S h0 hlen]
  intro w hw
  cases w with
  | nil => exact absurd rfl (hne _ hw)
  | cons o os => rw [Iface.foldl_sum_eq_seqLoop M a hf ha, Iface.seqLoop_sum M a hf]

/-- C27 for Markov chains with rows of sum 1, for every non-empty set of non-empty traces. -/
theorem MC.oneproc_eq_multiproc {L : Type} [LinearOrder L] {n : ℕ} (M : MC ℝ L n) (hm : ∀ s, ∑ s', M.matrix s s' = 1)
    (cpus : ℕ) (hc : 2 ≤ cpus) (S : TSet L) (h0 : S.sequences ≠ []) (hlen : S.times.length = S.sequences.length)
    (hne : ∀ w ∈ S.sequences, w ≠ []) :
    M.iface.logLikelihoodOneproc S = M.iface.logLikelihoodMultiproc cpus S :=
  Jajapy.oneproc_eq_multiproc M.iface M.matrix M.tau_factor hm cpus hc S h0 hlen hne

/-- C27 for hidden Markov models. -/
theorem HMM.oneproc_eq_multiproc {L : Type} [LinearOrder L] {n : ℕ} (M : HMM ℝ L n) (hm : ∀ s, ∑ s', M.matrix s s' = 1)
    (cpus : ℕ) (hc : 2 ≤ cpus) (S : TSet L) (h0 : S.sequences ≠ []) (hlen : S.times.length = S.sequences.length)
    (hne : ∀ w ∈ S.sequences, w ≠ []) :
    M.iface.logLikelihoodOneproc S = M.iface.logLikelihoodMultiproc cpus S :=
  Jajapy.oneproc_eq_multiproc M.iface M.matrix M.tau_factor hm cpus hc S h0 hlen hne

example : (∀ s, ∑ s', (exMC ℝ).matrix s s' = 1) ∧ (⟨[[2, 0, 0], [2, 0, 1]], [3, 4], false, some 0⟩ : TSet ℕ).sequences ≠ [] := by
  constructor
  · intro s; fin_cases s <;> simp [exMC, Fin.sum_univ_succ] <;> norm_num
  · simp

/-- The two versions differ on the empty set: the single-process one raises, the other returns 0. -/
theorem oneproc_multiproc_differ_on_empty {O : Type} [LinearOrder O] {n : ℕ} (M : Iface ℝ O n) (cpus : ℕ) (hc : 2 ≤ cpus) :
    M.logLikelihoodOneproc ⟨[], [], false, none⟩ = .error .indexError ∧
    M.logLikelihoodMultiproc cpus ⟨[], [], false, none⟩ = .ok 0 := by
  constructor
  · simp [Iface.logLikelihoodOneproc, TSet.sort]
  · rw [Iface.multiproc_eq M (fun _ => 0) cpus hc _ (by simp)]
    simp [avgLogLik]

/-! ### C28: weighted mean, independence of the order -/

section c28
variable {O : Type} [DecidableEq O] {n : ℕ}

/-- The log-likelihood depends on a set only through the multiplicities of its traces: reordering the entries, or
merging or splitting them, has no effect. -/
theorem logLikelihood_congr (M : Iface ℝ O n) (cpus : ℕ) (S1 S2 : TSet O) (hc : 2 ≤ cpus)
    (h1 : S1.times.length = S1.sequences.length) (h2 : S2.times.length = S2.sequences.length)
    (hne1 : ∀ w ∈ S1.sequences, w ≠ []) (hne2 : ∀ w ∈ S2.sequences, w ≠ [])
    (hm : ∀ tr, S1.mult tr = S2.mult tr) :
    M.logLikelihoodMultiproc cpus S1 = M.logLikelihoodMultiproc cpus S2 := by
  classical
  have hP : ∀ w, w ≠ [] → M.seqProb w = .ok (match M.seqProb w with | .ok p => p | .error _ => 0) := by
    intro w hw
    cases w with
    | nil => exact absurd rfl hw
    | cons o os => rfl
  rw [Iface.multiproc_eq M _ cpus hc S1 (fun w hw => hP w (hne1 w hw)),
    Iface.multiproc_eq M _ cpus hc S2 (fun w hw => hP w (hne2 w hw))]
  rw [TSet.avgLogLik_eq _ S1 h1 (S1.sequences.toFinset ∪ S2.sequences.toFinset) (fun w hw => by simp [hw]),
    TSet.avgLogLik_eq _ S2 h2 (S1.sequences.toFinset ∪ S2.sequences.toFinset) (fun w hw => by simp [hw])]
  simp only [hm]

theorem addSet_mem (S1 S2 S : TSet O) (h1 : S1.times.length = S1.sequences.length) (h : S1.addSet S2 = .ok S) (w : List O)
    (hw : w ∈ S.sequences) : w ∈ S1.sequences ∨ w ∈ S2.sequences := by
  unfold TSet.addSet at h
  split_ifs at h with ht
  · injection h with h
    subst h
    have key : ∀ (b : Bool) (l : List (List O × ℕ)) (S : TSet O), w ∈ (l.foldl (fun S p => TSet.addSetStep S b p) S).sequences →
        w ∈ S.sequences ∨ ∃ t, (w, t) ∈ l := by
      intro b l
      induction l with
      | nil => intro S h; exact Or.inl h
      | cons q l ih =>
        intro S h
        rcases ih _ h with h' | ⟨t, h'⟩
        · simp only [TSet.addSetStep] at h'
          split_ifs at h'
          · exact Or.inl h'
          · simp only [List.mem_append, List.mem_singleton] at h'
            rcases h' with h' | h'
            · exact Or.inl h'
            · exact Or.inr ⟨q.2, by rw [h']; simp⟩
        · exact Or.inr ⟨t, by simp [h']⟩
    rcases key _ _ _ hw with h' | ⟨t, h'⟩
    · exact Or.inl h'
    · exact Or.inr (List.of_mem_zip h').1

/-- C28: the log-likelihood of two sets merged with `addSet` is the mean of the two log-likelihoods weighted by the
number of traces. -/
theorem logLikelihood_addSet (M : Iface ℝ O n) (cpus : ℕ) (S1 S2 : TSet O) (hc : 2 ≤ cpus) (ht : S1.type = S2.type)
    (h1 : S1.times.length = S1.sequences.length) (h2 : S2.times.length = S2.sequences.length)
    (hne1 : ∀ w ∈ S1.sequences, w ≠ []) (hne2 : ∀ w ∈ S2.sequences, w ≠ [])
    (hp1 : 0 < S1.times.sum) (hp2 : 0 < S2.times.sum) :
    ∃ S l1 l2 l, S1.addSet S2 = .ok S ∧ M.logLikelihoodMultiproc cpus S1 = .ok l1 ∧
      M.logLikelihoodMultiproc cpus S2 = .ok l2 ∧ M.logLikelihoodMultiproc cpus S = .ok l ∧
      l = (S1.times.sum * l1 + S2.times.sum * l2) / (S1.times.sum + S2.times.sum) := by
  classical
  have hP : ∀ w, w ≠ [] → M.seqProb w = .ok (match M.seqProb w with | .ok p => p | .error _ => 0) := by
    intro w hw
    cases w with
    | nil => exact absurd rfl hw
    | cons o os => rfl
  obtain ⟨S, hS, -, hl, -, -, hm⟩ := TSet.addSet_spec S1 S2 h1 ht
  have hmem := addSet_mem S1 S2 S h1 hS
  have hne : ∀ w ∈ S.sequences, w ≠ [] := fun w hw => (hmem w hw).elim (hne1 w) (hne2 w)
  refine ⟨S, _, _, _, hS, Iface.multiproc_eq M _ cpus hc S1 (fun w hw => hP w (hne1 w hw)),
    Iface.multiproc_eq M _ cpus hc S2 (fun w hw => hP w (hne2 w hw)),
    Iface.multiproc_eq M _ cpus hc S (fun w hw => hP w (hne w hw)), ?_⟩
  generalize (fun w => (match M.seqProb w with | .ok p => p | .error _ => 0 : ℝ)) = P
  set F := S1.sequences.toFinset ∪ S2.sequences.toFinset with hF
  have f1 : ∀ w ∈ S1.sequences, w ∈ F := fun w hw => by simp [hF, hw]
  have f2 : ∀ w ∈ S2.sequences, w ∈ F := fun w hw => by simp [hF, hw]
  have f : ∀ w ∈ S.sequences, w ∈ F := fun w hw => by simpa [hF] using hmem w hw
  have t1 := TSet.sum_times_eq S1 h1 F f1
  have t2 := TSet.sum_times_eq S2 h2 F f2
  rw [TSet.avgLogLik_eq P S1 h1 F f1, TSet.avgLogLik_eq P S2 h2 F f2, TSet.avgLogLik_eq P S hl F f]
  have p1 : (0:ℝ) < (S1.times.sum : ℕ) := by exact_mod_cast hp1
  have p2 : (0:ℝ) < (S2.times.sum : ℕ) := by exact_mod_cast hp2
  simp only [hm, Nat.cast_add, add_mul, Finset.sum_add_distrib]
  rw [t1] at p1 ⊢
  rw [t2] at p2 ⊢
  rw [mul_div_cancel₀ _ (ne_of_gt p1), mul_div_cancel₀ _ (ne_of_gt p2)]

example : ∃ S1 S2 : TSet ℕ, S1.type = S2.type ∧ S1.times.length = S1.sequences.length ∧
    S2.times.length = S2.sequences.length ∧ (∀ w ∈ S1.sequences, w ≠ []) ∧ (∀ w ∈ S2.sequences, w ≠ []) ∧
    0 < S1.times.sum ∧ 0 < S2.times.sum :=
  ⟨⟨[[2, 0]], [3], false, some 0⟩, ⟨[[2, 0], [2, 1]], [1, 1], false, some 0⟩, by decide⟩

end c28

/-! ### C29: impossible data

The claim "a set the model cannot generate is not scored like a set of certain traces" is false of the code. -/

/-- C29 does not hold: a set whose traces are all impossible gets the log-likelihood 0, the maximum. -/
theorem impossible_scored_perfect {O : Type} {n : ℕ} (M : Iface ℝ O n) (cpus : ℕ) (hc : 2 ≤ cpus) (S : TSet O)
    (h : ∀ w ∈ S.sequences, ∃ p, M.seqProb w = .ok p ∧ p ≤ 0) : M.logLikelihoodMultiproc cpus S = .ok 0 := by
  choose! P hP hP0 using h
  rw [Iface.multiproc_eq M P cpus hc S hP]
  have : ∀ q ∈ S.sequences.zip S.times, ¬ 0 < P q.1 := fun q hq => not_lt.2 (hP0 _ (List.of_mem_zip hq).1)
  unfold avgLogLik
  rw [List.filter_eq_nil_iff.2 (fun q hq => by simpa using hP0 _ (List.of_mem_zip hq).1)]
  simp

/-- A concrete chain and a non-empty set of impossible traces. -/
theorem impossible_witness : ∃ S : TSet ℕ, S.Countable ∧ S.sequences ≠ [] ∧
    (∀ w ∈ S.sequences, (exMC ℝ).iface.seqProb w = .ok 0) ∧ (exMC ℝ).iface.logLikelihoodMultiproc 4 S = .ok 0 := by
  refine ⟨⟨[[1, 1]], [5], false, some 0⟩, ⟨⟨rfl, by decide⟩, by decide, rfl⟩, by simp, ?_, ?_⟩
  · intro w hw
    simp only [List.mem_singleton] at hw
    subst hw
    simp [exMC, MC.iface, Iface.seqProb, Iface.seqLoop, Iface.fwdStep, MC.tau, MC.b, Fin.sum_univ_succ]
  · apply impossible_scored_perfect _ _ (by norm_num)
    intro w hw
    refine ⟨0, ?_, le_rfl⟩
    simp only [List.mem_singleton] at hw
    subst hw
    simp [exMC, MC.iface, Iface.seqProb, Iface.seqLoop, Iface.fwdStep, MC.tau, MC.b, Fin.sum_univ_succ]

/-- What holds of C29: when every trace of the set is possible and the model is stochastic, the reported value is at
most 0, and it is 0 only if every trace is certain. -/
theorem MC.logLikelihood_zero_iff_partial {L : Type} [DecidableEq L] {n : ℕ} (M : MC ℝ L n) (cpus : ℕ) (hc : 2 ≤ cpus)
    (hi0 : ∀ s, 0 ≤ M.initialState s) (hi : ∑ s, M.initialState s = 1)
    (hm0 : ∀ s s', 0 ≤ M.matrix s s') (hm : ∀ s, ∑ s', M.matrix s s' = 1)
    (S : TSet L) (h0 : S.sequences ≠ []) (hlen : S.times.length = S.sequences.length) (hpos : ∀ t ∈ S.times, 1 ≤ t)
    (hne : ∀ w ∈ S.sequences, w ≠ []) (hposs : ∀ w ∈ S.sequences, M.iface.seqProb w ≠ .ok 0) :
    ∃ l, M.iface.logLikelihoodMultiproc cpus S = .ok l ∧ l ≤ 0 ∧
      (l = 0 ↔ ∀ w ∈ S.sequences, M.iface.seqProb w = .ok 1) := by
  classical
  have hP : ∀ w ∈ S.sequences, ∃ p, M.iface.seqProb w = .ok p ∧ 0 < p ∧ p ≤ 1 := by
    intro w hw
    obtain ⟨p, h1, h2, h3⟩ := M.seqProb_mem_unit hi0 hi hm0 hm w (hne w hw)
    exact ⟨p, h1, lt_of_le_of_ne h2 (fun h => hposs w hw (by rw [h1, ← h])), h3⟩
  choose! P hP1 hP2 hP3 using hP
  refine ⟨_, Iface.multiproc_eq M.iface P cpus hc S hP1, ?_⟩
  have hterm : ∀ q ∈ S.sequences.zip S.times, (q.2 : ℝ) * Real.log (P q.1) ≤ 0 := by
    intro q hq
    have := List.of_mem_zip hq
    exact mul_nonpos_of_nonneg_of_nonpos (by positivity) (Real.log_nonpos (hP2 _ this.1).le (hP3 _ this.1))
  have hfil : (S.sequences.zip S.times).filter (fun p => 0 < P p.1) = S.sequences.zip S.times := by
    rw [List.filter_eq_self]
    intro q hq
    simpa using hP2 _ (List.of_mem_zip hq).1
  have hsum : (0:ℝ) < (S.times.sum : ℕ) := by
    cases hs : S.sequences with
    | nil => exact absurd hs h0
    | cons a as =>
      cases ht : S.times with
      | nil => rw [hs, ht] at hlen; simp at hlen
      | cons t ts =>
        have := hpos t (by simp [ht])
        have h' : 0 < (t :: ts).sum := by rw [List.sum_cons]; omega
        exact_mod_cast h'
  unfold avgLogLik
  rw [hfil]
  have hle : ((S.sequences.zip S.times).map (fun p => (p.2 : ℝ) * Real.log (P p.1))).sum ≤ 0 := by
    refine (list_nonpos _ ?_).1
    intro x hx
    obtain ⟨q, hq, rfl⟩ := List.mem_map.1 hx
    exact hterm q hq
  refine ⟨div_nonpos_of_nonpos_of_nonneg hle hsum.le, ?_⟩
  rw [div_eq_zero_iff, or_iff_left (ne_of_gt hsum)]
  constructor
  · intro h w hw
    obtain ⟨i, hi, hi'⟩ := List.mem_iff_getElem.1 hw
    have hz : (w, S.times[i]'(by omega)) ∈ S.sequences.zip S.times := by
      rw [List.mem_iff_getElem]; exact ⟨i, by simp; omega, by simp [hi']⟩
    have h1 : ∀ x ∈ (S.sequences.zip S.times).map (fun p => (p.2 : ℝ) * Real.log (P p.1)), x = 0 := by
      refine (list_nonpos _ ?_).2 h
      intro x hx
      obtain ⟨q, hq, rfl⟩ := List.mem_map.1 hx
      exact hterm q hq
    have h2 := h1 _ (List.mem_map.2 ⟨_, hz, rfl⟩)
    have ht : (1:ℝ) ≤ (S.times[i]'(by omega) : ℕ) := by
      exact_mod_cast hpos _ (List.getElem_mem _)
    rcases mul_eq_zero.1 h2 with h3 | h3
    · linarith
    · rw [hP1 w hw, Real.eq_one_of_pos_of_log_eq_zero (hP2 w hw) h3]
  · intro h
    apply List.sum_eq_zero
    intro x hx
    obtain ⟨q, hq, rfl⟩ := List.mem_map.1 hx
    have hw := (List.of_mem_zip hq).1
    have h1 := hP1 _ hw
    rw [h _ hw] at h1
    injection h1 with h1
    rw [← h1]; simp

end Jajapy
