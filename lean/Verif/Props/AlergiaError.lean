import Verif.Lemmas.AlergiaErrorLaw
import Verif.Props.GenerateLaw

/-!
C102: the probability that Alergia's test of compatibility gives a wrong answer on a generated training set.
-/

set_option linter.unusedSectionVars false

namespace Jajapy

open MeasureTheory ProbabilityTheory Spec Spec.Alergia Alergia Tools

/-! ### The Hoeffding test -/

/-- C102: the test for two samples with the same probability. `N` independent calls; `B₁` is part of `A₁`, `B₂` is part of `A₂`, and the probability of
`B₁` given `A₁` is that of `B₂` given `A₂`. The test on the numbers of calls with these events answers `False` with probability at most
`2*alpha`. (The sizes of the samples are random, and the samples need not be independent.) -/
theorem hoeffdingBound_rejects {Ω : Type} [MeasurableSpace Ω] {μ : Measure Ω} [IsProbabilityMeasure μ] {A₁ B₁ A₂ B₂ : Set Ω}
    (hA₁ : MeasurableSet A₁) (hB₁ : MeasurableSet B₁) (h₁ : B₁ ⊆ A₁) (hA₂ : MeasurableSet A₂) (hB₂ : MeasurableSet B₂) (h₂ : B₂ ⊆ A₂)
    (p : ℝ) (hp0 : 0 ≤ p) (hp1 : p ≤ 1) (hp₁ : μ.real B₁ = p * μ.real A₁) (hp₂ : μ.real B₂ = p * μ.real A₂) (alpha : ℝ) (ha : 0 < alpha)
    (ha2 : alpha ≤ 2) (N : ℕ) :
    (callsLaw μ).real {D | hoeffdingBound (occ D B₁ N) (occ D A₁ N) (occ D B₂ N) (occ D A₂ N) alpha = .ok false} ≤ 2 * alpha :=
  test_rejects hA₁ hB₁ h₁ hA₂ hB₂ h₂ p hp0 hp1 hp₁ hp₂ alpha ha ha2 N

/-- C102: the test for two samples whose probabilities differ by more than twice the bound of the test: it answers `True` with probability at most
`2*alpha`. -/
theorem hoeffdingBound_accepts {Ω : Type} [MeasurableSpace Ω] {μ : Measure Ω} [IsProbabilityMeasure μ] {A₁ B₁ A₂ B₂ : Set Ω}
    (hA₁ : MeasurableSet A₁) (hB₁ : MeasurableSet B₁) (h₁ : B₁ ⊆ A₁) (hA₂ : MeasurableSet A₂) (hB₂ : MeasurableSet B₂) (h₂ : B₂ ⊆ A₂)
    (p q : ℝ) (hp0 : 0 ≤ p) (hp1 : p ≤ 1) (hq0 : 0 ≤ q) (hq1 : q ≤ 1) (hp : μ.real B₁ = p * μ.real A₁) (hq : μ.real B₂ = q * μ.real A₂)
    (alpha : ℝ) (ha : 0 < alpha) (ha2 : alpha ≤ 2) (N : ℕ) :
    (callsLaw μ).real {D | hoeffdingBound (occ D B₁ N) (occ D A₁ N) (occ D B₂ N) (occ D A₂ N) alpha = .ok true ∧
      0 < occ D A₁ N ∧ 0 < occ D A₂ N ∧
      2 * ((Real.sqrt (1 / occ D A₁ N) + Real.sqrt (1 / occ D A₂ N)) * Real.sqrt (1/2 * Real.log (2 / alpha))) ≤ |p - q|} ≤ 2 * alpha :=
  test_accepts hA₁ hB₁ h₁ hA₂ hB₂ h₂ p q hp0 hp1 hq0 hq1 hp hq alpha ha ha2 N

/-! ### One sequence of random numbers -/

section stream
variable {sim : (ℕ → ℝ) → Py (List String)} {W : Set (List String)}

theorem block_pref {c : ℕ} (hc : 0 < c) (hr : Reads sim c) (h : Simulates drawsLaw sim W) (u : List String) :
    (blockLaw c).real (prefEvent (fun v => sim (padZero c v)) u) = drawsLaw.real (prefEvent sim u) := by
  unfold Measure.real
  congr 1
  exact hr.law hc (fun r : Py (List String) => ∃ w, r = .ok w ∧ u <+: w) (h.meas_pref u)

theorem stream_le {c : ℕ} (hc : 0 < c) (hr : Reads sim c) (gen : (ℕ → Py (List String)) → ℕ → Py (TSet String)) (N : ℕ) (Q : TSet String → Prop) :
    drawsLaw.real {d | ∃ S, gen (fun j => sim (fun i => d (j * c + i))) N = .ok S ∧ Q S}
      ≤ (callsLaw (blockLaw c)).real {D | ∃ S, gen (fun j => sim (padZero c (D j))) N = .ok S ∧ Q S} := by
  unfold Measure.real
  refine ENNReal.toReal_mono (measure_ne_top _ _) ?_
  have hm := blocks_law c hc
  have := Measure.le_map_apply (μ := drawsLaw) hm.measurable.aemeasurable {D : ℕ → Fin c → ℝ | ∃ S, gen (fun j => sim (padZero c (D j))) N = .ok S ∧ Q S}
  rw [hm.map_eq] at this
  refine le_trans (le_of_eq ?_) this
  congr 1
  ext d
  simp only [Set.mem_preimage, Set.mem_ofPred_eq, hr.block]

end stream

/-! ### The words of the traces of `run` -/

namespace MC
variable {L : Type} [DecidableEq L] {n : ℕ}

theorem runLoop_take (M : MC ℝ L n) (steps k : ℕ) (hk : k ≤ steps) (d : ℕ → ℝ) (s : Fin n) (w : List L) (h : M.runLoop steps d s = .ok w) :
    M.runLoop k d s = .ok (w.take (k + 1)) := by
  induction k generalizing steps d s w with
  | zero =>
    cases steps with
    | zero =>
      simp only [runLoop] at h ⊢
      injection h with h
      rw [← h]
      rfl
    | succ steps =>
      simp only [runLoop] at h ⊢
      obtain ⟨⟨c, l⟩, h1, h2⟩ := (Except.bind_eq_ok _ _ _).1 h
      obtain ⟨rest, h5, h3⟩ := (Except.bind_eq_ok _ _ _).1 h2
      simp only [next] at h1
      obtain ⟨c', h6, h4⟩ := (Except.bind_eq_ok _ _ _).1 h1
      cases h4
      cases h3
      rfl
  | succ k ih =>
    cases steps with
    | zero => omega
    | succ steps =>
      simp only [runLoop] at h ⊢
      obtain ⟨⟨c, l⟩, h1, h2⟩ := (Except.bind_eq_ok _ _ _).1 h
      obtain ⟨rest, h5, h3⟩ := (Except.bind_eq_ok _ _ _).1 h2
      cases h3
      rw [h1]
      simp only [Bind.bind, Except.bind]
      rw [ih steps (by omega) _ _ _ h5]
      rfl

theorem run_take (M : MC ℝ L n) (steps k : ℕ) (hk : k ≤ steps) (d : ℕ → ℝ) (w : List L) (h : M.run steps d = .ok w) :
    M.run k d = .ok (w.take (k + 1)) := by
  obtain ⟨c, h1, h2⟩ := (Except.bind_eq_ok _ _ _).1 h
  simp only [run, h1, Bind.bind, Except.bind]
  exact M.runLoop_take steps k hk _ c w h2

end MC

namespace MC
variable {n : ℕ}

/-- The probability that a trace of `run` starts with `u` is the likelihood of `u`. -/
theorem prefix_law (M : MC ℝ String n) (hM : M.Stochastic) (steps : ℕ) (u : List String) (hu : u ≠ []) (hl : u.length ≤ steps + 1) :
    drawsLaw.real (prefEvent (M.run steps) u) = M.lik u := by
  obtain ⟨k, hk⟩ : ∃ k, u.length = k + 1 := ⟨u.length - 1, by have := List.length_pos_of_ne_nil hu; omega⟩
  obtain ⟨p, hp, hlaw⟩ := M.run_law hM.1 hM.2.1 hM.2.2.1 hM.2.2.2 k u hk
  have hp0 := M.seqProb_nonneg_gen hM u p hp hu
  have hpl : p = M.lik u := by
    rw [M.seqProb_eq_paths _ hu] at hp
    injection hp with hp
    exact hp.symm
  rw [← hpl]
  have e : prefEvent (M.run steps) u =ᵐ[drawsLaw] {d | M.run k d = .ok u} := by
    filter_upwards [draws_in_range] with d hd
    obtain ⟨w, hw⟩ := M.run_total hM.1 hM.2.1 hM.2.2.1 hM.2.2.2 steps d hd
    have ht := M.run_take steps k (by omega) d w hw
    refine propext ?_
    constructor
    · rintro ⟨w', hw', hpre⟩
      rw [hw] at hw'
      injection hw' with hw'
      subst hw'
      show M.run k d = .ok u
      rw [ht, ← hk, ← List.prefix_iff_eq_take.1 hpre]
    · intro h
      have h : M.run k d = .ok u := h
      rw [ht] at h
      injection h with h
      exact ⟨w, hw, h ▸ List.take_prefix _ _⟩
  unfold Measure.real
  rw [measure_congr e, hlaw, ENNReal.toReal_ofReal hp0]

theorem lik_nonneg_pref (M : MC ℝ String n) (hM : M.Stochastic) (u : List String) (hu : u ≠ []) : 0 ≤ M.lik u := by
  rw [← M.prefix_law hM u.length u hu (by omega)]
  exact measureReal_nonneg

/-- C102, MC: **wrong rejections**. The training set is generated by a chain with `generateSet`. If after the words `u` and `v`, which end with the same
label, all the continuations have the same probability in the chain, then the states of the prefix tree reached by `u` and `v` are declared
incompatible with a probability of at most `2*alpha` for each word over the labels of the chain that is not longer than the rest of the traces. -/
theorem compatible_rejects (M : MC ℝ String n) (hM : M.Stochastic) (kind : String → Kind) (steps : ℕ) (hs : 1 ≤ steps) (geom : ℕ → ℕ)
    (alpha : ℝ) (ha : 0 < alpha) (ha2 : alpha ≤ 2) (u v : List String) (hu : u ≠ []) (hv : v ≠ []) (hlast : u.getLast? = v.getLast?)
    (hfut : SameFutures M.lik u v) (N : ℕ) :
    drawsLaw.real {d | ∃ S, generateSet kind (fun j k => M.run k (fun i => d (j * (steps + 1) + i))) N false none (.int steps) geom = .ok S ∧
        Answers (hoeffding alpha) S u v false}
      ≤ 2 * alpha * ∑ k ∈ Finset.Icc 1 (steps + 1 - max u.length v.length), ((Finset.univ.image M.labelling).card : ℝ) ^ k := by
  simp only [gen_eq kind _ N false none (.int steps) geom (fun _ => steps) (fun _ => rfl)]
  have hsim := M.simulates hM steps
  refine (stream_le (Nat.succ_pos steps) (M.run_reads steps) (gen kind) N _).trans ?_
  refine rejects_law (hsim.block (Nat.succ_pos steps) (M.run_reads steps)) (gen_counts kind _ (fun w hw => by have := hw.1; omega))
    (fun w hw => hw.1) (Finset.univ.image M.labelling) (fun w hw o ho => ?_) alpha ha ha2 u v hu hv hlast (fun w h1 h2 => ?_) N
  · obtain ⟨s, rfl⟩ := hw.2 o ho
    exact Finset.mem_image_of_mem _ (Finset.mem_univ s)
  · rw [block_pref (Nat.succ_pos steps) (M.run_reads steps) hsim, block_pref (Nat.succ_pos steps) (M.run_reads steps) hsim,
      block_pref (Nat.succ_pos steps) (M.run_reads steps) hsim, block_pref (Nat.succ_pos steps) (M.run_reads steps) hsim,
      M.prefix_law hM steps (u ++ w) (by simp [hu]) (by rw [List.length_append]; omega),
      M.prefix_law hM steps (v ++ w) (by simp [hv]) (by rw [List.length_append]; omega),
      M.prefix_law hM steps u hu (by omega), M.prefix_law hM steps v hv (by omega)]
    exact hfut w

/-- C102, MC: **wrong acceptances**. If in the chain the probability of a label after `u` and its probability after `v` differ by at least
`2 (√(1/n_u) + √(1/n_v)) √(½ log(2/alpha))`, where `n_u` and `n_v` are the numbers of training traces that start with these words, then the
states reached by `u` and `v` are declared compatible with a probability of at most `2*alpha`. -/
theorem compatible_accepts (M : MC ℝ String n) (hM : M.Stochastic) (kind : String → Kind) (steps : ℕ) (hs : 1 ≤ steps) (geom : ℕ → ℕ)
    (alpha : ℝ) (ha : 0 < alpha) (ha2 : alpha ≤ 2) (u v : List String) (hu : u ≠ []) (hv : v ≠ []) (hul : u.length ≤ steps)
    (hvl : v.length ≤ steps) (o : String) (N : ℕ) (hN : 1 ≤ N) :
    drawsLaw.real {d | ∃ S, generateSet kind (fun j k => M.run k (fun i => d (j * (steps + 1) + i))) N false none (.int steps) geom = .ok S ∧
        Answers (hoeffding alpha) S u v true ∧
        2 * ((Real.sqrt (1 / prefixCount (S.sequences.zip S.times) u) + Real.sqrt (1 / prefixCount (S.sequences.zip S.times) v)) *
          Real.sqrt (1/2 * Real.log (2 / alpha))) ≤ |M.lik (u ++ [o]) / M.lik u - M.lik (v ++ [o]) / M.lik v|}
      ≤ 2 * alpha := by
  simp only [gen_eq kind _ N false none (.int steps) geom (fun _ => steps) (fun _ => rfl)]
  have hsim := M.simulates hM steps
  have hmono : ∀ u : List String, u ≠ [] → u.length ≤ steps → M.lik (u ++ [o]) ≤ M.lik u := by
    intro u hu hl
    rw [← M.prefix_law hM steps u hu (by omega), ← M.prefix_law hM steps (u ++ [o]) (by simp) (by simp; omega)]
    exact measureReal_mono (prefEvent_sub _ _ _)
  have hq : ∀ u : List String, u ≠ [] → u.length ≤ steps → 0 ≤ M.lik (u ++ [o]) / M.lik u ∧ M.lik (u ++ [o]) / M.lik u ≤ 1 ∧
      M.lik (u ++ [o]) = M.lik (u ++ [o]) / M.lik u * M.lik u := by
    intro u hu hl
    have h1 := M.lik_nonneg_pref hM u hu
    have h2 := M.lik_nonneg_pref hM (u ++ [o]) (by simp)
    refine ⟨div_nonneg h2 h1, div_le_one_of_le₀ (hmono u hu hl) h1, ?_⟩
    by_cases hz : M.lik u = 0
    · rw [hz, mul_zero]
      exact le_antisymm (hz ▸ hmono u hu hl) h2
    · rw [div_mul_cancel₀ _ hz]
  obtain ⟨p0, p1, pe⟩ := hq u hu hul
  obtain ⟨q0, q1, qe⟩ := hq v hv hvl
  refine (stream_le (Nat.succ_pos steps) (M.run_reads steps) (gen kind) N _).trans ?_
  refine accepts_law (hsim.block (Nat.succ_pos steps) (M.run_reads steps)) (gen_counts kind _ (fun w hw => by have := hw.1; omega))
    (fun w hw => hw.1) alpha ha ha2 u v (by omega) (by omega) o _ _ p0 p1 q0 q1 ?_ ?_ N (by omega)
  · rw [block_pref (Nat.succ_pos steps) (M.run_reads steps) hsim, block_pref (Nat.succ_pos steps) (M.run_reads steps) hsim,
      M.prefix_law hM steps _ (by simp) (by simp; omega), M.prefix_law hM steps _ hu (by omega)]
    exact pe
  · rw [block_pref (Nat.succ_pos steps) (M.run_reads steps) hsim, block_pref (Nat.succ_pos steps) (M.run_reads steps) hsim,
      M.prefix_law hM steps _ (by simp) (by simp; omega), M.prefix_law hM steps _ hv (by omega)]
    exact qe

end MC

/-! ### When the futures are the same -/

section same
variable {n : ℕ}

theorem Iface.seqLoop_scale (M : Iface ℝ String n) (c : ℝ) (v : Fin n → ℝ) (o : String) (os : List String) (s : Fin n) :
    M.seqLoop (fun s => c * v s) o os s = c * M.seqLoop v o os s := by
  induction os generalizing v o with
  | nil => simp only [Iface.seqLoop]; ring
  | cons o' os ih =>
    simp only [Iface.seqLoop]
    rw [← ih]
    congr 1
    funext s
    simp only [Iface.fwdStep, Finset.mul_sum]
    exact Finset.sum_congr rfl (fun _ _ => by ring)

theorem MC.seqLoop_append (M : MC ℝ String n) (v : Fin n → ℝ) (o : String) (os : List String) (o' : String) (os' : List String) :
    M.iface.seqLoop v o (os ++ o' :: os') = M.iface.seqLoop (fun s => ∑ ss, M.iface.seqLoop v o os ss * M.matrix ss s) o' os' := by
  induction os generalizing v o with
  | nil =>
    simp only [List.nil_append, Iface.seqLoop]
    congr 1
    funext s
    simp only [Iface.fwdStep, MC.iface, MC.tau]
    refine Finset.sum_congr rfl (fun ss _ => ?_)
    simp only [MC.b]
    by_cases h : o = M.labelling ss
    · simp [h]
    · simp [h, Ne.symm h]
  | cons o2 os ih =>
    simp only [List.cons_append, Iface.seqLoop]
    exact ih _ _

theorem MC.seqLoop_last (M : MC ℝ String n) (v : Fin n → ℝ) (o : String) (os : List String) (s : Fin n) (l : String)
    (hl : (o :: os).getLast? = some l) (hs : M.labelling s ≠ l) : M.iface.seqLoop v o os s = 0 := by
  induction os generalizing v o with
  | nil =>
    simp only [List.getLast?_singleton, Option.some.injEq] at hl
    subst hl
    simp only [Iface.seqLoop, MC.iface, MC.b]
    rw [if_neg hs, mul_zero]
  | cons o2 os ih =>
    simp only [Iface.seqLoop]
    exact ih _ _ (by rw [← hl, List.getLast?_cons_cons])

/-- C102: a case in which the hypothesis of `compatible_rejects` holds: the two words end with a label that belongs to one state only. -/
theorem MC.sameFutures_of_label (M : MC ℝ String n) (u v : List String) (l : String) (hu : u.getLast? = some l) (hv : v.getLast? = some l)
    (s₀ : Fin n) (hl : ∀ s, M.labelling s = l → s = s₀) : SameFutures M.lik u v := by
  have hlik : ∀ w : List String, ∀ o os, w = o :: os → M.lik w = ∑ s, M.iface.seqLoop M.initialState o os s := by
    rintro w o os rfl
    have := M.seqProb_eq_paths (o :: os) (by simp)
    simp only [Iface.seqProb] at this
    injection this with this
    exact this.symm
  have key : ∀ u : List String, u.getLast? = some l → ∃ A, M.lik u = A ∧ ∀ o' os', M.lik (u ++ o' :: os') =
      A * ∑ s, M.iface.seqLoop (fun s => M.matrix s₀ s) o' os' s := by
    intro u hu
    cases u with
    | nil => simp at hu
    | cons o os =>
      refine ⟨M.iface.seqLoop M.initialState o os s₀, ?_, fun o' os' => ?_⟩
      · rw [hlik _ o os rfl]
        refine Finset.sum_eq_single s₀ (fun s _ hs => ?_) (fun h => absurd (Finset.mem_univ _) h)
        exact M.seqLoop_last _ _ _ _ l hu (fun e => hs (hl s e))
      · rw [hlik ((o :: os) ++ o' :: os') o (os ++ o' :: os') rfl, M.seqLoop_append, Finset.mul_sum]
        refine Finset.sum_congr rfl (fun s _ => ?_)
        rw [← Iface.seqLoop_scale]
        congr 1
        funext s
        refine Finset.sum_eq_single s₀ (fun s' _ hs => ?_) (fun h => absurd (Finset.mem_univ _) h)
        rw [M.seqLoop_last _ _ _ _ l hu (fun e => hs (hl s' e)), zero_mul]
  intro w
  obtain ⟨A, a1, a2⟩ := key u hu
  obtain ⟨B, b1, b2⟩ := key v hv
  cases w with
  | nil => simp only [List.append_nil]; ring
  | cons o' os' =>
    rw [a2, b2, a1, b1]
    ring

/-! ### Examples -/

/-- From 'a' the chain stays or goes to 'b', where it stays. -/
noncomputable def errorChain : MC ℝ String 2 := ⟨!![1/2, 1/2; 0, 1], ["a", "b"].get, fun s => if s = 0 then 1 else 0⟩

theorem errorChain_stochastic : errorChain.Stochastic := by
  refine ⟨fun s => ?_, by simp [errorChain], fun s s' => ?_, fun s => ?_⟩
  · simp only [errorChain]; split_ifs <;> norm_num
  · fin_cases s <;> fin_cases s' <;> norm_num [errorChain]
  · fin_cases s <;> norm_num [errorChain, Fin.sum_univ_two]

/-- The words `a b` and `a a b` have the same futures: with `alpha = 0.05` and traces of 4 labels, the two states are separated by mistake with
a probability of at most 0.2. -/
example (N : ℕ) : drawsLaw.real {d | ∃ S, generateSet (fun _ => .str) (fun j k => errorChain.run k (fun i => d (j * 4 + i))) N false none (.int 3)
      (fun _ => 0) = .ok S ∧ Answers (hoeffding (1/20)) S ["a", "b"] ["a", "a", "b"] false} ≤ 1/5 := by
  refine (errorChain.compatible_rejects errorChain_stochastic (fun _ => .str) 3 (by norm_num) (fun _ => 0) (1/20) (by norm_num) (by norm_num)
    ["a", "b"] ["a", "a", "b"] (by simp) (by simp) (by simp)
    (errorChain.sameFutures_of_label _ _ "b" (by simp) (by simp) 1 (by intro s; fin_cases s <;> simp [errorChain])) N).trans ?_
  have : (Finset.univ.image errorChain.labelling).card ≤ 2 := Finset.card_image_le
  have h2 : ((Finset.univ.image errorChain.labelling).card : ℝ) ≤ 2 := by exact_mod_cast this
  simp
  linarith

/-- 'b' has the probability 1/2 after `a` and 1 after `a b`: with 1000 training traces for each of the two words the difference is more than
twice the bound of the test with `alpha = 0.05`. -/
example : 2 * ((Real.sqrt (1 / (1000:ℕ)) + Real.sqrt (1 / (1000:ℕ))) * Real.sqrt (1/2 * Real.log (2 / (1/20 : ℝ))))
    ≤ |errorChain.lik (["a"] ++ ["b"]) / errorChain.lik ["a"] - errorChain.lik (["a", "b"] ++ ["b"]) / errorChain.lik ["a", "b"]| := by
  have e1 : errorChain.lik ["a"] = 1 := by
    have := errorChain.seqProb_eq_paths ["a"] (by simp)
    injection this with this
    rw [show errorChain.lik ["a"] = _ from this.symm]
    simp [Iface.seqLoop, MC.iface, MC.b, errorChain]
  have e2 : errorChain.lik ["a", "b"] = 1/2 := by
    have := errorChain.seqProb_eq_paths ["a", "b"] (by simp)
    injection this with this
    rw [show errorChain.lik ["a", "b"] = _ from this.symm]
    simp [Iface.seqLoop, Iface.fwdStep, MC.iface, MC.b, MC.tau, errorChain, Fin.sum_univ_two]
  have e3 : errorChain.lik ["a", "b", "b"] = 1/2 := by
    have := errorChain.seqProb_eq_paths ["a", "b", "b"] (by simp)
    injection this with this
    rw [show errorChain.lik ["a", "b", "b"] = _ from this.symm]
    simp [Iface.seqLoop, Iface.fwdStep, MC.iface, MC.b, MC.tau, errorChain, Fin.sum_univ_two]
  simp only [List.cons_append, List.nil_append]
  rw [e1, e2, e3]
  have h1 : Real.sqrt (1 / ((1000:ℕ):ℝ)) ≤ 1/30 := by
    rw [Real.sqrt_le_left (by norm_num)]
    norm_num
  have h2 : Real.sqrt (1/2 * Real.log (2 / (1/20 : ℝ))) ≤ 3/2 := by
    rw [Real.sqrt_le_left (by norm_num)]
    have : Real.log (2 / (1/20 : ℝ)) ≤ 9/2 := by
      rw [Real.log_le_iff_le_exp (by norm_num)]
      have h4 : Real.exp (9/2) = Real.exp 2 * Real.exp 2 * Real.exp (1/2) := by rw [← Real.exp_add, ← Real.exp_add]; norm_num
      have h5 := Real.quadratic_le_exp_of_nonneg (show (0:ℝ) ≤ 1 by norm_num)
      have h6 : Real.exp 2 = Real.exp 1 * Real.exp 1 := by rw [← Real.exp_add]; norm_num
      rw [h4, h6]
      have h7 : (2.5:ℝ) ≤ Real.exp 1 := by linarith
      have h8 : (2.5:ℝ) * 2.5 ≤ Real.exp 1 * Real.exp 1 := mul_le_mul h7 h7 (by norm_num) (by linarith)
      have h9 := mul_le_mul h8 h8 (by norm_num) (by linarith)
      have h10 := mul_le_mul h9 (Real.add_one_le_exp (1/2)) (by norm_num) (by linarith)
      refine le_trans ?_ h10
      norm_num
    linarith
  have h0 := Real.sqrt_nonneg (1 / ((1000:ℕ):ℝ))
  have h3 := Real.sqrt_nonneg (1/2 * Real.log (2 / (1/20 : ℝ)))
  rw [show |(1:ℝ) / 2 / 1 - 1 / 2 / (1 / 2)| = 1/2 by norm_num [abs_of_nonpos]]
  have h4 : (Real.sqrt (1 / ((1000:ℕ):ℝ)) + Real.sqrt (1 / ((1000:ℕ):ℝ))) * Real.sqrt (1/2 * Real.log (2 / (1/20 : ℝ))) ≤ (1/30 + 1/30) * (3/2) :=
    mul_le_mul (add_le_add h1 h1) h2 h3 (by norm_num)
  linarith

end same

end Jajapy
