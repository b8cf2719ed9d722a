import Verif.Lemmas.OneStream

/-!
Consecutive calls of a simulator that reads a random number of random numbers, from one sequence of random numbers.
-/

set_option linter.unusedSectionVars false

namespace Jajapy

open MeasureTheory ProbabilityTheory Spec Filter Topology

/-- The sequence without its first `k` numbers. -/
def dropDraws (k : ℕ) (d : ℕ → ℝ) : ℕ → ℝ := fun i => d (k + i)

theorem measurable_dropDraws (k : ℕ) : Measurable (dropDraws k) :=
  measurable_pi_iff.2 (fun i => measurable_pi_apply (k + i))

theorem dropDraws_cons (k : ℕ) (r : ℝ) (d : ℕ → ℝ) : dropDraws (k+1) (consDraw (r, d)) = dropDraws k d := by
  funext i
  simp only [dropDraws]
  rw [show k + 1 + i = (k + i) + 1 by omega]
  rfl

/-- What depends on the first `k` numbers is independent of the following ones. -/
theorem first_indep (k : ℕ) (A B : Set (ℕ → ℝ)) (hA : MeasurableSet A) (hB : MeasurableSet B)
    (hr : ∀ d d' : ℕ → ℝ, (∀ i < k, d i = d' i) → (d ∈ A ↔ d' ∈ A)) :
    drawsLaw (A ∩ {d | dropDraws k d ∈ B}) = drawsLaw A * drawsLaw B := by
  induction k generalizing A with
  | zero =>
    have e : ({d | dropDraws 0 d ∈ B} : Set (ℕ → ℝ)) = B := by
      ext d
      have : dropDraws 0 d = d := by funext i; simp [dropDraws]
      simp [this]
    rw [e]
    by_cases hne : A.Nonempty
    · obtain ⟨d, hd⟩ := hne
      have : A = Set.univ := Set.eq_univ_of_forall (fun d' => (hr d d' (by simp)).1 hd)
      rw [this]
      simp
    · rw [Set.not_nonempty_iff_eq_empty] at hne
      simp [hne]
  | succ k ih =>
    have hC : MeasurableSet (A ∩ {d | dropDraws (k+1) d ∈ B}) := hA.inter (measurable_dropDraws _ hB)
    have key : ∀ E : Set (ℕ → ℝ), MeasurableSet E → drawsLaw E = ∫⁻ r, drawsLaw {d | consDraw (r, d) ∈ E} ∂uniform := by
      intro E hE
      conv_lhs => rw [← map_consDraw]
      rw [MeasurableEquiv.map_apply, Measure.prod_apply (consEquiv.measurable hE)]
      rfl
    rw [key _ hC, key A hA, ← lintegral_mul_const]
    · congr 1
      funext r
      rw [← ih {d | consDraw (r, d) ∈ A}]
      · congr 1
        ext d
        simp only [Set.mem_ofPred_eq, Set.mem_inter_iff, dropDraws_cons]
      · exact (consEquiv.measurable.comp measurable_prodMk_left) hA
      · intro d d' h
        refine hr _ _ (fun i hi => ?_)
        cases i with
        | zero => rfl
        | succ i => exact h i (by omega)
    · exact measurable_measure_prodMk_left (consEquiv.measurable hA)

variable {O : Type} [DecidableEq O] {sim : (ℕ → ℝ) → Py (List O)} {W : Set (List O)} {κ : (ℕ → ℝ) → ℕ}

/-- The simulator, if it succeeds, has read the first `κ d` numbers only. -/
structure Stops (sim : (ℕ → ℝ) → Py (List O)) (κ : (ℕ → ℝ) → ℕ) : Prop where
  meas : Measurable κ
  stable : ∀ d d' : ℕ → ℝ, (∃ w, sim d = .ok w) → (∀ i < κ d, d i = d' i) → sim d' = sim d ∧ κ d' = κ d

/-- The numbers that are left after one call. -/
def later (κ : (ℕ → ℝ) → ℕ) (d : ℕ → ℝ) : ℕ → ℝ := dropDraws (κ d) d

/-- The numbers that are left after `j` calls. -/
def laterN (κ : (ℕ → ℝ) → ℕ) : ℕ → (ℕ → ℝ) → ℕ → ℝ
  | 0, d => d
  | j + 1, d => laterN κ j (later κ d)

theorem measurable_later (hκ : Measurable κ) : Measurable (later κ) := by
  refine measurable_pi_iff.2 (fun i => ?_)
  intro S hS
  have e : (fun d : ℕ → ℝ => later κ d i) ⁻¹' S = ⋃ k, {d | κ d = k} ∩ {d | d (k + i) ∈ S} := by
    ext d
    simp [later, dropDraws]
  rw [e]
  exact MeasurableSet.iUnion (fun k => (hκ (measurableSet_singleton k)).inter ((measurable_pi_apply (k + i)) hS))

theorem measurable_laterN (hκ : Measurable κ) (j : ℕ) : Measurable (laterN κ j) := by
  induction j with
  | zero => exact measurable_id
  | succ j ih => exact ih.comp (measurable_later hκ)

theorem Simulates.ae_ok (h : Simulates drawsLaw sim W) : ∀ᵐ d ∂drawsLaw, ∃ w, sim d = .ok w := by
  rw [ae_iff]
  exact (prob_compl_eq_zero_iff h.meas_ok).2 h.total

/-- The result of a call is independent of the numbers that are left. -/
theorem Stops.indep (hk : Stops sim κ) (h : Simulates drawsLaw sim W) (t : Set (Py (List O))) (ht : MeasurableSet (sim ⁻¹' t))
    (B : Set (ℕ → ℝ)) (hB : MeasurableSet B) :
    drawsLaw {d | sim d ∈ t ∧ later κ d ∈ B} = drawsLaw (sim ⁻¹' t) * drawsLaw B := by
  set A : ℕ → Set (ℕ → ℝ) := fun k => {d | (∃ w, sim d = .ok w) ∧ κ d = k ∧ sim d ∈ t} with hA
  have hAm : ∀ k, MeasurableSet (A k) := fun k => h.meas_ok.inter ((hk.meas (measurableSet_singleton k)).inter ht)
  have hAd : Pairwise (Function.onFun Disjoint A) := by
    intro i j hij
    rw [Function.onFun, Set.disjoint_left]
    rintro d ⟨_, h1, _⟩ ⟨_, h2, _⟩
    exact hij (h1.symm.trans h2)
  have e1 : drawsLaw {d | sim d ∈ t ∧ later κ d ∈ B} = drawsLaw (⋃ k, A k ∩ {d | dropDraws k d ∈ B}) := by
    refine measure_congr ?_
    filter_upwards [h.ae_ok] with d hd
    refine propext ?_
    change (sim d ∈ t ∧ later κ d ∈ B) ↔ d ∈ ⋃ k, A k ∩ {d | dropDraws k d ∈ B}
    simp only [Set.mem_iUnion, Set.mem_inter_iff, Set.mem_ofPred_eq, hA]
    constructor
    · rintro ⟨h1, h2⟩
      exact ⟨κ d, ⟨hd, rfl, h1⟩, h2⟩
    · rintro ⟨k, ⟨_, rfl, h1⟩, h2⟩
      exact ⟨h1, h2⟩
  have e2 : drawsLaw (sim ⁻¹' t) = drawsLaw (⋃ k, A k) := by
    refine measure_congr ?_
    filter_upwards [h.ae_ok] with d hd
    refine propext ?_
    change sim d ∈ t ↔ d ∈ ⋃ k, A k
    simp only [Set.mem_iUnion, Set.mem_ofPred_eq, hA]
    exact ⟨fun h1 => ⟨κ d, hd, rfl, h1⟩, fun ⟨_, _, _, h1⟩ => h1⟩
  have hm2 : ∀ k, MeasurableSet (A k ∩ {d | dropDraws k d ∈ B}) := fun k => (hAm k).inter (measurable_dropDraws k hB)
  rw [e1, e2, measure_iUnion _ hm2, measure_iUnion hAd hAm, ← ENNReal.tsum_mul_right]
  · congr 1
    funext k
    refine first_indep k _ _ (hAm k) hB (fun d d' hdd => ?_)
    constructor
    · rintro ⟨h1, h2, h3⟩
      obtain ⟨h4, h5⟩ := hk.stable d d' h1 (by rw [h2]; exact hdd)
      exact ⟨by rw [h4]; exact h1, by rw [h5]; exact h2, by rw [h4]; exact h3⟩
    · rintro ⟨h1, h2, h3⟩
      obtain ⟨h4, h5⟩ := hk.stable d' d h1 (by rw [h2]; exact fun i hi => (hdd i hi).symm)
      exact ⟨by rw [h4]; exact h1, by rw [h5]; exact h2, by rw [h4]; exact h3⟩
  · intro i j hij
    exact (hAd hij).mono Set.inter_subset_left Set.inter_subset_left

theorem Stops.prod (hk : Stops sim κ) (h : Simulates drawsLaw sim W) (N : ℕ) (t : ℕ → Set (Py (List O)))
    (ht : ∀ j, MeasurableSet (sim ⁻¹' (t j))) :
    drawsLaw {d | ∀ j < N, sim (laterN κ j d) ∈ t j} = ∏ j ∈ Finset.range N, drawsLaw (sim ⁻¹' (t j)) := by
  induction N generalizing t with
  | zero => simp
  | succ N ih =>
    have e : {d | ∀ j < N + 1, sim (laterN κ j d) ∈ t j}
        = {d | sim d ∈ t 0 ∧ later κ d ∈ {d | ∀ j < N, sim (laterN κ j d) ∈ t (j+1)}} := by
      ext d
      simp only [Set.mem_ofPred_eq]
      constructor
      · intro h1
        exact ⟨h1 0 (by omega), fun j hj => h1 (j+1) (by omega)⟩
      · rintro ⟨h1, h2⟩ j hj
        cases j with
        | zero => exact h1
        | succ j => exact h2 j (by omega)
    have hm : MeasurableSet {d | ∀ j < N, sim (laterN κ j d) ∈ t (j+1)} := by
      have : {d | ∀ j < N, sim (laterN κ j d) ∈ t (j+1)} = ⋂ j ∈ Finset.range N, laterN κ j ⁻¹' (sim ⁻¹' (t (j+1))) := by
        ext d
        simp
      rw [this]
      exact Finset.measurableSet_biInter _ (fun j _ => measurable_laterN hk.meas j (ht (j+1)))
    rw [e, hk.indep h _ (ht 0) _ hm, ih (fun j => t (j+1)) (fun j => ht (j+1)), Finset.prod_range_succ', mul_comm]

section law
variable (sim) in
/-- The results with the largest σ-algebra for which the simulator is measurable. -/
@[reducible] def simSpace : MeasurableSpace (Py (List O)) := MeasurableSpace.map sim inferInstance

variable (sim) in
/-- The law of the result of one call. -/
noncomputable def resultLaw : @Measure (Py (List O)) (simSpace sim) := @Measure.map _ _ _ (simSpace sim) sim drawsLaw

theorem measurable_sim : @Measurable _ _ _ (simSpace sim) sim := fun _ ht => ht

instance : @IsProbabilityMeasure _ (simSpace sim) (resultLaw sim) := by
  letI := simSpace sim
  exact Measure.isProbabilityMeasure_map measurable_sim.aemeasurable

theorem Stops.law (hk : Stops sim κ) (h : Simulates drawsLaw sim W) :
    letI := simSpace sim
    MeasurePreserving (fun d j => sim (laterN κ j d)) drawsLaw (callsLaw (resultLaw sim)) := by
  letI := simSpace sim
  have hm : Measurable (fun (d : ℕ → ℝ) (j : ℕ) => sim (laterN κ j d)) :=
    measurable_pi_iff.2 (fun j => measurable_sim.comp (measurable_laterN hk.meas j))
  refine ⟨hm, ?_⟩
  unfold callsLaw
  refine Measure.eq_infinitePi _ ?_
  intro s t ht
  classical
  rw [Measure.map_apply hm (MeasurableSet.pi s.countable_toSet (fun i _ => ht i))]
  set t' : ℕ → Set (Py (List O)) := fun j => if j ∈ s then t j else Set.univ with ht'
  have hmt' : ∀ j, MeasurableSet (sim ⁻¹' (t' j)) := by
    intro j
    simp only [ht']
    split_ifs with hj
    · exact ht j
    · exact MeasurableSet.univ
  have hN : ∀ j ∈ s, j < s.sup id + 1 := fun j hj => Nat.lt_succ_of_le (Finset.le_sup (f := id) hj)
  have e : (fun (d : ℕ → ℝ) (j : ℕ) => sim (laterN κ j d)) ⁻¹' (Set.pi (s : Set ℕ) t)
      = {d | ∀ j < s.sup id + 1, sim (laterN κ j d) ∈ t' j} := by
    ext d
    simp only [Set.mem_preimage, Set.mem_pi, Finset.mem_coe, Set.mem_ofPred_eq, ht']
    constructor
    · intro h1 j _
      split_ifs with hj
      · exact h1 j hj
      · trivial
    · intro h1 j hj
      have := h1 j (hN j hj)
      rwa [if_pos hj] at this
  rw [e, hk.prod h _ _ hmt']
  have hsub : s ⊆ Finset.range (s.sup id + 1) := fun j hj => Finset.mem_range.2 (hN j hj)
  rw [← Finset.prod_subset hsub]
  · refine Finset.prod_congr rfl (fun j hj => ?_)
    simp only [ht', if_pos hj, resultLaw]
    rw [Measure.map_apply measurable_sim (ht j)]
  · intro j _ hj
    simp [ht', hj]

open Classical in
/-- The results that are traces of `W`. -/
noncomputable def keepIn (W : Set (List O)) (y : Py (List O)) : Py (List O) :=
  if ∃ w ∈ W, y = .ok w then y else .error .valueError

theorem keepIn_ok (W : Set (List O)) (y : Py (List O)) (w : List O) : keepIn W y = .ok w ↔ w ∈ W ∧ y = .ok w := by
  unfold keepIn
  split_ifs with hc
  · obtain ⟨w', h1, rfl⟩ := hc
    constructor
    · intro h; injection h with h; subst h; exact ⟨h1, rfl⟩
    · intro h; exact h.2
  · constructor
    · intro h; cases h
    · intro h; exact absurd ⟨w, h.1, h.2⟩ hc

theorem Simulates.keep_ok (h : Simulates drawsLaw sim W) (d : ℕ → ℝ) (w : List O) : keepIn W (sim d) = .ok w ↔ sim d = .ok w := by
  rw [keepIn_ok]
  exact ⟨fun h1 => h1.2, fun h1 => ⟨h.mem d w h1, h1⟩⟩

theorem Simulates.results (h : Simulates drawsLaw sim W) :
    letI := simSpace sim
    Simulates (resultLaw sim) (keepIn W) W := by
  letI := simSpace sim
  have hm : ∀ w, MeasurableSet {y | keepIn W y = .ok w} := by
    intro w
    change MeasurableSet (sim ⁻¹' _)
    have : sim ⁻¹' {y | keepIn W y = .ok w} = {d | sim d = .ok w} := by
      ext d
      exact h.keep_ok d w
    rw [this]
    exact h.meas w
  refine ⟨h.countable, fun y w hw => ((keepIn_ok W y w).1 hw).1, hm, ?_⟩
  have e : sim ⁻¹' {y | ∃ w, keepIn W y = .ok w} = {d | ∃ w, sim d = .ok w} := by
    ext d
    exact exists_congr (fun w => h.keep_ok d w)
  rw [resultLaw, Measure.map_apply measurable_sim (by change MeasurableSet (sim ⁻¹' _); rw [e]; exact h.meas_ok), e, h.total]

theorem Simulates.result_law (h : Simulates drawsLaw sim W) (w : List O) :
    (resultLaw sim) {y | keepIn W y = .ok w} = drawsLaw {d | sim d = .ok w} := by
  letI := simSpace sim
  have hm := h.results.meas w
  rw [resultLaw, Measure.map_apply measurable_sim hm]
  congr 1
  ext d
  exact h.keep_ok d w

/-- All the calls succeed, almost surely. -/
theorem Stops.all_ok (hk : Stops sim κ) (h : Simulates drawsLaw sim W) : ∀ᵐ d ∂drawsLaw, ∀ j, ∃ w, sim (laterN κ j d) = .ok w := by
  letI := simSpace sim
  have h1 := (hk.law h).quasiMeasurePreserving.ae h.results.all_ok
  filter_upwards [h1] with d hd j
  obtain ⟨w, hw⟩ := hd j
  exact ⟨w, (h.keep_ok _ w).1 hw⟩

theorem keep_eq (h : Simulates drawsLaw sim W) (d : ℕ → ℝ) (hd : ∃ w, sim d = .ok w) : keepIn W (sim d) = sim d := by
  obtain ⟨w, hw⟩ := hd
  rw [hw]
  rw [← hw]
  rw [(h.keep_ok d w).2 hw, hw]

/-- The binomial law, with consecutive calls that read a random number of numbers each. -/
theorem Stops.binomial {gen : (ℕ → Py (List O)) → ℕ → Py (TSet O)} (hgen : CountsTraces gen W)
    (hk : Stops sim κ) (h : Simulates drawsLaw sim W) (w : List O) (p : ℝ) (hp0 : 0 ≤ p)
    (hp : drawsLaw {d | sim d = .ok w} = ENNReal.ofReal p) (N m : ℕ) :
    drawsLaw {d | ∃ S, gen (fun j => sim (laterN κ j d)) N = .ok S ∧ S.mult w = m}
      = ENNReal.ofReal (N.choose m * (p ^ m * (1 - p) ^ (N - m))) := by
  letI := simSpace sim
  have h1 := h.results.binomial hgen w p hp0 (by rw [h.result_law, hp]) N m
  rw [← h1, ← (hk.law h).measure_preimage]
  · refine measure_congr ?_
    filter_upwards [hk.all_ok h] with d hd
    refine propext ?_
    change (∃ S, gen (fun j => sim (laterN κ j d)) N = .ok S ∧ S.mult w = m) ↔
      ∃ S, gen (fun j => keepIn W (sim (laterN κ j d))) N = .ok S ∧ S.mult w = m
    simp only [fun j => keep_eq h (laterN κ j d) (hd j)]
  · refine (h.results.measurable_occ w N m).nullMeasurableSet.congr ?_
    exact (h.results.ae_mult hgen w N m).symm

/-- The frequencies, with consecutive calls that read a random number of numbers each. -/
theorem Stops.frequencies {gen : (ℕ → Py (List O)) → ℕ → Py (TSet O)} (hgen : CountsTraces gen W)
    (hk : Stops sim κ) (h : Simulates drawsLaw sim W) :
    ∀ᵐ d ∂drawsLaw, ∃ S : ℕ → TSet O, (∀ N, gen (fun j => sim (laterN κ j d)) N = .ok (S N) ∧ (S N).Countable ∧
        (S N).times.sum = N ∧ ∀ w ∈ (S N).sequences, w ∈ W) ∧
      ∀ w, Tendsto (fun N : ℕ => ((S N).mult w : ℝ) / N) atTop (𝓝 (drawsLaw {d | sim d = .ok w}).toReal) := by
  letI := simSpace sim
  have h1 := (hk.law h).quasiMeasurePreserving.ae (h.results.frequencies hgen)
  filter_upwards [h1, hk.all_ok h] with d hd hok
  obtain ⟨S, h2, h3⟩ := hd
  refine ⟨S, fun N => ?_, fun w => ?_⟩
  · have := h2 N
    simp only [fun j => keep_eq h (laterN κ j d) (hok j)] at this
    exact this
  · rw [← h.result_law]
    exact h3 w

end law
end Jajapy
