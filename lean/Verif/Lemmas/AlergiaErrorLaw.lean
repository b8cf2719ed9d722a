import Verif.Lemmas.AlergiaError
import Verif.Spec.AlergiaError

/-!
C102: the probability of a wrong answer, for a simulator whose traces have the same length.
-/

set_option linter.unusedSectionVars false

namespace Jajapy

open MeasureTheory ProbabilityTheory Spec Spec.Alergia Alergia Heap

variable {Ω : Type} [MeasurableSpace Ω] {μ : Measure Ω} [IsProbabilityMeasure μ] {sim : Ω → Py (List String)} {W : Set (List String)}

theorem occ_pos_iff {D : ℕ → Ω} {A : Set Ω} {N : ℕ} : 0 < occ D A N ↔ ∃ j < N, D j ∈ A := by
  classical
  unfold occ
  rw [Finset.card_pos]
  constructor
  · rintro ⟨j, hj⟩
    simp only [Finset.mem_filter, Finset.mem_range] at hj
    exact ⟨j, hj⟩
  · rintro ⟨j, hj⟩
    refine ⟨j, ?_⟩
    simp only [Finset.mem_filter, Finset.mem_range]
    exact hj

/-- The numbers of the node of a word. -/
theorem node_counts (h : Simulates μ sim W) {len : ℕ} (hlen : ∀ w ∈ W, w.length = len) (D : ℕ → Ω) (hD : ∀ j : ℕ, ∃ w, sim (D j) = .ok w)
    (N : ℕ) (S : TSet String) (hS : S.Countable) (hm : ∀ w, S.mult w = occ D {ω | sim ω = .ok w} N)
    {word : ℕ → List String} {ts : List (List String × ℕ)} (T : TreeOf (createPTA S).heap word ts)
    (hp : ts.Perm (S.sequences.zip S.times)) {x : ℕ} (hx : x < (createPTA S).heap.size) :
    (leaving (createPTA S).heap x ≠ 0 → (word x).length < len ∧ leaving (createPTA S).heap x = occ D (prefEvent sim (word x)) N) ∧
    ((word x).length < len → leaving (createPTA S).heap x = occ D (prefEvent sim (word x)) N) ∧
    ∀ o, nextCount (createPTA S).heap x o = occ D (prefEvent sim (word x ++ [o])) N := by
  have hpc : ∀ u, prefixCount ts u = occ D (prefEvent sim u) N := by
    intro u
    rw [prefixCount_perm hp, prefixCount_eq_occ D hD N S hm u]
  have hfl := T.flow_node hx
  rw [hpc] at hfl
  have hlt : (word x).length < len → leaving (createPTA S).heap x = occ D (prefEvent sim (word x)) N := by
    intro hl
    have hc : (createPTA S).heap.count x = 0 := by
      rw [T.cnt x hx, traceCount_perm hp, show traceCount (S.sequences.zip S.times) (word x) = S.mult (word x) from rfl, hm]
      by_contra hne
      obtain ⟨j, _, hj⟩ := occ_pos_iff.1 (Nat.pos_of_ne_zero hne)
      have := hlen _ (h.mem _ _ hj)
      omega
    omega
  refine ⟨fun hne => ?_, hlt, fun o => by rw [T.nextCount hx, hpc]⟩
  have hle : (word x).length < len := by
    by_contra hge
    have hk : ∃ q, q ∈ (createPTA S).heap.kids x := by
      by_contra hno
      push Not at hno
      apply hne
      unfold leaving
      rw [List.eq_nil_iff_forall_not_mem.2 hno]
      rfl
    obtain ⟨q, hq⟩ := hk
    obtain ⟨a, _, b, _⟩ := T.kid x hx q hq
    rcases (T.words (word q.1)).2 ⟨q.1, a, rfl⟩ with e | ⟨t, ht, hpre⟩
    · rw [b] at e; simp at e
    · have ht' := hp.mem_iff.1 ht
      have hpos : 1 ≤ t.2 := hS.2.1 _ (List.of_mem_zip ht').2
      have hocc : 1 ≤ traceCount (S.sequences.zip S.times) t.1 := by
        unfold traceCount
        refine hpos.trans (List.single_le_sum (fun _ _ => Nat.zero_le _) _ (List.mem_map.2 ⟨t, List.mem_filter.2 ⟨ht', by simp⟩, rfl⟩))
      rw [show traceCount (S.sequences.zip S.times) t.1 = S.mult t.1 from rfl, hm] at hocc
      obtain ⟨j, _, hj⟩ := occ_pos_iff.1 hocc
      have := hlen _ (h.mem _ _ hj)
      have := hpre.length_le
      rw [b] at this
      simp at this
      omega
  exact ⟨hle, hlt hle⟩

/-- The traces with a given prefix are in `W`. -/
theorem occ_pref_pos (h : Simulates μ sim W) {D : ℕ → Ω} {N : ℕ} {u : List String} (hpos : 0 < occ D (prefEvent sim u) N) :
    ∃ w ∈ W, u <+: w := by
  obtain ⟨j, _, hj⟩ := occ_pos_iff.1 hpos
  obtain ⟨w, hw, hu⟩ := hj
  exact ⟨w, h.mem _ _ hw, hu⟩

theorem next_pos {h : Heap} {word : ℕ → List String} {ts : List (List String × ℕ)} (T : TreeOf h word ts) {x : ℕ}
    (hx : x < h.size) (hts : ∀ t ∈ ts, 1 ≤ t.2) {o : String} (hn : Next h x o) : 0 < nextCount h x o := by
  obtain ⟨q, hq, hl⟩ := hn
  unfold nextCount
  have hk := (T.wf hts).edges x (Finset.mem_range.2 hx) q hq
  have : q.2 ≤ (((h.kids x).filter (fun q => h.label q.1 = o)).map (·.2)).sum :=
    List.single_le_sum (fun _ _ => Nat.zero_le _) _ (List.mem_map.2 ⟨q, List.mem_filter.2 ⟨hq, by simp [hl]⟩, rfl⟩)
  omega

/-- When the states reached by `u` and `v` are declared incompatible, the test has rejected the frequencies of a letter after `u ++ w` and
after `v ++ w`. -/
theorem rejected_test (h : Simulates μ sim W) {len : ℕ} (hlen : ∀ w ∈ W, w.length = len) (Λ : Finset String) (hΛ : ∀ w ∈ W, ∀ o ∈ w, o ∈ Λ)
    (α : ℝ) (h0 : 0 < α) (h2 : α ≤ 2) (u v : List String) (hu : u ≠ []) (hv : v ≠ []) (hlast : u.getLast? = v.getLast?)
    (D : ℕ → Ω) (hD : ∀ j : ℕ, ∃ w, sim (D j) = .ok w) (N : ℕ) (S : TSet String) (hS : S.Countable)
    (hm : ∀ w, S.mult w = occ D {ω | sim ω = .ok w} N) (ha : Answers (hoeffding α) S u v false) :
    ∃ w o, ((∀ l ∈ w ++ [o], l ∈ Λ) ∧ ∀ l ∈ w, l ∈ (createPTA S).alphabet) ∧ u.length + w.length + 1 ≤ len ∧ v.length + w.length + 1 ≤ len ∧
      Tools.hoeffdingBound (occ D (prefEvent sim (u ++ w ++ [o])) N) (occ D (prefEvent sim (u ++ w)) N)
        (occ D (prefEvent sim (v ++ w ++ [o])) N) (occ D (prefEvent sim (v ++ w)) N) α = .ok false := by
  obtain ⟨x, y, hx, hy, hc⟩ := ha
  obtain ⟨word, ts, T, hp⟩ := treeOf_createPTA S hS.1
  obtain ⟨hxs, hxw⟩ := (T.follow u T.pos).1 hx
  obtain ⟨hys, hyw⟩ := (T.follow v T.pos).1 hy
  rw [T.w0, List.nil_append] at hxw hyw
  have hts : ∀ t ∈ ts, 1 ≤ t.2 := fun t ht => hS.2.1 _ (List.of_mem_zip (hp.mem_iff.1 ht)).2
  have hnot : ¬ AlikeFutures (hoeffding α) {l | l ∈ (createPTA S).alphabet} (createPTA S).heap x y := by
    intro hA
    have := (compatible_iff_partial (hoeffding_total α h0 h2) (T.wf hts) _ x (Finset.mem_range.2 hxs) y (Finset.mem_range.2 hys) false hc).2 hA
    cases this
  unfold AlikeFutures at hnot
  push Not at hnot
  obtain ⟨w, hwal, x', y', hx', hy', hna⟩ := hnot
  obtain ⟨hxs', hxw'⟩ := (T.follow w hxs).1 hx'
  obtain ⟨hys', hyw'⟩ := (T.follow w hys).1 hy'
  rw [hxw] at hxw'
  rw [hyw] at hyw'
  have hlab : (createPTA S).heap.label x' = (createPTA S).heap.label y' := by
    have l1 := T.last hxs' (by rw [hxw']; simp [hu])
    have l2 := T.last hys' (by rw [hyw']; simp [hv])
    rw [hxw', List.getLast?_append] at l1
    rw [hyw', List.getLast?_append, ← hlast, l1] at l2
    injection l2
  unfold Alike at hna
  push Not at hna
  obtain ⟨n1, n2, o, ho, hb⟩ := hna hlab
  obtain ⟨c1, -, c2⟩ := node_counts h hlen D hD N S hS hm T hp hxs'
  obtain ⟨d1, -, d2⟩ := node_counts h hlen D hD N S hS hm T hp hys'
  obtain ⟨c3, c4⟩ := c1 n1
  obtain ⟨d3, d4⟩ := d1 n2
  rw [hxw'] at c2 c3 c4
  rw [hyw'] at d2 d3 d4
  refine ⟨w, o, ⟨?_, hwal⟩, ?_, ?_, ?_⟩
  · rcases ho with ho | ho
    · have := next_pos T hxs' hts ho
      rw [c2] at this
      obtain ⟨t, ht, htp⟩ := occ_pref_pos h this
      intro l hl
      refine hΛ t ht l (htp.subset ?_)
      rw [List.append_assoc]
      exact List.mem_append_right _ hl
    · have := next_pos T hys' hts ho
      rw [d2] at this
      obtain ⟨t, ht, htp⟩ := occ_pref_pos h this
      intro l hl
      refine hΛ t ht l (htp.subset ?_)
      rw [List.append_assoc]
      exact List.mem_append_right _ hl
  · rw [List.length_append] at c3
    omega
  · rw [List.length_append] at d3
    omega
  · obtain ⟨b, hbb⟩ := hoeffding_total α h0 h2 (nextCount (createPTA S).heap x' o) (leaving (createPTA S).heap x')
      (nextCount (createPTA S).heap y' o) (leaving (createPTA S).heap y')
    cases b with
    | true => exact absurd hbb hb
    | false =>
      unfold hoeffding at hbb
      rwa [c2, c4, d2, d4] at hbb

/-- The conditional probability of a letter is the same after `u ++ w` and after `v ++ w`. -/
theorem common_prob {lik : List String → ℝ} (hn : ∀ u, 0 ≤ lik u) (hmono : ∀ u v, lik (u ++ v) ≤ lik u) {u v w : List String} {o : String}
    (hw : lik (u ++ w) * lik v = lik (v ++ w) * lik u)
    (hwo : lik (u ++ (w ++ [o])) * lik v = lik (v ++ (w ++ [o])) * lik u) :
    ∃ p, 0 ≤ p ∧ p ≤ 1 ∧ lik (u ++ w ++ [o]) = p * lik (u ++ w) ∧ lik (v ++ w ++ [o]) = p * lik (v ++ w) := by
  rw [← List.append_assoc, ← List.append_assoc] at hwo
  have m1 := hmono (u ++ w) [o]
  have m2 := hmono (v ++ w) [o]
  have m3 := hmono u w
  by_cases hz : lik (u ++ w) = 0
  · have z1 : lik (u ++ w ++ [o]) = 0 := le_antisymm (hz ▸ m1) (hn _)
    by_cases hz2 : lik (v ++ w) = 0
    · have z2 : lik (v ++ w ++ [o]) = 0 := le_antisymm (hz2 ▸ m2) (hn _)
      exact ⟨0, le_rfl, zero_le_one, by rw [z1, zero_mul], by rw [z2, zero_mul]⟩
    · refine ⟨lik (v ++ w ++ [o]) / lik (v ++ w), div_nonneg (hn _) (hn _), div_le_one_of_le₀ m2 (hn _), by rw [z1, hz, mul_zero], ?_⟩
      rw [div_mul_cancel₀ _ hz2]
  · refine ⟨lik (u ++ w ++ [o]) / lik (u ++ w), div_nonneg (hn _) (hn _), div_le_one_of_le₀ m1 (hn _), by rw [div_mul_cancel₀ _ hz], ?_⟩
    have hu : lik u ≠ 0 := fun e => hz (le_antisymm (e ▸ m3) (hn _))
    have : lik (v ++ w ++ [o]) * lik u = lik (u ++ w ++ [o]) / lik (u ++ w) * lik (v ++ w) * lik u := by
      rw [← hwo, mul_assoc, ← hw]
      field_simp
    exact mul_right_cancel₀ hu this

/-- A generated set, almost surely. -/
theorem ae_bound (h : Simulates μ sim W) {gen : (ℕ → Py (List String)) → ℕ → Py (TSet String)} (hgen : CountsTraces gen W) (N : ℕ)
    (Q : TSet String → Prop) (E : Set (ℕ → Ω))
    (hE : ∀ D, (∀ j : ℕ, ∃ w, sim (D j) = .ok w) → ∀ S, S.Countable → (∀ w, S.mult w = occ D {ω | sim ω = .ok w} N) → Q S → D ∈ E) :
    (callsLaw μ).real {D | ∃ S, gen (fun i => sim (D i)) N = .ok S ∧ Q S} ≤ (callsLaw μ).real E := by
  unfold Measure.real
  refine ENNReal.toReal_mono (measure_ne_top _ _) (measure_mono_ae ?_)
  filter_upwards [h.all_ok] with D hD
  rintro ⟨S, hS, hQ⟩
  obtain ⟨S', h1, h2, -, -, h4⟩ := h.sets hgen D hD N
  rw [h1] at hS
  injection hS with hS
  subst hS
  exact hE D hD S' h2 h4 hQ

/-- A wrong rejection. -/
theorem rejects_law (h : Simulates μ sim W) {gen : (ℕ → Py (List String)) → ℕ → Py (TSet String)} (hgen : CountsTraces gen W)
    {len : ℕ} (hlen : ∀ w ∈ W, w.length = len) (Λ : Finset String) (hΛ : ∀ w ∈ W, ∀ o ∈ w, o ∈ Λ)
    (α : ℝ) (h0 : 0 < α) (h2 : α ≤ 2) (u v : List String) (hu : u ≠ []) (hv : v ≠ []) (hlast : u.getLast? = v.getLast?)
    (hfut : ∀ w, u.length + w.length ≤ len → v.length + w.length ≤ len →
      μ.real (prefEvent sim (u ++ w)) * μ.real (prefEvent sim v) = μ.real (prefEvent sim (v ++ w)) * μ.real (prefEvent sim u)) (N : ℕ) :
    (callsLaw μ).real {D | ∃ S, gen (fun i => sim (D i)) N = .ok S ∧ Answers (hoeffding α) S u v false}
      ≤ 2 * α * ∑ k ∈ Finset.Icc 1 (len - max u.length v.length), (Λ.card : ℝ) ^ k := by
  classical
  let bad : List String → Set (ℕ → Ω) := fun w' => {D | u.length + w'.length ≤ len ∧ v.length + w'.length ≤ len ∧ ∃ w o, w' = w ++ [o] ∧
    Tools.hoeffdingBound (occ D (prefEvent sim (u ++ w ++ [o])) N) (occ D (prefEvent sim (u ++ w)) N)
        (occ D (prefEvent sim (v ++ w ++ [o])) N) (occ D (prefEvent sim (v ++ w)) N) α = .ok false}
  have hbad : ∀ w', (callsLaw μ).real (bad w') ≤ 2 * α := by
    intro w'
    by_cases hl : u.length + w'.length ≤ len ∧ v.length + w'.length ≤ len
    · rcases List.eq_nil_or_concat w' with rfl | ⟨w, o, rfl⟩
      · have : bad [] = ∅ := by
          ext D
          simp [bad]
        rw [this, measureReal_empty]
        linarith
      · rw [List.concat_eq_append] at hl ⊢
        have hl' := hl
        simp only [List.length_append, List.length_singleton] at hl'
        obtain ⟨p, p0, p1, e1, e2⟩ := common_prob (lik := fun u => μ.real (prefEvent sim u)) (fun _ => measureReal_nonneg)
          (fun a b => measureReal_mono (prefEvent_sub sim a b)) (u := u) (v := v) (w := w) (o := o)
          (hfut w (by omega) (by omega)) (hfut (w ++ [o]) hl.1 hl.2)
        refine (measureReal_mono ?_ (measure_ne_top _ _)).trans (test_rejects (μ := μ) (h.meas_pref (u ++ w)) (h.meas_pref (u ++ w ++ [o]))
          (prefEvent_sub sim _ _) (h.meas_pref (v ++ w)) (h.meas_pref (v ++ w ++ [o])) (prefEvent_sub sim _ _) p p0 p1 e1 e2 α h0 h2 N)
        rintro D ⟨-, -, w1, o1, e, ht⟩
        obtain ⟨rfl, e'⟩ := List.append_inj' e rfl
        injection e' with e' _
        subst e'
        exact ht
    · have : bad w' = ∅ := by
        ext D
        simp only [bad, Set.mem_ofPred_eq, Set.mem_empty_iff_false, iff_false]
        rintro ⟨a, b, -⟩
        exact hl ⟨a, b⟩
      rw [this, measureReal_empty]
      linarith
  let words : ℕ → Finset (List String) := fun k => (Fintype.piFinset (fun _ : Fin k => Λ)).image List.ofFn
  have hwords : ∀ k, ((words k).card : ℝ) ≤ (Λ.card : ℝ) ^ k := by
    intro k
    have : (words k).card ≤ Λ.card ^ k := by
      refine Finset.card_image_le.trans (le_of_eq ?_)
      rw [Fintype.card_piFinset_const]
    exact_mod_cast this
  refine (ae_bound h hgen N _ (⋃ k ∈ Finset.Icc 1 (len - max u.length v.length), ⋃ w' ∈ words k, bad w') ?_).trans ?_
  · intro D hD S hS hm hQ
    obtain ⟨w, o, ⟨a1, -⟩, a2, a3, a4⟩ := rejected_test h hlen Λ hΛ α h0 h2 u v hu hv hlast D hD N S hS hm hQ
    simp only [Set.mem_iUnion, exists_prop, Finset.mem_Icc]
    refine ⟨(w ++ [o]).length, ⟨by simp, ?_⟩, w ++ [o], ?_, ?_⟩
    · rw [List.length_append, List.length_singleton]
      rcases le_total u.length v.length with hle | hle
      · rw [max_eq_right hle]; omega
      · rw [max_eq_left hle]; omega
    · refine Finset.mem_image.2 ⟨(w ++ [o]).get, ?_, List.ofFn_get _⟩
      rw [Fintype.mem_piFinset]
      exact fun i => a1 _ (List.get_mem _ _)
    · refine ⟨by simp; omega, by simp; omega, w, o, rfl, a4⟩
  · refine (measureReal_biUnion_finset_le _ _).trans ?_
    rw [Finset.mul_sum]
    refine Finset.sum_le_sum (fun k _ => ?_)
    refine (measureReal_biUnion_finset_le _ _).trans ((Finset.sum_le_sum (fun w' _ => hbad w')).trans ?_)
    rw [Finset.sum_const, nsmul_eq_mul, mul_comm]
    exact mul_le_mul_of_nonneg_left (hwords k) (by linarith)

/-- A wrong acceptance. -/
theorem accepts_law (h : Simulates μ sim W) {gen : (ℕ → Py (List String)) → ℕ → Py (TSet String)} (hgen : CountsTraces gen W)
    {len : ℕ} (hlen : ∀ w ∈ W, w.length = len)
    (α : ℝ) (h0 : 0 < α) (h2 : α ≤ 2) (u v : List String) (hu : u.length < len) (hv : v.length < len) (o : String) (p q : ℝ)
    (hp0 : 0 ≤ p) (hp1 : p ≤ 1) (hq0 : 0 ≤ q) (hq1 : q ≤ 1)
    (hp : μ.real (prefEvent sim (u ++ [o])) = p * μ.real (prefEvent sim u))
    (hq : μ.real (prefEvent sim (v ++ [o])) = q * μ.real (prefEvent sim v)) (N : ℕ) (hN : 0 < N) :
    (callsLaw μ).real {D | ∃ S, gen (fun i => sim (D i)) N = .ok S ∧ Answers (hoeffding α) S u v true ∧
        2 * ((Real.sqrt (1 / prefixCount (S.sequences.zip S.times) u) + Real.sqrt (1 / prefixCount (S.sequences.zip S.times) v)) *
          Real.sqrt (1/2 * Real.log (2 / α))) ≤ |p - q|} ≤ 2 * α := by
  refine (ae_bound h hgen N _ _ ?_).trans (two_samples (h.meas_pref u) (h.meas_pref (u ++ [o])) (prefEvent_sub sim _ _)
    (h.meas_pref v) (h.meas_pref (v ++ [o])) (prefEvent_sub sim _ _) p q hp0 hp1 hq0 hq1 hp hq α h0 h2 N
      {D | 0 < occ D (prefEvent sim u) N ∧ 0 < occ D (prefEvent sim v) N ∧
      (|(occ D (prefEvent sim (u ++ [o])) N : ℝ) / occ D (prefEvent sim u) N - p|
          < Real.sqrt (1 / occ D (prefEvent sim u) N) * Real.sqrt (1/2 * Real.log (2 / α)) →
       |(occ D (prefEvent sim (v ++ [o])) N : ℝ) / occ D (prefEvent sim v) N - q|
          < Real.sqrt (1 / occ D (prefEvent sim v) N) * Real.sqrt (1/2 * Real.log (2 / α)) → False)} (fun D hD => hD))
  rintro D hD S hS hm ⟨⟨x, y, hx, hy, hc⟩, hgap⟩
  obtain ⟨word, ts, T, hpm⟩ := treeOf_createPTA S hS.1
  obtain ⟨hxs, hxw⟩ := (T.follow u T.pos).1 hx
  obtain ⟨hys, hyw⟩ := (T.follow v T.pos).1 hy
  rw [T.w0, List.nil_append] at hxw hyw
  have hts : ∀ t ∈ ts, 1 ≤ t.2 := fun t ht => hS.2.1 _ (List.of_mem_zip (hpm.mem_iff.1 ht)).2
  have hA := (compatible_iff_partial (hoeffding_total α h0 h2) (T.wf hts) _ x (Finset.mem_range.2 hxs) y (Finset.mem_range.2 hys) true hc).1 rfl
    [] (by simp) x y rfl rfl
  obtain ⟨-, c1, c2⟩ := node_counts h hlen D hD N S hS hm T hpm hxs
  obtain ⟨-, d1, d2⟩ := node_counts h hlen D hD N S hS hm T hpm hys
  rw [hxw] at c1 c2
  rw [hyw] at d1 d2
  rw [prefixCount_eq_occ D hD N S hm, prefixCount_eq_occ D hD N S hm] at hgap
  have hpos : ∀ x < (createPTA S).heap.size, 0 < occ D (prefEvent sim (word x)) N := by
    intro x hx
    rcases (T.words (word x)).2 ⟨x, hx, rfl⟩ with e | ⟨t, ht, htp⟩
    · rw [e]
      obtain ⟨w, hw⟩ := hD 0
      exact occ_pos_iff.2 ⟨0, hN, w, hw, List.nil_prefix⟩
    · have ht' := hpm.mem_iff.1 ht
      have h1 : 1 ≤ prefixCount (S.sequences.zip S.times) (word x) := by
        unfold prefixCount
        exact (hts t ht).trans (List.single_le_sum (fun _ _ => Nat.zero_le _) _
          (List.mem_map.2 ⟨t, List.mem_filter.2 ⟨ht', by simpa using htp⟩, rfl⟩))
      rwa [prefixCount_eq_occ D hD N S hm] at h1
  have n1 := hpos x hxs
  have n2 := hpos y hys
  rw [hxw] at n1
  rw [hyw] at n2
  refine ⟨n1, n2, fun e1 e2 => ?_⟩
  have m1 : (0:ℝ) < occ D (prefEvent sim u) N := by exact_mod_cast n1
  have m2 : (0:ℝ) < occ D (prefEvent sim v) N := by exact_mod_cast n2
  have hdiff : |(occ D (prefEvent sim (u ++ [o])) N : ℝ) / occ D (prefEvent sim u) N
      - (occ D (prefEvent sim (v ++ [o])) N : ℝ) / occ D (prefEvent sim v) N|
      ≤ (Real.sqrt (1 / occ D (prefEvent sim u) N) + Real.sqrt (1 / occ D (prefEvent sim v) N)) * Real.sqrt (1/2 * Real.log (2 / α)) := by
    by_cases hn : Next (createPTA S).heap x o ∨ Next (createPTA S).heap y o
    · have ht := hA.2 (by rw [c1 hu]; omega) (by rw [d1 hv]; omega) o hn
      rw [c2, d2, c1 hu, d1 hv] at ht
      simp only [hoeffding, Tools.hoeffdingBound] at ht
      rw [if_neg (by positivity)] at ht
      split_ifs at ht
      injection ht with ht
      rw [decide_eq_true_eq] at ht
      exact ht.le
    · push Not at hn
      have z : ∀ x, ¬ Next (createPTA S).heap x o → nextCount (createPTA S).heap x o = 0 := by
        intro x hx
        unfold nextCount
        rw [List.filter_eq_nil_iff.2]
        · rfl
        · intro q hq hl
          exact hx ⟨q, hq, by simpa using hl⟩
      have z1 := z x hn.1
      have z2 := z y hn.2
      rw [c2] at z1
      rw [d2] at z2
      rw [z1, z2]
      simp
      positivity
  have a1 := abs_sub_le p ((occ D (prefEvent sim (u ++ [o])) N : ℝ) / occ D (prefEvent sim u) N) q
  have a2 := abs_sub_le ((occ D (prefEvent sim (u ++ [o])) N : ℝ) / occ D (prefEvent sim u) N)
    ((occ D (prefEvent sim (v ++ [o])) N : ℝ) / occ D (prefEvent sim v) N) q
  rw [abs_sub_comm p ((occ D (prefEvent sim (u ++ [o])) N : ℝ) / occ D (prefEvent sim u) N)] at a1
  linarith

end Jajapy
