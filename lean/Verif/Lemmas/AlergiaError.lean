import Verif.Lemmas.Hoeffding
import Verif.Lemmas.OneStream
import Verif.Props.Alergia

/-!
C102: the prefix tree of a generated set. The numbers of the nodes are the numbers of calls whose trace has a prefix.
-/

set_option linter.unusedSectionVars false

namespace Jajapy

open MeasureTheory ProbabilityTheory Spec

variable {Ω : Type} [MeasurableSpace Ω] {μ : Measure Ω} [IsProbabilityMeasure μ]

/-! ### One test -/

theorem exp_alpha {α : ℝ} (h0 : 0 < α) : 2 * Real.exp (-2 * (1/2 * Real.log (2 / α))) = α := by
  rw [show -2 * (1/2 * Real.log (2 / α)) = -Real.log (2 / α) by ring, Real.exp_neg, Real.exp_log (by positivity)]
  field_simp

theorem log_alpha {α : ℝ} (h0 : 0 < α) (h2 : α ≤ 2) : 0 ≤ 1/2 * Real.log (2 / α) := by
  have : 0 ≤ Real.log (2 / α) := Real.log_nonneg (by rw [le_div_iff₀ h0]; linarith)
  linarith

/-- The frequencies of two samples are both near their probabilities, except with a probability of at most `2α`. -/
theorem two_samples {A1 B1 A2 B2 : Set Ω} (hA1 : MeasurableSet A1) (hB1 : MeasurableSet B1) (hBA1 : B1 ⊆ A1)
    (hA2 : MeasurableSet A2) (hB2 : MeasurableSet B2) (hBA2 : B2 ⊆ A2) (p1 p2 : ℝ) (h01 : 0 ≤ p1) (h11 : p1 ≤ 1) (h02 : 0 ≤ p2)
    (h12 : p2 ≤ 1) (hp1 : μ.real B1 = p1 * μ.real A1) (hp2 : μ.real B2 = p2 * μ.real A2) (α : ℝ) (h0 : 0 < α) (h2 : α ≤ 2) (N : ℕ)
    (E : Set (ℕ → Ω))
    (hE : ∀ D ∈ E, 0 < occ D A1 N ∧ 0 < occ D A2 N ∧
      (|(occ D B1 N : ℝ) / occ D A1 N - p1| < Real.sqrt (1 / occ D A1 N) * Real.sqrt (1/2 * Real.log (2 / α)) →
       |(occ D B2 N : ℝ) / occ D A2 N - p2| < Real.sqrt (1 / occ D A2 N) * Real.sqrt (1/2 * Real.log (2 / α)) → False)) :
    (callsLaw μ).real E ≤ 2 * α := by
  have t1 := occ_tails μ hA1 hB1 hBA1 p1 _ h01 h11 hp1 (log_alpha h0 h2) N
  have t2 := occ_tails μ hA2 hB2 hBA2 p2 _ h02 h12 hp2 (log_alpha h0 h2) N
  rw [exp_alpha h0] at t1 t2
  refine (measureReal_mono ?_ (measure_ne_top _ _)).trans ((measureReal_union_le _ _).trans ((add_le_add t1 t2).trans (by linarith)))
  intro D hD
  obtain ⟨a, b, c⟩ := hE D hD
  by_cases h : |(occ D B1 N : ℝ) / occ D A1 N - p1| < Real.sqrt (1 / occ D A1 N) * Real.sqrt (1/2 * Real.log (2 / α))
  · right
    exact ⟨b, not_lt.1 (c h)⟩
  · left
    exact ⟨a, not_lt.1 h⟩

/-- The test rejects two samples with the same probability. -/
theorem test_rejects {A1 B1 A2 B2 : Set Ω} (hA1 : MeasurableSet A1) (hB1 : MeasurableSet B1) (hBA1 : B1 ⊆ A1)
    (hA2 : MeasurableSet A2) (hB2 : MeasurableSet B2) (hBA2 : B2 ⊆ A2) (p : ℝ) (h01 : 0 ≤ p) (h11 : p ≤ 1)
    (hp1 : μ.real B1 = p * μ.real A1) (hp2 : μ.real B2 = p * μ.real A2) (α : ℝ) (h0 : 0 < α) (h2 : α ≤ 2) (N : ℕ) :
    (callsLaw μ).real {D | Tools.hoeffdingBound (occ D B1 N) (occ D A1 N) (occ D B2 N) (occ D A2 N) α = .ok false} ≤ 2 * α := by
  refine two_samples hA1 hB1 hBA1 hA2 hB2 hBA2 p p h01 h11 h01 h11 hp1 hp2 α h0 h2 N _ (fun D hD => ?_)
  simp only [Set.mem_ofPred_eq, Tools.hoeffdingBound] at hD
  by_cases c1 : (occ D A1 N : ℝ) * occ D A2 N = 0
  · rw [if_pos c1] at hD
    cases hD
  rw [if_neg c1] at hD
  split_ifs at hD
  have n1 : 0 < occ D A1 N := Nat.pos_of_ne_zero (fun e => c1 (by rw [e]; simp))
  have n2 : 0 < occ D A2 N := Nat.pos_of_ne_zero (fun e => c1 (by rw [e]; simp))
  refine ⟨n1, n2, fun d1 d2 => ?_⟩
  injection hD with hD
  rw [decide_eq_false_iff_not, not_lt] at hD
  have := abs_sub_le ((occ D B1 N : ℝ) / occ D A1 N) p ((occ D B2 N : ℝ) / occ D A2 N)
  rw [abs_sub_comm p] at this
  linarith

/-- The test accepts two samples whose probabilities differ by more than twice its bound. -/
theorem test_accepts {A1 B1 A2 B2 : Set Ω} (hA1 : MeasurableSet A1) (hB1 : MeasurableSet B1) (hBA1 : B1 ⊆ A1)
    (hA2 : MeasurableSet A2) (hB2 : MeasurableSet B2) (hBA2 : B2 ⊆ A2) (p1 p2 : ℝ) (h01 : 0 ≤ p1) (h11 : p1 ≤ 1) (h02 : 0 ≤ p2)
    (h12 : p2 ≤ 1) (hp1 : μ.real B1 = p1 * μ.real A1) (hp2 : μ.real B2 = p2 * μ.real A2) (α : ℝ) (h0 : 0 < α) (h2 : α ≤ 2) (N : ℕ) :
    (callsLaw μ).real {D | Tools.hoeffdingBound (occ D B1 N) (occ D A1 N) (occ D B2 N) (occ D A2 N) α = .ok true ∧
      0 < occ D A1 N ∧ 0 < occ D A2 N ∧
      2 * ((Real.sqrt (1 / occ D A1 N) + Real.sqrt (1 / occ D A2 N)) * Real.sqrt (1/2 * Real.log (2 / α))) ≤ |p1 - p2|} ≤ 2 * α := by
  refine two_samples hA1 hB1 hBA1 hA2 hB2 hBA2 p1 p2 h01 h11 h02 h12 hp1 hp2 α h0 h2 N _ (fun D hD => ?_)
  obtain ⟨hD, n1, n2, hgap⟩ := hD
  have m1 : (0:ℝ) < occ D A1 N := by exact_mod_cast n1
  have m2 : (0:ℝ) < occ D A2 N := by exact_mod_cast n2
  refine ⟨n1, n2, fun d1 d2 => ?_⟩
  simp only [Tools.hoeffdingBound] at hD
  rw [if_neg (by positivity)] at hD
  split_ifs at hD
  injection hD with hD
  rw [decide_eq_true_eq] at hD
  have := abs_sub_le p1 ((occ D B1 N : ℝ) / occ D A1 N) p2
  have h3 := abs_sub_le ((occ D B1 N : ℝ) / occ D A1 N) ((occ D B2 N : ℝ) / occ D A2 N) p2
  rw [abs_sub_comm p1 ((occ D B1 N : ℝ) / occ D A1 N)] at this
  linarith

/-! ### The prefixes of the traces of a simulator -/

/-- The trace of the call starts with `u`. -/
def prefEvent (sim : Ω → Py (List String)) (u : List String) : Set Ω := {ω | ∃ w, sim ω = .ok w ∧ u <+: w}

variable {sim : Ω → Py (List String)} {W : Set (List String)}

theorem Simulates.meas_pref (h : Simulates μ sim W) (u : List String) : MeasurableSet (prefEvent sim u) := by
  have : prefEvent sim u = ⋃ w ∈ W ∩ {w | u <+: w}, {ω | sim ω = .ok w} := by
    ext ω
    simp only [prefEvent, Set.mem_ofPred_eq, Set.mem_iUnion, exists_prop, Set.mem_inter_iff]
    exact ⟨fun ⟨w, hw, hu⟩ => ⟨w, ⟨h.mem ω w hw, hu⟩, hw⟩, fun ⟨w, hw, hs⟩ => ⟨w, hs, hw.2⟩⟩
  rw [this]
  exact MeasurableSet.biUnion (h.countable.mono Set.inter_subset_left) (fun w _ => h.meas w)

theorem prefEvent_sub (sim : Ω → Py (List String)) (u v : List String) : prefEvent sim (u ++ v) ⊆ prefEvent sim u := by
  rintro ω ⟨w, hw, hu⟩
  exact ⟨w, hw, (List.prefix_append u v).trans hu⟩

namespace Alergia
open Spec.Alergia Heap

theorem prefixCount_cons (t : List String × ℕ) (ts : List (List String × ℕ)) (u : List String) :
    prefixCount (t :: ts) u = (if u <+: t.1 then t.2 else 0) + prefixCount ts u := by
  unfold prefixCount
  by_cases h : u <+: t.1 <;> simp [h]

theorem traceCount_cons (t : List String × ℕ) (ts : List (List String × ℕ)) (u : List String) :
    traceCount (t :: ts) u = (if t.1 = u then t.2 else 0) + traceCount ts u := by
  unfold traceCount
  by_cases h : t.1 = u <;> simp [h]

theorem prefixCount_eq_sum (F : Finset (List String)) (u : List String) :
    ∀ ts : List (List String × ℕ), (∀ t ∈ ts, t.1 ∈ F) → prefixCount ts u = ∑ w ∈ F.filter (fun w => u <+: w), traceCount ts w
  | [], _ => by simp [prefixCount, traceCount]
  | t :: ts, h => by
    simp only [prefixCount_cons, traceCount_cons, Finset.sum_add_distrib]
    rw [prefixCount_eq_sum F u ts (fun t ht => h t (by simp [ht])), Finset.sum_ite_eq]
    congr 1
    have := h t (by simp)
    by_cases hu : u <+: t.1 <;> simp [hu, this]

end Alergia

open Alergia Spec.Alergia in
/-- The number of traces with a prefix, in the set returned by `generateSet`. -/
theorem prefixCount_eq_occ (D : ℕ → Ω) (hD : ∀ j : ℕ, ∃ w, sim (D j) = .ok w) (N : ℕ) (S : TSet String)
    (hm : ∀ w, S.mult w = occ D {ω | sim ω = .ok w} N) (u : List String) :
    prefixCount (S.sequences.zip S.times) u = occ D (prefEvent sim u) N := by
  classical
  choose tr htr using hD
  let F : Finset (List String) := S.sequences.toFinset ∪ (Finset.range N).image tr
  rw [prefixCount_eq_sum F u _ (fun t ht => by
    simp only [F, Finset.mem_union, List.mem_toFinset]
    exact .inl (List.of_mem_zip ht).1)]
  have e1 : occ D (prefEvent sim u) N = ((Finset.range N).filter (fun j => u <+: tr j)).card := by
    unfold occ
    congr 1
    ext j
    simp only [Finset.mem_filter, prefEvent, Set.mem_ofPred_eq, htr, Except.ok.injEq, exists_eq_left']
  have e2 : ∀ w, traceCount (S.sequences.zip S.times) w = ((Finset.range N).filter (fun j => tr j = w)).card := by
    intro w
    rw [show traceCount (S.sequences.zip S.times) w = S.mult w from rfl, hm]
    unfold occ
    congr 1
    ext j
    simp only [Finset.mem_filter, Set.mem_ofPred_eq, htr, Except.ok.injEq]
  rw [e1, Finset.card_eq_sum_card_fiberwise (f := tr) (t := F.filter (fun w => u <+: w))]
  · refine Finset.sum_congr rfl (fun w hw => ?_)
    rw [e2]
    congr 1
    ext j
    simp only [Finset.mem_filter]
    constructor
    · rintro ⟨a, rfl⟩
      exact ⟨⟨a, (Finset.mem_filter.1 hw).2⟩, rfl⟩
    · rintro ⟨⟨a, -⟩, b⟩
      exact ⟨a, b⟩
  · intro j hj
    simp only [Finset.coe_filter, Set.mem_ofPred_eq, F, Finset.mem_union, Finset.mem_image] at hj ⊢
    exact ⟨.inr ⟨j, hj.1, rfl⟩, hj.2⟩

/-! ### The nodes of the tree -/

namespace Alergia
open Spec.Alergia Heap

theorem TreeOf.nextCount {h : Heap} {word : ℕ → List String} {ts : List (List String × ℕ)} (T : TreeOf h word ts) {x : ℕ}
    (hx : x < h.size) (o : String) : nextCount h x o = prefixCount ts (word x ++ [o]) := by
  by_cases hn : Next h x o
  · obtain ⟨q, hq, hl⟩ := hn
    obtain ⟨_, _, e1, _, e2⟩ := T.kid x hx q hq
    rw [← freq_eq (T.det x hx)]
    rw [hl] at e1
    rw [← e1]
    rw [if_neg (by rw [e1]; simp)] at e2
    rw [← e2, freq_eq (T.det x hx)]
    unfold Spec.Alergia.nextCount
    have hd := T.det x hx
    unfold Det at hd
    have : (h.kids x).filter (fun q => decide (h.label q.1 = o)) = [q] := by
      have hmem : q ∈ (h.kids x).filter (fun q => decide (h.label q.1 = o)) := List.mem_filter.2 ⟨hq, by simp [hl]⟩
      have h1 : (((h.kids x).filter (fun q => decide (h.label q.1 = o))).map (fun q => h.label q.1)).Nodup :=
        hd.sublist ((List.filter_sublist).map _)
      have h2 : ∀ l' ∈ ((h.kids x).filter (fun q => decide (h.label q.1 = o))).map (fun q => h.label q.1), l' = o := by
        intro l' hl'
        obtain ⟨r, hr, rfl⟩ := List.mem_map.1 hl'
        simpa using (List.mem_filter.1 hr).2
      match hf : (h.kids x).filter (fun q => decide (h.label q.1 = o)) with
      | [] => rw [hf] at hmem; simp at hmem
      | [a] => rw [hf] at hmem; simp at hmem; rw [hf, hmem]
      | a :: b :: l =>
        exfalso
        rw [hf] at h1 h2
        simp only [List.map_cons, List.nodup_cons, List.mem_cons, not_or] at h1
        exact h1.1.1 ((h2 _ (by simp)).trans (h2 _ (by simp)).symm)
    rw [this]
    simp
  · have z1 : Spec.Alergia.nextCount h x o = 0 := by
      unfold Spec.Alergia.nextCount
      rw [List.filter_eq_nil_iff.2]
      · rfl
      · intro q hq hl
        exact hn ⟨q, hq, by simpa using hl⟩
    have z2 : prefixCount ts (word x ++ [o]) = 0 := by
      unfold prefixCount
      rw [List.filter_eq_nil_iff.2]
      · rfl
      · intro t ht hp
        obtain ⟨k, hk, hw⟩ := (T.words (word x ++ [o])).1 (.inr ⟨t, ht, by simpa using hp⟩)
        obtain ⟨h1, h2⟩ := T.kid_of_word hx hk hw
        obtain ⟨c, hc⟩ := kid_iff.1 h1
        exact hn ⟨(k, c), hc, h2⟩
    rw [z1, z2]

theorem TreeOf.last {h : Heap} {word : ℕ → List String} {ts : List (List String × ℕ)} (T : TreeOf h word ts) {x : ℕ}
    (hx : x < h.size) (hne : word x ≠ []) : (word x).getLast? = some (h.label x) := by
  have hx0 : x ≠ 0 := by rintro rfl; exact hne T.w0
  obtain ⟨z, hz, hk⟩ := T.isKid x hx hx0
  obtain ⟨c, hc⟩ := kid_iff.1 hk
  obtain ⟨_, _, hw, _, _⟩ := T.kid z hz (x, c) hc
  dsimp only at hw
  rw [hw]
  simp

end Alergia

end Jajapy
