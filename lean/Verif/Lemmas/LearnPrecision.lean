import Verif.Props.Precision
import Verif.Props.ConsistencyMDP

/-!
C119: the deviation of a ratio of counts in a generated set.
-/

set_option autoImplicit false
set_option linter.unusedSectionVars false

namespace Jajapy

open MeasureTheory ProbabilityTheory Spec Tools

/-- How often the traces of the set do what `g` counts. -/
def TSet.total {O : Type} (S : TSet O) (g : List O → ℕ) : ℕ := ((S.sequences.zip S.times).map (fun p => p.2 * g p.1)).sum

section
variable {O : Type} [DecidableEq O] {Ω : Type} [MeasurableSpace Ω] {μ : Measure Ω} [IsProbabilityMeasure μ] {sim : Ω → Py (List O)}
  {W : Set (List O)} {F : Finset (List O)} {P : List O → ℝ}

theorem TSet.total_eq (S : TSet O) (hS : S.Countable) (hF : ∀ w ∈ S.sequences, w ∈ F) (g : List O → ℕ) : (S.total g : ℝ) = ∑ w ∈ F, (S.mult w : ℝ) * g w := by
  have h := TSet.sum_zip_eq S hS.1.1 (fun w => (g w : ℝ)) F hF
  unfold TSet.total
  rw [Nat.cast_list_sum, List.map_map]
  have e2 : (Nat.cast ∘ fun p : List O × ℕ => p.2 * g p.1) = fun p : List O × ℕ => (p.2 : ℝ) * (g p.1 : ℝ) := by
    funext p
    simp
  rw [e2, h]

/-- A ratio of counts that is too large. -/
theorem Draws.ratio_ge (h : Draws μ sim W F P) {gen : (ℕ → Py (List O)) → ℕ → Py (TSet O)} (hgen : CountsTraces gen W) (A G : List O → ℕ) (k : ℕ)
    (hAG : ∀ w ∈ F, 0 < P w → A w ≤ G w) (hGk : ∀ w ∈ F, 0 < P w → G w ≤ k) (p : ℝ) (hp : 0 ≤ p) (hE : expected F P A = p * expected F P G)
    (hv : 0 ≤ expected F P G) (t : ℝ) (ht : 0 ≤ t) (ht1 : t ≤ 1) (N : ℕ) (hN : 1 ≤ N) :
    (callsLaw μ).real {D | ∃ S, gen (fun i => sim (D i)) N = .ok S ∧ (∀ w ∈ S.sequences, 0 < P w) ∧ (p + t) * (S.total G : ℝ) ≤ S.total A}
      ≤ Real.exp (-(2 * N * (t * expected F P G) ^ 2 / k ^ 2)) := by
  have hN' : (0:ℝ) < N := by exact_mod_cast hN
  have hmean : ∀ c : ℝ, ∑ w ∈ F, μ.real {ω | sim ω = .ok w} * ((A w : ℝ) - c * G w) = (p - c) * expected F P G := by
    intro c
    rw [h.mean, sub_mul, ← hE]
    unfold expected
    rw [Finset.mul_sum, ← Finset.sum_sub_distrib]
    exact Finset.sum_congr rfl (fun w _ => by ring)
  have htot : ∀ c : ℝ, ∀ S : TSet O, S.Countable → (∀ w ∈ S.sequences, w ∈ W) →
      (∑ w ∈ F, (S.mult w : ℝ) * ((A w : ℝ) - c * G w)) = S.total A - c * S.total G := by
    intro c S hS hW
    rw [S.total_eq hS (fun w hw => h.mem w (hW w hw)) A, S.total_eq hS (fun w hw => h.mem w (hW w hw)) G, Finset.mul_sum, ← Finset.sum_sub_distrib]
    exact Finset.sum_congr rfl (fun w _ => by ring)
  by_cases hc : p + t ≤ 1
  · have := mean_ge_law h.simulates hgen F h.mem (fun w => (A w : ℝ) - (p + t) * G w) (-(p + t) * k) ((1 - (p + t)) * k)
      (fun w hw => by
        obtain ⟨h1, h2⟩ := h.possible hw
        have a1 : (A w : ℝ) ≤ G w := by exact_mod_cast hAG w h1 h2
        have a2 : (G w : ℝ) ≤ k := by exact_mod_cast hGk w h1 h2
        have a3 : (0:ℝ) ≤ A w := Nat.cast_nonneg _
        constructor
        · nlinarith
        · nlinarith) (t * expected F P G) (by positivity) N hN
      (fun S => (∀ w ∈ S.sequences, 0 < P w) ∧ (p + t) * (S.total G : ℝ) ≤ S.total A)
      (by
        rintro S h1 h2 h3 ⟨-, h4⟩
        rw [hmean, htot _ S h1 h3]
        have : 0 ≤ ((S.total A : ℝ) - (p + t) * S.total G) / N := div_nonneg (by linarith) hN'.le
        linarith)
    rw [show (1 - (p + t)) * (k:ℝ) - -(p + t) * k = k by ring] at this
    exact this
  · push Not at hc
    have := mean_ge_law h.simulates hgen F h.mem (fun w => -(G w : ℝ)) (-k) 0
      (fun w hw => by
        obtain ⟨h1, h2⟩ := h.possible hw
        have a2 : (G w : ℝ) ≤ k := by exact_mod_cast hGk w h1 h2
        have a3 : (0:ℝ) ≤ G w := Nat.cast_nonneg _
        constructor <;> linarith) (t * expected F P G) (by positivity) N hN
      (fun S => (∀ w ∈ S.sequences, 0 < P w) ∧ (p + t) * (S.total G : ℝ) ≤ S.total A)
      (by
        rintro S h1 h2 h3 ⟨h5, h4⟩
        have e1 : ∑ w ∈ F, μ.real {ω | sim ω = .ok w} * -(G w : ℝ) = - expected F P G := by
          rw [h.mean]
          unfold expected
          rw [← Finset.sum_neg_distrib]
          exact Finset.sum_congr rfl (fun w _ => by ring)
        have e2 : ∑ w ∈ F, (S.mult w : ℝ) * -(G w : ℝ) = - (S.total G : ℝ) := by
          rw [S.total_eq h1 (fun w hw => h.mem w (h3 w hw)) G, ← Finset.sum_neg_distrib]
          exact Finset.sum_congr rfl (fun w _ => by ring)
        have hle : (S.total A : ℝ) ≤ S.total G := by
          unfold TSet.total
          norm_cast
          refine List.sum_le_sum (fun q hq => ?_)
          have hq1 := (List.of_mem_zip (a := q.1) (b := q.2) hq).1
          exact Nat.mul_le_mul_left _ (hAG _ (h.mem _ (h3 _ hq1)) (h5 _ hq1))
        have h0 : (S.total G : ℝ) = 0 := by
          have : (0:ℝ) ≤ S.total G := Nat.cast_nonneg _
          nlinarith
        rw [e1, e2, h0]
        simp
        nlinarith)
    rw [show (0:ℝ) - -k = k by ring] at this
    exact this

/-- A ratio of counts that is too far from its limit, on either side, or is not defined. -/
theorem Draws.ratio (h : Draws μ sim W F P) {gen : (ℕ → Py (List O)) → ℕ → Py (TSet O)} (hgen : CountsTraces gen W) (A G : List O → ℕ) (k : ℕ)
    (hAG : ∀ w ∈ F, 0 < P w → A w ≤ G w) (hGk : ∀ w ∈ F, 0 < P w → G w ≤ k) (hP : ∀ w ∈ F, 0 ≤ P w) (p : ℝ) (hp : 0 ≤ p) (hp1 : p ≤ 1)
    (hE : expected F P A = p * expected F P G) (t : ℝ) (ht : 0 ≤ t) (ht1 : t ≤ 1) (N : ℕ) (hN : 1 ≤ N) :
    (callsLaw μ).real {D | ∃ S, gen (fun i => sim (D i)) N = .ok S ∧ (∀ w ∈ S.sequences, 0 < P w ∧ w ∈ F) ∧
        ¬ (S.total G ≠ 0 ∧ |(S.total A : ℝ) / S.total G - p| < t)}
      ≤ 2 * Real.exp (-(2 * N * (t * expected F P G) ^ 2 / k ^ 2)) := by
  have hv : 0 ≤ expected F P G := Finset.sum_nonneg (fun w hw => mul_nonneg (hP w hw) (Nat.cast_nonneg _))
  have h1 := h.ratio_ge hgen A G k hAG hGk p hp hE hv t ht ht1 N hN
  have h2 := h.ratio_ge hgen (fun w => G w - A w) G k (fun w _ _ => Nat.sub_le _ _) hGk (1 - p) (by linarith) (by
    have : expected F P (fun w => G w - A w) = expected F P G - expected F P A := by
      unfold expected
      rw [← Finset.sum_sub_distrib]
      refine Finset.sum_congr rfl (fun w hw => ?_)
      rcases (hP w hw).eq_or_lt with h0 | h0
      · rw [← h0]; ring
      · rw [Nat.cast_sub (hAG w hw h0)]; ring
    rw [this, hE]; ring) hv t ht ht1 N hN
  refine le_trans ?_ (le_trans (measureReal_union_le (μ := callsLaw μ) _ _) (le_trans (add_le_add h1 h2) (by linarith)))
  refine measureReal_mono ?_
  rintro D ⟨S, hS, hpos, hbad⟩
  have hsub : S.total (fun w => G w - A w) + S.total A = S.total G := by
    unfold TSet.total
    rw [← List.sum_map_add]
    congr 1
    refine List.map_congr_left (fun q hq => ?_)
    have hq1 := (List.of_mem_zip (a := q.1) (b := q.2) hq).1
    have := hAG _ (hpos _ hq1).2 (hpos _ hq1).1
    rw [← mul_add, Nat.sub_add_cancel this]
  have hsub' : (S.total (fun w => G w - A w) : ℝ) + S.total A = S.total G := by exact_mod_cast hsub
  by_cases h0 : S.total G = 0
  · left
    refine ⟨S, hS, fun w hw => (hpos w hw).1, ?_⟩
    rw [h0]
    simp
  · have hG : (0:ℝ) < S.total G := by exact_mod_cast Nat.pos_of_ne_zero h0
    have : t ≤ |(S.total A : ℝ) / S.total G - p| := by
      by_contra hc
      exact hbad ⟨h0, not_le.1 hc⟩
    rcases le_abs.1 this with hc | hc
    · left
      refine ⟨S, hS, fun w hw => (hpos w hw).1, ?_⟩
      rw [← le_div_iff₀ hG]
      linarith
    · right
      refine ⟨S, hS, fun w hw => (hpos w hw).1, ?_⟩
      have e : (S.total A : ℝ) / S.total G * S.total G = S.total A := div_mul_cancel₀ _ hG.ne'
      have : (S.total A : ℝ) ≤ (p - t) * S.total G := by
        rw [← e]
        exact mul_le_mul_of_nonneg_right (by linarith) hG.le
      linarith
end

theorem MDP.one_stream_sure {σ L : Type} [DecidableEq L] {n : ℕ} {sch : Sched ℝ L σ} {P : Policy σ L} {dom : σ → Prop}
    (M : MDP ℝ L n) (hn : M.actions.Nodup) (hS : M.Stochastic) (hB : Behaves sch P dom) (kind : L → Kind)
    (steps : ℕ) (geom : ℕ → ℕ) (st : σ) {W : Set (List L)} (h : Simulates drawsLaw (M.outcome sch steps st) W) (N : ℕ) (Q : TSet L → Prop) :
    letI := simSpace (M.outcome sch steps st)
    (∀ᵐ Y ∂callsLaw (resultLaw (M.outcome sch steps st)),
      ∃ S, generateSetMDP kind (fun j _ => keepIn W (Y j)) N false none (.int steps) geom = .ok S ∧ Q S) →
    ∀ᵐ d ∂drawsLaw, ∃ tr S, M.CollectsOne sch steps st d N tr ∧
      generateSetMDP kind (fun j _ => .ok (tr j)) N false none (.int steps) geom = .ok S ∧ Q S := by
  letI := simSpace (M.outcome sch steps st)
  intro hc
  have hk := M.stops hn hS hB steps st
  have hm := hk.law h
  have h1 := hm.quasiMeasurePreserving.ae hc
  filter_upwards [hk.all_ok h, h1] with d hd h2
  obtain ⟨S, e, hQ⟩ := h2
  simp only [fun j => keep_eq h (laterN (M.reads sch steps st) j d) (hd j)] at e
  obtain ⟨tr, e1, e2⟩ := (M.generatedOne_iff hB kind steps geom st d hd N S).2 e
  exact ⟨tr, S, e1, e2, hQ⟩

/-- What is sure of a generated set. -/
theorem Draws.sure {O : Type} [DecidableEq O] {Ω : Type} [MeasurableSpace Ω] {μ : Measure Ω} [IsProbabilityMeasure μ] {sim : Ω → Py (List O)}
    {W : Set (List O)} {F : Finset (List O)} {P : List O → ℝ} (h : Draws μ sim W F P) {gen : (ℕ → Py (List O)) → ℕ → Py (TSet O)}
    (hgen : CountsTraces gen W) (N : ℕ) :
    ∀ᵐ D ∂callsLaw μ, ∃ S, gen (fun i => sim (D i)) N = .ok S ∧ S.Countable ∧ S.times.sum = N ∧ ∀ w ∈ S.sequences, 0 < P w ∧ w ∈ F := by
  filter_upwards [h.simulates.all_ok, h.simulates.possible hgen] with D hD hp
  obtain ⟨S, e1, e2, e3, e4, -⟩ := h.simulates.sets hgen D hD N
  exact ⟨S, e1, e2, e3, fun w hw => ⟨(h.possible (hp N S e1 w hw)).2, (h.possible (hp N S e1 w hw)).1⟩⟩

theorem zip_count_le {L : Type} [DecidableEq L] (w : List L) (x y : L) : (w.zip w.tail).count (x, y) ≤ w.dropLast.count x := by
  induction w with
  | nil => simp
  | cons a w ih =>
    cases w with
    | nil => simp
    | cons b w =>
      simp only [List.tail_cons, List.zip_cons_cons, List.dropLast_cons₂, List.count_cons] at ih ⊢
      refine Nat.add_le_add ih ?_
      by_cases h : a = x
      · subst h
        simp
        split_ifs <;> simp
      · simp [h]

end Jajapy
