import Verif.Spec.Consistency
import Verif.Lemmas.Evaluation
import Verif.Lemmas.BWSet

set_option linter.unusedSectionVars false

namespace Jajapy

open MeasureTheory ProbabilityTheory Spec Filter Topology Tools

variable {O : Type} [DecidableEq O]

/-! ### Sums over the traces of one length -/

theorem sum_tracesOver_succ (A : Finset O) (k : ℕ) (f : List O → ℝ) :
    ∑ w ∈ tracesOver A (k + 1), f w = ∑ o ∈ A, ∑ w ∈ tracesOver A k, f (o :: w) := by
  have e : tracesOver A (k + 1) = (A ×ˢ tracesOver A k).image (fun p => p.1 :: p.2) := by
    ext w
    simp only [mem_tracesOver, Finset.mem_image, Finset.mem_product, Prod.exists]
    constructor
    · rintro ⟨h1, h2⟩
      cases w with
      | nil => simp at h1
      | cons o w => exact ⟨o, w, ⟨h2 o (by simp), by simpa using h1, fun x hx => h2 x (by simp [hx])⟩, rfl⟩
    · rintro ⟨o, w, ⟨h1, h2, h3⟩, rfl⟩
      refine ⟨by simp [h2], fun x hx => ?_⟩
      rcases List.mem_cons.1 hx with rfl | hx
      · exact h1
      · exact h3 x hx
  rw [e, Finset.sum_image, Finset.sum_product]
  rintro ⟨o, w⟩ _ ⟨o', w'⟩ _ h
  simp only [List.cons.injEq] at h
  rw [h.1, h.2]

theorem tracesOver_zero (A : Finset O) : tracesOver A 0 = {[]} := by
  ext w
  simp only [mem_tracesOver, Finset.mem_singleton, List.length_eq_zero_iff]
  constructor
  · exact fun h => h.1
  · rintro rfl; simp

/-! ### Limits of counts -/

theorem count_limit (S : ℕ → TSet O) (F : Finset (List O)) (P : List O → ℝ) (hC : ∀ N, (S N).Countable)
    (hF : ∀ N, ∀ w ∈ (S N).sequences, w ∈ F)
    (hlim : ∀ w ∈ F, Tendsto (fun N : ℕ => ((S N).mult w : ℝ) / N) atTop (𝓝 (P w))) (g : List O → ℕ) :
    Tendsto (fun N : ℕ => (((((S N).sequences.zip (S N).times).map (fun p => p.2 * g p.1)).sum : ℕ) : ℝ) / N) atTop
      (𝓝 (expected F P g)) := by
  have e : ∀ N : ℕ, (((((S N).sequences.zip (S N).times).map (fun p => p.2 * g p.1)).sum : ℕ) : ℝ) / N
      = ∑ w ∈ F, ((S N).mult w : ℝ) / N * g w := by
    intro N
    have h := TSet.sum_zip_eq (S N) (hC N).1.1 (fun w => (g w : ℝ)) F (hF N)
    rw [Nat.cast_list_sum, List.map_map]
    have e2 : (Nat.cast ∘ fun p : List O × ℕ => p.2 * g p.1) = fun p : List O × ℕ => (p.2 : ℝ) * (g p.1 : ℝ) := by
      funext p
      simp
    rw [e2, h, Finset.sum_div]
    refine Finset.sum_congr rfl (fun w _ => ?_)
    ring
  simp only [e]
  exact tendsto_finsetSum _ (fun w hw => (hlim w hw).mul tendsto_const_nhds)

theorem ratio_limit (a b : ℕ → ℕ) (x y : ℝ) (ha : Tendsto (fun N : ℕ => (a N : ℝ) / N) atTop (𝓝 x))
    (hb : Tendsto (fun N : ℕ => (b N : ℝ) / N) atTop (𝓝 y)) (hy : y ≠ 0) : Tendsto (fun N => (a N : ℝ) / b N) atTop (𝓝 (x / y)) := by
  have h := ha.div hb hy
  refine h.congr' ?_
  filter_upwards [eventually_gt_atTop 0] with N hN
  have : (N : ℝ) ≠ 0 := by positivity
  simp only [Pi.div_apply]
  rw [div_div_div_cancel_right₀ this]

/-! ### The traces of the generated sets have a positive probability -/

section
variable {Ω : Type} [MeasurableSpace Ω] {μ : Measure Ω} [IsProbabilityMeasure μ] {sim : Ω → Py (List O)} {W : Set (List O)}

theorem occ_pos {Ω : Type} (D : ℕ → Ω) (A : Set Ω) (N : ℕ) (h : 0 < occ D A N) : ∃ j, D j ∈ A := by
  classical
  unfold occ at h
  obtain ⟨j, hj⟩ := Finset.card_pos.1 h
  rw [Finset.mem_filter] at hj
  exact ⟨j, hj.2⟩

theorem Simulates.all_possible (h : Simulates μ sim W) :
    ∀ᵐ D ∂callsLaw μ, ∀ (j : ℕ) (w : List O), sim (D j) = .ok w → μ {ω | sim ω = .ok w} ≠ 0 := by
  have hc : {w | w ∈ W ∧ μ {ω | sim ω = .ok w} = 0}.Countable := h.countable.mono (fun _ hw => hw.1)
  have h1 : ∀ᵐ D ∂callsLaw μ, ∀ w ∈ {w | w ∈ W ∧ μ {ω | sim ω = .ok w} = 0}, ∀ j : ℕ, D j ∈ {ω | sim ω = .ok w}ᶜ := by
    rw [ae_ball_iff hc]
    intro w hw
    exact calls_all μ _ (h.meas w).compl (by rw [prob_compl_eq_one_sub (h.meas w), hw.2, tsub_zero])
  filter_upwards [h1] with D hD j w hw h0
  exact hD w ⟨h.mem _ _ hw, h0⟩ j hw

theorem Simulates.possible {gen : (ℕ → Py (List O)) → ℕ → Py (TSet O)} (hgen : CountsTraces gen W) (h : Simulates μ sim W) :
    ∀ᵐ D ∂callsLaw μ, ∀ (N : ℕ) (S : TSet O), gen (fun i => sim (D i)) N = .ok S →
      ∀ w ∈ S.sequences, μ {ω | sim ω = .ok w} ≠ 0 := by
  filter_upwards [h.all_ok, h.all_possible] with D hD hp N S hS w hw
  obtain ⟨S', h1, h2, -, -, h4⟩ := h.sets hgen D hD N
  rw [hS] at h1
  injection h1 with h1
  subst h1
  have hm : 0 < S.mult w := (TSet.mem_iff_mult_pos S h2.1 h2.2.1 w).1 hw
  rw [h4 w] at hm
  obtain ⟨j, hj⟩ := occ_pos D _ N hm
  exact hp j w hj

theorem Simulates.possible_stream {sim : (ℕ → ℝ) → Py (List O)} {gen : (ℕ → Py (List O)) → ℕ → Py (TSet O)} (hgen : CountsTraces gen W)
    (h : Simulates drawsLaw sim W) {c : ℕ} (hc : 0 < c) (hr : Reads sim c) :
    ∀ᵐ d ∂drawsLaw, ∀ (N : ℕ) (S : TSet O), gen (fun j => sim (fun i => d (j * c + i))) N = .ok S →
      ∀ w ∈ S.sequences, drawsLaw {d | sim d = .ok w} ≠ 0 := by
  have h1 := (blocks_law c hc).quasiMeasurePreserving.ae ((h.block hc hr).possible hgen)
  filter_upwards [h1] with d hd N S hS w hw
  have := hd N S (by simp only [hr.block]; exact hS) w hw
  rwa [hr.law hc (fun r => r = .ok w) (h.meas w)] at this

end

/-! ### Expected counts of a Markov chain -/

namespace MC
variable {n : ℕ} (M : MC ℝ O n)

/-- The probability of the trace from the state `s`. -/
noncomputable def suf (s : Fin n) (w : List O) : ℝ := sufProb M.matrix (fun s o => if M.labelling s = o then 1 else 0) s w

theorem suf_one (s : Fin n) (o : O) : M.suf s [o] = if M.labelling s = o then 1 else 0 := rfl

theorem suf_cons (s : Fin n) (o o' : O) (w : List O) :
    M.suf s (o :: o' :: w) = (if M.labelling s = o then 1 else 0) * ∑ s', M.matrix s s' * M.suf s' (o' :: w) := rfl

theorem suf_head (s : Fin n) (o : O) (w : List O) (h : M.suf s (o :: w) ≠ 0) : M.labelling s = o := by
  by_contra hne
  apply h
  cases w with
  | nil => rw [suf_one, if_neg hne]
  | cons o' w => rw [suf_cons, if_neg hne, zero_mul]

theorem lik_suf (w : List O) (hw : w ≠ []) : M.lik w = ∑ s, M.initialState s * M.suf s w := by
  cases w with
  | nil => exact absurd rfl hw
  | cons o os => exact listProb_eq_sufProb _ _ _ _ _

theorem mem_succ {A : Finset O} {k : ℕ} {w : List O} (h : w ∈ tracesOver A (k + 1)) : ∃ o w', w = o :: w' := by
  have := ((mem_tracesOver _ _ _).1 h).1
  cases w with
  | nil => simp at this
  | cons o w' => exact ⟨o, w', rfl⟩

/-- A quantity that is a sum over the moves of the trace: its expectation, by the first move. -/
theorem expected_succ (A : Finset O) (hA : ∀ s, M.labelling s ∈ A) (c : List O → ℝ) (φ : O → O → ℝ)
    (hc : ∀ o o' w, c (o :: o' :: w) = φ o o' + c (o' :: w)) (k : ℕ) (s : Fin n) :
    ∑ w ∈ tracesOver A (k + 2), M.suf s w * c w = ∑ s', M.matrix s s' * (φ (M.labelling s) (M.labelling s') *
      ∑ w ∈ tracesOver A (k + 1), M.suf s' w + ∑ w ∈ tracesOver A (k + 1), M.suf s' w * c w) := by
  rw [sum_tracesOver_succ]
  rw [Finset.sum_eq_single_of_mem (M.labelling s) (hA s)]
  · have h1 : ∀ w ∈ tracesOver A (k + 1), M.suf s (M.labelling s :: w) * c (M.labelling s :: w)
        = ∑ s', M.matrix s s' * (φ (M.labelling s) (M.labelling s') * M.suf s' w + M.suf s' w * c w) := by
      intro w hw
      obtain ⟨o, w', rfl⟩ := mem_succ hw
      rw [suf_cons, if_pos rfl, one_mul, hc, Finset.sum_mul]
      refine Finset.sum_congr rfl (fun s' _ => ?_)
      by_cases h0 : M.suf s' (o :: w') = 0
      · rw [h0]; ring
      · rw [M.suf_head s' o w' h0]; ring
    rw [Finset.sum_congr rfl h1, Finset.sum_comm]
    refine Finset.sum_congr rfl (fun s' _ => ?_)
    rw [← Finset.mul_sum, Finset.sum_add_distrib, Finset.mul_sum]
  · intro o _ ho
    refine Finset.sum_eq_zero (fun w hw => ?_)
    obtain ⟨o', w', rfl⟩ := mem_succ hw
    rw [suf_cons, if_neg (Ne.symm ho), zero_mul, zero_mul]

theorem sum_suf (hM : ∀ s, ∑ s', M.matrix s s' = 1) (A : Finset O) (hA : ∀ s, M.labelling s ∈ A) (k : ℕ) (s : Fin n) :
    ∑ w ∈ tracesOver A (k + 1), M.suf s w = 1 := by
  induction k generalizing s with
  | zero =>
    rw [sum_tracesOver_succ, tracesOver_zero]
    simp only [Finset.sum_singleton, suf_one]
    rw [Finset.sum_ite_eq, if_pos (hA s)]
  | succ k ih =>
    have h := M.expected_succ A hA (fun _ => 1) (fun _ _ => 0) (by simp) k s
    simp only [mul_one, zero_mul, zero_add] at h
    rw [h]
    simp only [ih, mul_one, hM]

theorem expected_single (A : Finset O) (c : List O → ℝ) (hc : ∀ o, c [o] = 0) (s : Fin n) :
    ∑ w ∈ tracesOver A 1, M.suf s w * c w = 0 := by
  rw [sum_tracesOver_succ, tracesOver_zero]
  simp [hc]

theorem expected_moves (hM : ∀ s, ∑ s', M.matrix s s' = 1) (hinj : Function.Injective M.labelling) (A : Finset O)
    (hA : ∀ s, M.labelling s ∈ A) (i j : Fin n) (k : ℕ) (s : Fin n) :
    ∑ w ∈ tracesOver A (k + 1), M.suf s w * ((w.zip w.tail).count (M.labelling i, M.labelling j) : ℕ)
      = M.matrix i j * ∑ w ∈ tracesOver A (k + 1), M.suf s w * (w.dropLast.count (M.labelling i) : ℕ) := by
  induction k generalizing s with
  | zero => rw [M.expected_single A _ (by simp), M.expected_single A _ (by simp), mul_zero]
  | succ k ih =>
    rw [M.expected_succ A hA (fun w => ((w.zip w.tail).count (M.labelling i, M.labelling j) : ℕ))
        (fun o o' => if o = M.labelling i ∧ o' = M.labelling j then 1 else 0) (by
          intro o o' w
          simp only [List.tail_cons, List.zip_cons_cons, List.count_cons]
          rw [Nat.cast_add, add_comm]
          congr 1
          by_cases h : o = M.labelling i ∧ o' = M.labelling j <;> simp [h]),
      M.expected_succ A hA (fun w => (w.dropLast.count (M.labelling i) : ℕ)) (fun o _ => if o = M.labelling i then 1 else 0) (by
          intro o o' w
          simp only [List.dropLast_cons_cons, List.count_cons]
          rw [Nat.cast_add, add_comm]
          congr 1
          by_cases h : o = M.labelling i <;> simp [h])]
    simp only [M.sum_suf hM A hA, mul_one, ih, hinj.eq_iff]
    simp only [mul_add, Finset.sum_add_distrib]
    congr 1
    · by_cases h : s = i
      · subst h
        simp [hM]
      · simp [h]
    · rw [Finset.mul_sum]
      exact Finset.sum_congr rfl (fun s' _ => by ring)

end MC
end Jajapy
