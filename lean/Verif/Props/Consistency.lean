import Verif.Lemmas.Consistency
import Verif.Props.Evaluation
import Verif.Props.ObservableMDP
import Verif.Props.Observable
import Verif.Props.BWLearn

/-!
Property C86: learning from generated data.
-/

set_option linter.unusedSectionVars false

namespace Jajapy

open MeasureTheory ProbabilityTheory Spec Filter Topology Tools BW

variable {L : Type} [DecidableEq L] {n : ℕ}

namespace MC

theorem expected_matrix (G : MC ℝ L n) (hG : G.Stochastic) (hinj : Function.Injective G.labelling) (steps : ℕ) (s s' : Fin n) :
    expected (tracesOver (Finset.univ.image G.labelling) (steps + 1)) G.lik (fun w => (w.zip w.tail).count (G.labelling s, G.labelling s'))
      = G.matrix s s' * expected (tracesOver (Finset.univ.image G.labelling) (steps + 1)) G.lik
          (fun w => w.dropLast.count (G.labelling s)) := by
  unfold expected
  have e : ∀ g : List L → ℕ, ∑ w ∈ tracesOver (Finset.univ.image G.labelling) (steps + 1), G.lik w * g w
      = ∑ i, G.initialState i * ∑ w ∈ tracesOver (Finset.univ.image G.labelling) (steps + 1), G.suf i w * g w := by
    intro g
    have : ∀ w ∈ tracesOver (Finset.univ.image G.labelling) (steps + 1), G.lik w * g w = ∑ i, G.initialState i * (G.suf i w * g w) := by
      intro w hw
      rw [G.lik_suf w (ne_nil_of_mem hw), Finset.sum_mul]
      exact Finset.sum_congr rfl (fun _ _ => by ring)
    rw [Finset.sum_congr rfl this, Finset.sum_comm]
    exact Finset.sum_congr rfl (fun _ _ => by rw [Finset.mul_sum])
  rw [e, e, Finset.mul_sum]
  refine Finset.sum_congr rfl (fun i _ => ?_)
  rw [G.expected_moves hG.2.2.2 hinj _ (by simp) s s' steps i]
  ring

theorem expected_pos (G : MC ℝ L n) (hG : G.Stochastic) (steps : ℕ) (g : List L → ℕ) (w : List L) (hw : w.length = steps + 1)
    (hp : 0 < G.lik w) (hg : 0 < g w) : 0 < expected (tracesOver (Finset.univ.image G.labelling) (steps + 1)) G.lik g := by
  have hD := G.traceDist hG steps
  have hmem : w ∈ tracesOver (Finset.univ.image G.labelling) (steps + 1) := by
    by_contra hn
    have := hD.sum_le (insert w (tracesOver (Finset.univ.image G.labelling) (steps + 1))) (by
      intro v hv
      rcases Finset.mem_insert.1 hv with rfl | hv
      · exact hw
      · exact ((mem_tracesOver _ _ _).1 hv).1)
    rw [Finset.sum_insert hn, G.sum_lik hG steps] at this
    linarith
  refine Finset.sum_pos' (fun v hv => mul_nonneg (hD.nonneg v ((mem_tracesOver _ _ _).1 hv).1) (Nat.cast_nonneg _)) ⟨w, hmem, ?_⟩
  have : (0:ℝ) < g w := by exact_mod_cast hg
  exact mul_pos hp this

theorem generated_possible (G : MC ℝ L n) (hG : G.Stochastic) (kind : L → Kind) (steps : ℕ) (hs : 1 ≤ steps) (geom : ℕ → ℕ) :
    ∀ᵐ d ∂drawsLaw, ∀ (N : ℕ) (S : TSet L),
      generateSet kind (fun j k => G.run k (fun i => d (j * (steps + 1) + i))) N false none (.int steps) geom = .ok S →
      ∀ w ∈ S.sequences, w.length = steps + 1 → 0 < G.lik w := by
  have h := (G.simulates hG steps).possible_stream (gen_counts kind _ (fun w hw => by have := hw.1; omega)) (Nat.succ_pos _)
    (G.run_reads steps)
  filter_upwards [h] with d hd N S hS w hw hl
  rw [gen_eq kind _ N false none (.int steps) geom (fun _ => steps) (fun _ => rfl)] at hS
  have h1 := hd N S hS w hw
  obtain ⟨e, h0⟩ := G.run_lik hG steps w hl
  rw [e] at h1
  by_contra hc
  exact h1 (ENNReal.ofReal_eq_zero.2 (not_lt.1 hc))

theorem count_split (w : List L) (x : L) : w.dropLast.count x + (if w.getLast? = some x then 1 else 0) = w.count x := by
  rcases List.eq_nil_or_concat w with rfl | ⟨w', o, rfl⟩
  · simp
  · simp only [List.dropLast_concat, List.getLast?_concat, List.concat_eq_append, List.count_append, List.count_singleton, Option.some.injEq]
    simp

/-- C86, Markov chain: `G` has pairwise different labels, the sets are generated by `G`, the initial model `M` has the same labels and
the traces of `G` are possible for `M`. With probability 1, `fit` succeeds for all set sizes and options, and for every state `s` that the
traces of `G` leave: if the number of iterations tends to infinity with the size of the set, then the learned probability of every
transition from `s` tends to its probability in `G`; with `k` iterations it tends to a value whose distance to the probability in
`G` is the distance for the initial model multiplied by the `k`-th power of a number smaller than 1. -/
theorem learning_limit (G M : MC ℝ L n) (hG : G.Stochastic) (hM : M.Stochastic) (hinj : Function.Injective G.labelling)
    (hlab : M.labelling = G.labelling) (kind : L → Kind) (steps : ℕ) (hs : 1 ≤ steps) (geom : ℕ → ℕ)
    (hpos : ∀ w : List L, w.length = steps + 1 → 0 < G.lik w → 0 < M.lik w) :
    ∀ᵐ d ∂drawsLaw, ∃ S : ℕ → TSet L,
      (∀ N, generateSet kind (fun j k => G.run k (fun i => d (j * (steps + 1) + i))) N false none (.int steps) geom = .ok (S N)) ∧
      (∀ N, 1 ≤ N → ∀ (processes : ℕ) (epsilon : ℝ) (maxIt : ℕ), 1 < processes →
        ∃ st, fit (stepMC processes (S N)) epsilon maxIt M = .ok st) ∧
      ∀ (processes maxIt : ℕ → ℕ) (epsilon : ℕ → ℝ) (st : ℕ → LoopState (MC ℝ L n)),
        (∀ N, 1 ≤ N → fit (stepMC (processes N) (S N)) (epsilon N) (maxIt N) M = .ok (st N)) →
        ∀ s, (∃ w : List L, w.length = steps + 1 ∧ 0 < G.lik w ∧ G.labelling s ∈ w.dropLast) →
        (0 ≤ G.endRate steps s ∧ G.endRate steps s < 1) ∧ ∀ s',
        (Tendsto (fun N => (st N).counter) atTop atTop → Tendsto (fun N => (st N).h.matrix s s') atTop (𝓝 (G.matrix s s'))) ∧
        (∀ k, (∀ N, 1 ≤ N → (st N).counter = k) → Tendsto (fun N => (st N).h.matrix s s') atTop
          (𝓝 (G.matrix s s' + G.endRate steps s ^ k * (M.matrix s s' - G.matrix s s')))) := by
  filter_upwards [G.generated hG kind steps hs geom, G.generated_possible hG kind steps hs geom] with d hd hp
  obtain ⟨S, h1, h2, h3, h4, h5⟩ := hd
  have hl : ∀ N, ∀ w ∈ (S N).sequences, w.length = steps + 1 := fun N w hw => ((mem_tracesOver _ _ _).1 (h4 N w hw)).1
  have hlik : ∀ N, ∀ w ∈ (S N).sequences, M.lik w ≠ 0 := fun N w hw => (hpos w (hl N w hw) (hp N _ (h1 N) w hw (hl N w hw))).ne'
  refine ⟨S, h1, fun N hN processes epsilon maxIt hproc => ?_, fun processes maxIt epsilon st hfit s ⟨w, hw, hw0, hws⟩ => ?_⟩
  · have : ∃ w, w ∈ (S N).sequences := by
      by_contra hc
      push Not at hc
      have h0 : (S N).sequences = [] := List.eq_nil_iff_forall_not_mem.2 hc
      have h6 := (h2 N).1.1
      rw [h0, List.length_nil, List.length_eq_zero_iff] at h6
      have h7 := h3 N
      rw [h6] at h7
      simp at h7
      omega
    obtain ⟨w, hw⟩ := this
    exact MC.fit_total processes hproc (S N) epsilon maxIt M hM (fun w hw h0 => by have := hl N w hw; rw [h0] at this; simp at this)
      (h2 N).1.1 (h2 N).2.1 w hw (hlik N w hw)
  · set F := tracesOver (Finset.univ.image G.labelling) (steps + 1) with hF
    have lleaves : Tendsto (fun N : ℕ => ((leaves (S N) (G.labelling s) : ℕ) : ℝ) / N) atTop
        (𝓝 (expected F G.lik (fun w => w.dropLast.count (G.labelling s)))) :=
      count_limit S F G.lik h2 h4 h5 (fun w => w.dropLast.count (G.labelling s))
    have lends : Tendsto (fun N : ℕ => ((ends (S N) (G.labelling s) : ℕ) : ℝ) / N) atTop
        (𝓝 (expected F G.lik (fun w => if w.getLast? = some (G.labelling s) then 1 else 0))) := by
      have := count_limit S F G.lik h2 h4 h5 (fun w => if w.getLast? = some (G.labelling s) then 1 else 0)
      refine this.congr (fun N => ?_)
      unfold ends
      congr 4
      funext p
      split_ifs <;> simp
    have eL : 0 < expected F G.lik (fun w => w.dropLast.count (G.labelling s)) :=
      G.expected_pos hG steps _ w hw hw0 (List.count_pos_iff.2 hws)
    have eE : 0 ≤ expected F G.lik (fun w => if w.getLast? = some (G.labelling s) then 1 else 0) :=
      Finset.sum_nonneg (fun v hv => mul_nonneg ((G.traceDist hG steps).nonneg v ((mem_tracesOver _ _ _).1 hv).1) (Nat.cast_nonneg _))
    have eC : expected F G.lik (fun w => w.count (G.labelling s)) = expected F G.lik (fun w => w.dropLast.count (G.labelling s)) +
        expected F G.lik (fun w => if w.getLast? = some (G.labelling s) then 1 else 0) := by
      unfold expected
      rw [← Finset.sum_add_distrib]
      refine Finset.sum_congr rfl (fun v _ => ?_)
      dsimp only
      rw [← count_split v (G.labelling s), Nat.cast_add]
      ring
    have hr : G.endRate steps s = expected F G.lik (fun w => if w.getLast? = some (G.labelling s) then 1 else 0) /
        (expected F G.lik (fun w => w.dropLast.count (G.labelling s)) +
        expected F G.lik (fun w => if w.getLast? = some (G.labelling s) then 1 else 0)) := by
      unfold endRate
      rw [← hF, eC]
    have hr0 : 0 ≤ G.endRate steps s := by rw [hr]; positivity
    have hr1 : G.endRate steps s < 1 := by rw [hr, div_lt_one (by positivity)]; linarith
    have lr : Tendsto (fun N => (ends (S N) (G.labelling s) : ℝ) / (leaves (S N) (G.labelling s) + ends (S N) (G.labelling s))) atTop
        (𝓝 (G.endRate steps s)) := by
      rw [hr]
      have := ratio_limit (fun N => ends (S N) (G.labelling s)) (fun N => leaves (S N) (G.labelling s) + ends (S N) (G.labelling s)) _ _
        lends (by
          have := lleaves.add lends
          refine this.congr (fun N => ?_)
          rw [Nat.cast_add, add_div]) (by positivity)
      refine this.congr (fun N => ?_)
      rw [Nat.cast_add]
    refine ⟨⟨hr0, hr1⟩, fun s' => ?_⟩
    have lmoves : Tendsto (fun N : ℕ => ((moves (S N) (G.labelling s) (G.labelling s') : ℕ) : ℝ) / N) atTop
        (𝓝 (expected F G.lik (fun w => (w.zip w.tail).count (G.labelling s, G.labelling s')))) :=
      count_limit S F G.lik h2 h4 h5 (fun w => (w.zip w.tail).count (G.labelling s, G.labelling s'))
    have lf : Tendsto (fun N => (M.frequencies (S N)).matrix s s') atTop (𝓝 (G.matrix s s')) := by
      have := ratio_limit _ _ _ _ lmoves lleaves eL.ne'
      rw [hF, G.expected_matrix hG hinj, mul_div_assoc, div_self (by rw [← hF]; exact eL.ne'), mul_one] at this
      refine this.congr' ?_
      filter_upwards [lleaves.eventually_const_lt eL] with N hN
      simp only [MC.frequencies, hlab]
      rw [if_neg]
      intro h0
      rw [h0] at hN
      simp at hN
    have hst : ∀ N, 1 ≤ N → (st N).h.matrix s s' = (M.frequencies (S N)).matrix s s' +
        ((ends (S N) (G.labelling s) : ℝ) / (leaves (S N) (G.labelling s) + ends (S N) (G.labelling s))) ^ (st N).counter *
          (M.matrix s s' - (M.frequencies (S N)).matrix s s') := by
      intro N hN
      have := MC.fit_observed (processes N) (S N) (epsilon N) (maxIt N) M hM (by rw [hlab]; exact hinj) (h2 N).1.1 (h2 N).2.1 (hlik N) (st N)
        (hfit N hN) s s'
      rw [hlab] at this
      exact this
    constructor
    · intro hk
      obtain ⟨q, hq1, hq2⟩ := exists_between hr1
      have hz : Tendsto (fun N => ((ends (S N) (G.labelling s) : ℝ) / (leaves (S N) (G.labelling s) + ends (S N) (G.labelling s))) ^
          (st N).counter) atTop (𝓝 0) := by
        have hq : Tendsto (fun N => q ^ (st N).counter) atTop (𝓝 0) :=
          (tendsto_pow_atTop_nhds_zero_of_lt_one (hr0.trans hq1.le) hq2).comp hk
        refine squeeze_zero' (Eventually.of_forall (fun N => by positivity)) ?_ hq
        filter_upwards [lr.eventually_lt_const hq1] with N hN
        exact pow_le_pow_left₀ (by positivity) hN.le _
      have := lf.add (hz.mul (tendsto_const_nhds (x := M.matrix s s') |>.sub lf))
      rw [zero_mul, add_zero] at this
      refine this.congr' ?_
      filter_upwards [eventually_ge_atTop 1] with N hN
      exact (hst N hN).symm
    · intro k hk
      have := lf.add ((lr.pow k).mul (tendsto_const_nhds (x := M.matrix s s') |>.sub lf))
      refine this.congr' ?_
      filter_upwards [eventually_ge_atTop 1] with N hN
      rw [hst N hN, hk N hN]

end MC
end Jajapy
