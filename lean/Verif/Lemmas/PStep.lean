import Verif.Lemmas.PTables

/-!
From the gain of an iteration to the likelihood of the training set.
-/

set_option linter.unusedSectionVars false

namespace Jajapy

open Spec BW Finset

section
variable {L : Type} {n : ℕ} [DecidableEq L]

theorem timed_monotone (M N : CTMC ℝ L n) (hM : M.Valid) (hN : N.Valid) (hlab : N.labelling = M.labelling)
    (hinit : N.initialState = M.initialState) (S : TSet (Sym L)) (hlen : S.times.length = S.sequences.length)
    (ht : ∀ t ∈ S.times, 1 ≤ t) (hz : ∀ s ss, M.matrix s ss = 0 → N.matrix s ss = 0)
    (hrate : ∀ s ss, 0 < M.matrix s ss → 0 < numCT M S s ss → 0 < N.matrix s ss)
    (hg : ∑ s, denCT M S s * (∑ ss, N.matrix s ss - ∑ ss, M.matrix s ss)
      ≤ ∑ s, ∑ ss, Real.log (N.matrix s ss / M.matrix s ss) * numCT M S s ss) :
    avgLogLik M.density S ≤ avgLogLik N.density S ∧ (∀ w ∈ S.sequences, M.density w ≠ 0 ↔ N.density w ≠ 0) := by
  have hl := M.density_nonneg hM
  have hl' := N.density_nonneg hN
  obtain ⟨hpos, hgain⟩ := rates_gain M N hM hN hlab hinit S ht hrate hg
  have hmask : ∀ w, N.lastMask w = M.lastMask w := by
    intro w; funext s; unfold CTMC.lastMask; rw [hlab]
  have hposs : ∀ w ∈ S.sequences, M.density w ≠ 0 ↔ N.density w ≠ 0 := by
    intro w hw
    constructor
    · intro h0
      obtain ⟨t, htm⟩ := mem_zip_of_mem S hlen w hw
      exact (hpos (w, t) ((mem_possCT M S _).mpr ⟨htm, h0⟩)).ne'
    · intro h0 hz0
      apply h0
      unfold CTMC.density at hz0 ⊢
      rw [hinit, hmask]
      refine totalWeight_zero M.rateStep _ M.initialState _ _ (M.rateStep_nonneg hM.2) hM.1 (M.lastMask_nonneg w) ?_
        (fun s hs => hs) _ hz0
      intro s ss o hso
      unfold CTMC.rateStep at hso ⊢
      rw [hlab]
      split_ifs at hso ⊢
      · rcases mul_eq_zero.mp hso with h | h
        · rw [hz s ss h, zero_mul]
        · exact absurd h (Real.exp_pos _).ne'
      · rfl
  have k1 := filter_sum_eq_overSet S _ _ M.density M.density (fun _ _ => rfl) (fun _ _ => rfl)
  have k2 := filter_sum_eq_overSet S _ _ M.density N.density (fun _ _ => rfl) (fun _ _ => rfl)
  refine ⟨avgLogLik_mono S _ _ hl hl' hposs ?_, hposs⟩
  rw [← k1, ← k2]; exact hgain

theorem untimed_monotone (M N : MC ℝ L n) (hM : M.Stochastic) (hN : N.Stochastic) (hlab : N.labelling = M.labelling)
    (hinit : N.initialState = M.initialState) (S : TSet L) (hS : ∀ w ∈ S.sequences, w ≠ [])
    (hlen : S.times.length = S.sequences.length)
    (ht : ∀ t ∈ S.times, 1 ≤ t) (hz : ∀ s ss, M.matrix s ss = 0 → N.matrix s ss = 0)
    (hrate : ∀ s ss, 0 < M.matrix s ss → 0 < numMC M S s ss → 0 < N.matrix s ss)
    (hg : 0 ≤ ∑ s, ∑ ss, numMC M S s ss * Real.log (N.matrix s ss / M.matrix s ss)) :
    avgLogLik M.lik S ≤ avgLogLik N.lik S ∧ (∀ w ∈ S.sequences, M.lik w ≠ 0 ↔ N.lik w ≠ 0) := by
  obtain ⟨hi0, hi1, hm0, hm1⟩ := hM
  obtain ⟨_, _, hm0', hm1'⟩ := hN
  obtain ⟨hpos, hgain⟩ := chains_gain M N S hi0 hm0 hm0' hlab ht hrate hg
  have hl : ∀ w ∈ S.sequences, M.lik w = totalWeight M.initialState M.step (fun _ => 1) w := fun w hw => M.lik_eq hm1 w (hS w hw)
  have hl' : ∀ w ∈ S.sequences, N.lik w = totalWeight M.initialState N.step (fun _ => 1) w := fun w hw => by
    rw [N.lik_eq hm1' w (hS w hw), hinit]
  have hposs : ∀ w ∈ S.sequences, M.lik w ≠ 0 ↔ N.lik w ≠ 0 := by
    intro w hw
    rw [hl w hw, hl' w hw]
    constructor
    · intro h0
      obtain ⟨t, htm⟩ := mem_zip_of_mem S hlen w hw
      exact (hpos (w, t) (List.mem_filter.mpr ⟨htm, by simpa using h0⟩)).ne'
    · intro h0 hz0
      apply h0
      refine totalWeight_zero M.step _ M.initialState _ _ (M.step_nonneg hm0) hi0 (fun _ => zero_le_one) ?_
        (fun s hs => hs) _ hz0
      intro s ss o hso
      unfold MC.step at hso ⊢
      rw [hlab]
      split_ifs at hso ⊢
      · rw [one_mul] at hso ⊢; exact hz s ss hso
      · rw [zero_mul]
  have k1 := filter_sum_eq_overSet S (totalWeight M.initialState M.step (fun _ => 1)) (totalWeight M.initialState M.step (fun _ => 1)) M.lik M.lik hl hl
  have k2 := filter_sum_eq_overSet S (totalWeight M.initialState M.step (fun _ => 1)) (totalWeight M.initialState N.step (fun _ => 1)) M.lik N.lik hl hl'
  refine ⟨avgLogLik_mono S _ _ (fun w => M.lik_nonneg ⟨hi0, hi1, hm0, hm1⟩ w) (fun w => N.lik_nonneg ⟨by rw [hinit]; exact hi0, by rw [hinit]; exact hi1, hm0', hm1'⟩ w) hposs ?_, hposs⟩
  rw [← k1, ← k2]; exact hgain

end

namespace PCTMC
variable {M : PCTMC ℝ} {fixed : List String} {C : Cats ℝ}

/-- The shape of an iteration. -/
theorem estimateStep_ok (processes : ℕ) (h : M.Estimable fixed) (S : Traces) {res : List (Option (Tables M.nb))}
    (hres : tables M.here S = .ok res) (M' : PCTMC ℝ) (ll : ℝ) (hu : estimateStep processes C S M = .ok (M', ll)) :
    ∃ ts, collect .typeError processes res = .ok ts ∧ M.update C (ts.map (M.work C M.here)) = .ok (M', ll) := by
  unfold estimateStep at hu
  rw [h.hypothesis_eq] at hu
  simp only [bind, Except.bind] at hu
  rw [hres] at hu
  simp only at hu
  cases hc : collect .typeError processes res with
  | error e => rw [hc] at hu; cases hu
  | ok ts => rw [hc] at hu; exact ⟨ts, rfl, hu⟩

theorem step_timed (processes : ℕ) (h : M.Estimable fixed) (hC : Sorted M fixed C) (S : TSet (Sym String))
    (hS : CTMC.TimedSet S) (hw : WaitsNonneg S) (hlen : S.times.length = S.sequences.length) (ht : ∀ t ∈ S.times, 1 ≤ t)
    (M' : PCTMC ℝ) (ll : ℝ) (hu : estimateStep processes C (.timed S) M = .ok (M', ll)) :
    (∃ v u, M' = { M with values := v } ∧ Scaled M fixed v u) ∧
    avgLogLik M.density S ≤ avgLogLik M'.density S ∧ (∀ w ∈ S.sequences, M.density w ≠ 0 ↔ M'.density w ≠ 0) ∧
    ll = S.times.sum * avgLogLik M.density S := by
  obtain ⟨ts, hc, hu⟩ := estimateStep_ok processes h _ (tables_timed M.here S hS) M' ll hu
  obtain ⟨h1, _, _⟩ := collect_ok _ _ _ _ hc
  rw [filterMap_ite] at h1
  have hts : ts = (possCT M.here S).map (tbCT M.here) := h1
  have hgood : ∀ t ∈ ts, t.Good M.here := by
    intro t htm
    rw [hts] at htm
    obtain ⟨x, hx, rfl⟩ := List.mem_map.1 htm
    exact tbCT_good _ h.here_valid x (hw _ (List.of_mem_zip ((mem_possCT _ _ _).1 hx).1).1)
  obtain ⟨v, u, rfl, hsc, hb, hll⟩ := step_spec h hC hgood M' ll hu
  refine ⟨⟨v, u, rfl, hsc⟩, ?_⟩
  have hT : ∀ s, timeSum ts s = denCT M.here S s := fun s => by rw [hts]; exact timeSum_timed _ _ s
  have hN : ∀ s ss, usesSum ts s ss = numCT M.here S s ss := fun s ss => by rw [hts]; exact usesSum_timed _ _ s ss
  obtain ⟨g1, g2⟩ := hsc.gain h (timeSum ts) (usesSum ts) (timeSum_nonneg hgood) (usesSum_nonneg hgood) (usesSum_zero hgood)
    (fun p hp => (hb p hp).imp And.left And.right)
  simp only [hT, hN] at g1 g2
  have hmono := timed_monotone M.here (M.withVal v) h.here_valid (hsc.estimable h).here_valid rfl rfl S hlen ht
    (fun s ss h0 => by rw [hsc.rate h, h0, zero_mul]) g1 g2
  refine ⟨hmono.1, hmono.2, ?_⟩
  rw [hll, hts, List.map_map]
  have k1 := filter_sum_eq_overSet S _ _ M.here.density M.here.density (fun _ _ => rfl) (fun _ _ => rfl)
  exact k1.trans (overSet_eq_avgLogLik S _ (M.here.density_nonneg h.here_valid) ht)

theorem step_untimed (processes : ℕ) (h : M.Estimable fixed) (hC : Sorted M fixed C) (S : TSet String)
    (hi : ∑ s, M.here.initialState s = 1)
    (hS : ∀ w ∈ S.sequences, 2 ≤ w.length) (hlen : S.times.length = S.sequences.length) (ht : ∀ t ∈ S.times, 1 ≤ t)
    (he : ∀ s, ∑ j, M.here.matrix s j ≠ 0)
    (M' : PCTMC ℝ) (ll : ℝ) (hu : estimateStep processes C (.untimed S) M = .ok (M', ll)) :
    ∃ v u, M' = { M with values := v } ∧ Scaled M fixed v u ∧
      ll = S.times.sum * avgLogLik M.here.embedded.lik S ∧
      ((∀ s, ∑ j, (M.withVal v).matrix s j ≠ 0) →
        avgLogLik M.here.embedded.lik S ≤ avgLogLik (M.withVal v).embedded.lik S ∧
        ∀ w ∈ S.sequences, M.here.embedded.lik w ≠ 0 ↔ (M.withVal v).embedded.lik w ≠ 0) := by
  obtain ⟨ts, hc, hu⟩ := estimateStep_ok processes h _ (tables_untimed M.here S hS) M' ll hu
  obtain ⟨h1, _, _⟩ := collect_ok _ _ _ _ hc
  rw [filterMap_ite] at h1
  have hts : ts = (possMC M.here.embedded S).map (tbMC M.here) := h1
  have hgood : ∀ t ∈ ts, t.Good M.here := by
    intro t htm
    rw [hts] at htm
    obtain ⟨x, hx, rfl⟩ := List.mem_map.1 htm
    exact tbMC_good _ h.here_valid he x
  obtain ⟨v, u, rfl, hsc, hb, hll⟩ := step_spec h hC hgood M' ll hu
  have hst : M.here.embedded.Stochastic := M.here.toMC_stochastic h.here_valid hi he
  have hne : ∀ w ∈ S.sequences, w ≠ [] := fun w hw => by rintro rfl; simpa using hS _ hw
  refine ⟨v, u, rfl, hsc, ?_, ?_⟩
  · rw [hll, hts, List.map_map]
    have hl : ∀ w ∈ S.sequences, M.here.embedded.lik w = totalWeight M.here.embedded.initialState M.here.embedded.step (fun _ => 1) w :=
      fun w hw => M.here.embedded.lik_eq hst.2.2.2 w (hne w hw)
    have k1 := filter_sum_eq_overSet S _ _ M.here.embedded.lik M.here.embedded.lik hl hl
    exact k1.trans (overSet_eq_avgLogLik S _ (fun w => M.here.embedded.lik_nonneg hst w) ht)
  intro he'
  have hT : ∀ s, timeSum ts s = denMC M.here.embedded S s / M.here.e s := fun s => by rw [hts]; exact timeSum_untimed _ _ s
  have hN : ∀ s ss, usesSum ts s ss = numMC M.here.embedded S s ss := fun s ss => by rw [hts]; exact usesSum_untimed _ _ s ss
  obtain ⟨g1, g2⟩ := hsc.gain h (timeSum ts) (usesSum ts) (timeSum_nonneg hgood) (usesSum_nonneg hgood) (usesSum_zero hgood)
    (fun p hp => (hb p hp).imp And.left And.right)
  simp only [hT, hN] at g1 g2
  have hv' := (hsc.estimable h).here_valid
  have hep : ∀ s, 0 < ∑ j, M.here.matrix s j :=
    fun s => lt_of_le_of_ne (Finset.sum_nonneg (fun j _ => h.here_valid.2 s j)) (Ne.symm (he s))
  have hep' : ∀ s, 0 < ∑ j, (M.withVal v).matrix s j :=
    fun s => lt_of_le_of_ne (Finset.sum_nonneg (fun j _ => hv'.2 s j)) (Ne.symm (he' s))
  have hpm : ∀ s ss, M.here.embedded.matrix s ss = M.here.matrix s ss / ∑ j, M.here.matrix s j := fun _ _ => rfl
  have hpm' : ∀ s ss, (M.withVal v).embedded.matrix s ss = (M.withVal v).matrix s ss / ∑ j, (M.withVal v).matrix s j := fun _ _ => rfl
  have hpos : ∀ s ss, 0 < M.here.embedded.matrix s ss → 0 < M.here.matrix s ss := by
    intro s ss h0
    rw [hpm] at h0
    exact (div_pos_iff_of_pos_right (hep s)).1 h0
  refine untimed_monotone M.here.embedded (M.withVal v).embedded hst ((M.withVal v).toMC_stochastic hv' hi he') rfl rfl S hne hlen ht
    ?_ ?_ ?_
  · intro s ss h0
    rw [hpm] at h0
    rw [hpm', hsc.rate h]
    rcases div_eq_zero_iff.1 h0 with h0 | h0
    · rw [h0, zero_mul, zero_div]
    · exact absurd h0 (he s)
  · intro s ss h0 hn
    rw [hpm']
    exact div_pos (g1 s ss (hpos s ss h0) hn) (hep' s)
  · have hn0 := numMC_nonneg M.here.embedded S hst.1 hst.2.2.1
    have hd0 : ∀ s, 0 ≤ denMC M.here.embedded S s := fun s => by
      rw [← sum_numMC]; exact Finset.sum_nonneg (fun ss _ => hn0 s ss)
    have e : ∀ s ss, numMC M.here.embedded S s ss * Real.log ((M.withVal v).embedded.matrix s ss / M.here.embedded.matrix s ss)
        = Real.log ((M.withVal v).matrix s ss / M.here.matrix s ss) * numMC M.here.embedded S s ss
          - numMC M.here.embedded S s ss * Real.log ((∑ j, (M.withVal v).matrix s j) / ∑ j, M.here.matrix s j) := by
      intro s ss
      rcases (hn0 s ss).eq_or_lt with h0 | h0
      · rw [← h0]; ring
      · have hm : 0 < M.here.matrix s ss := by
          rcases (h.here_valid.2 s ss).eq_or_lt with hm | hm
          · exfalso
            rw [numMC_zero M.here.embedded S s ss (by rw [hpm, ← hm, zero_div])] at h0
            exact lt_irrefl _ h0
          · exact hm
        have hm' := g1 s ss hm h0
        have e1 : (M.withVal v).embedded.matrix s ss / M.here.embedded.matrix s ss
            = ((M.withVal v).matrix s ss / M.here.matrix s ss) / ((∑ j, (M.withVal v).matrix s j) / ∑ j, M.here.matrix s j) := by
          rw [hpm, hpm']
          have := (hep s).ne'
          have := (hep' s).ne'
          field_simp
        rw [e1, Real.log_div (div_pos hm' hm).ne' (div_pos (hep' s) (hep s)).ne']
        ring
    rw [Finset.sum_congr rfl (fun s _ => Finset.sum_congr rfl (fun ss _ => e s ss))]
    simp only [Finset.sum_sub_distrib, ← Finset.sum_mul, sum_numMC]
    have hterm : ∀ s, denMC M.here.embedded S s * Real.log ((∑ j, (M.withVal v).matrix s j) / ∑ j, M.here.matrix s j)
        ≤ denMC M.here.embedded S s / M.here.e s * (∑ j, (M.withVal v).matrix s j - ∑ j, M.here.matrix s j) := by
      intro s
      have hl := Real.log_le_sub_one_of_pos (div_pos (hep' s) (hep s))
      refine le_trans (mul_le_mul_of_nonneg_left hl (hd0 s)) (le_of_eq ?_)
      have : M.here.e s = ∑ j, M.here.matrix s j := rfl
      rw [this]
      have := (hep s).ne'
      field_simp
    have := Finset.sum_le_sum (fun s (_ : s ∈ Finset.univ) => hterm s)
    linarith

end PCTMC
end Jajapy
