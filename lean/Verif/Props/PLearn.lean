import Verif.Lemmas.PLearn
import Verif.Props.Loop

/-!
Property theorems C97: the values that the estimation of the parameters of a PCTMC returns, when the labels of the states are
pairwise different.
-/

set_option linter.unusedSectionVars false

namespace Jajapy.PCTMC

open Spec BW Finset

variable {M : PCTMC ℝ}

/-- The parameters that are estimated. -/
theorem mem_estimated' (M : PCTMC ℝ) (toUpdate : List String) (p : String) :
    p ∈ M.estimated (M.names.filter (fun p => p ∉ toUpdate)) ↔ p ∈ M.names ∧ p ∈ toUpdate := by
  rw [mem_estimated]
  refine and_congr_right (fun h => ?_)
  rw [List.mem_filter]
  simp [h]

theorem valOf_of_lookup {v : Valuation ℝ} {p : String} {x : ℝ} (h : v.lookup p = some x) : valOf v p = x := by
  unfold valOf; rw [h]; rfl

/-- All the iterations. -/
theorem estimate_iterations (processes : ℕ) (S : TSet (Sym String)) (M : PCTMC ℝ) (toUpdate : List String)
    (h : M.Estimable (M.names.filter (fun p => p ∉ toUpdate))) (epsilon : ℝ) (maxIt : ℕ) (hmax : 1 ≤ maxIt)
    (hl : M.labelling.Nodup) (hS : CTMC.TimedSet S) (hw : WaitsNonneg S) (hlen : S.times.length = S.sequences.length)
    (ht : ∀ t ∈ S.times, 1 ≤ t) (hpos : ∀ w ∈ S.sequences, M.density w ≠ 0)
    (d : List (String × Option ℝ)) (M' : PCTMC ℝ) (he : M.estimate processes (.timed S) toUpdate epsilon maxIt = .ok (d, M')) :
    ∃ v, M' = { M with values := v } ∧ (∀ q, ¬ (q ∈ M.names ∧ q ∈ toUpdate) → v.lookup q = M.values.lookup q) ∧
      M'.Estimable (M.names.filter (fun p => p ∉ toUpdate)) ∧ (∀ w ∈ S.sequences, M'.density w ≠ 0) ∧
      ∀ p ∈ M.names, p ∈ toUpdate → M.Alone toUpdate p → 0 < valOf M.values p → ∃ x, v.lookup p = some x ∧ 0 ≤ x ∧
        (M.expectedUses S p 1 = 0 → x = valOf M.values p) ∧
        (M.expectedUses S p 1 ≠ 0 → M.expectedUses S p x = M.observedUses S p) := by
  unfold estimate at he
  obtain ⟨C, hC, he⟩ := (Except.bind_eq_ok _ _ _).1 he
  obtain ⟨st, hst, he⟩ := (Except.bind_eq_ok _ _ _).1 he
  simp only [pure, Except.pure, Except.ok.injEq, Prod.mk.injEq] at he
  obtain ⟨_, rfl⟩ := he
  set fixed := M.names.filter (fun p => decide (p ∉ toUpdate)) with hfixed
  have hsort := sortParameters_spec h C hC
  obtain ⟨k, hs, ls, h0, hstep, hk, _, _, _, hk1, _, _⟩ := fit_iterations _ _ _ _ _ hst
  have hest : ∀ p, p ∈ M.estimated fixed ↔ p ∈ M.names ∧ p ∈ toUpdate := M.mem_estimated' toUpdate
  have key : ∀ i, i ≤ k → ∃ v, hs i = { M with values := v } ∧ (∀ q, q ∉ M.estimated fixed → v.lookup q = M.values.lookup q) ∧
      (hs i).Estimable fixed ∧ Sorted (hs i) fixed C ∧ (∀ w ∈ S.sequences, (hs i).density w ≠ 0) ∧
      (i = 0 → v = M.values) ∧ (∀ p ∈ M.estimated fixed, 1 ≤ i → (v.lookup p).isSome) ∧
      ∀ p ∈ M.estimated fixed, M.Alone toUpdate p → 0 < valOf M.values p → 0 ≤ valOf v p ∧
        (M.expectedUses S p 1 = 0 → valOf v p = valOf M.values p) ∧
        (1 ≤ i → M.expectedUses S p 1 ≠ 0 → M.expectedUses S p (valOf v p) = M.observedUses S p) := by
    intro i
    induction i with
    | zero =>
      intro _
      refine ⟨M.values, by rw [h0], fun _ _ => rfl, by rw [h0]; exact h, by rw [h0]; exact hsort, by rw [h0]; exact hpos, fun _ => rfl,
        fun _ _ h1 => by omega, fun p _ _ hp => ⟨hp.le, fun _ => rfl, fun h1 => by omega⟩⟩
    | succ i ih =>
      intro hi
      obtain ⟨v, e1, e2, e3, e4, e5, e6, _, e7⟩ := ih (by omega)
      have hsi := hstep i (by omega)
      obtain ⟨v', u, f1, f2, f3⟩ := step_observed processes e3 e4 (by rw [e1]; exact hl) S hS hw e5 _ _ hsi
      obtain ⟨_, _, g2, _⟩ := step_timed processes e3 e4 S hS hw hlen ht _ _ hsi
      have hee : (hs i).estimated fixed = M.estimated fixed := by rw [e1]; rfl
      have hvv : (hs i).values = v := by rw [e1]
      have hsc := f2.valOf
      rw [hee, hvv] at hsc
      rw [hee] at f3
      refine ⟨v', by rw [f1, e1], fun q hq => ?_, by rw [f1]; exact f2.estimable e3, by rw [f1]; exact f2.sorted e3 e4,
        fun w hw' => (g2 w hw').1 (e5 w hw'), fun h => by omega, fun p hp _ => ?_, fun p hp ha hp0 => ?_⟩
      · rw [f2.same q (by rw [hee]; exact hq), hvv, e2 q hq]
      · rw [f2.new p (by rw [hee]; exact hp)]; rfl
      · obtain ⟨i1, i2, i3⟩ := e7 p hp ha hp0
        have hnn : 0 ≤ valOf v' p := by
          rw [hsc.1 p hp]
          exact mul_nonneg i1 (f2.nonneg p (by rw [hee]; exact hp))
        have haE : ∀ i j, i < M.matrix.length → j < M.matrix.length → (M.rateExpr i j).Occurs p → ∀ q ∈ M.estimated fixed,
            (M.rateExpr i j).Occurs q → q = p := fun i j hi hj ho q hq hoq => ha i j hi hj ho q ((hest q).1 hq).2 hoq
        have hc := rateAtOne_nonneg h hp hp0
        have hEx : ∀ x, (hs i).expectedUses S p x = M.expectedUses S p x := fun x => by
          rw [e1]; exact expectedUses_congr (fixed := fixed) e2 haE S x
        have hbal : Balance (hs i) (M.estimated fixed) (fun s => totalTime S ((hs i).here.labelling s))
            (fun s ss => (jumpCount S ((hs i).here.labelling s) ((hs i).here.labelling ss) : ℝ)) p (u p) →
            M.expectedUses S p (valOf v p * u p) = M.observedUses S p := by
          intro hb
          rw [← hee] at hb
          have := balance_eq e3 (by rw [hee]; exact hp) S (by rw [hee, e1]; exact haE) (u p) hb
          rw [hEx, hvv] at this
          rw [this, e1]
          rfl
        have hcase := f3 p hp
        rw [hEx, hvv] at hcase
        refine ⟨hnn, fun hz => ?_, fun _ hnz => ?_⟩
        · have hv := i2 hz
          rw [hsc.1 p hp]
          rcases hcase with ⟨hu, _⟩ | ⟨hne, _⟩
          · rw [hu, mul_one, hv]
          · exact absurd ((expectedUses_eq_zero hc S hw _ (by rw [hv]; exact hp0)).2 hz) hne
        · rw [hsc.1 p hp]
          rcases hcase with ⟨hu, hsp⟩ | ⟨_, hb⟩
          · rw [hu, mul_one]
            rcases i1.lt_or_eq with hlt | heq
            · exact absurd ((expectedUses_eq_zero hc S hw _ hlt).1 hsp) hnz
            · rcases Nat.eq_zero_or_pos i with h00 | h01
              · have := e6 h00
                rw [this] at heq
                linarith
              · exact i3 h01 hnz
          · exact hbal hb
  obtain ⟨v, e1, e2, e3, _, e5, _, e8, e7⟩ := key k le_rfl
  refine ⟨v, by rw [hk, e1], fun q hq => e2 q (fun h' => hq ((hest q).1 h')), by rw [hk]; exact e3, by rw [hk]; exact e5, fun p hn hp ha hp0 => ?_⟩
  obtain ⟨a1, a2, a3⟩ := e7 p ((hest p).2 ⟨hn, hp⟩) ha hp0
  obtain ⟨x, hx⟩ := Option.isSome_iff_exists.1 (e8 p ((hest p).2 ⟨hn, hp⟩) (hk1 hmax))
  rw [valOf_of_lookup hx] at a1 a2 a3
  exact ⟨x, hx, a1, a2, a3 (hk1 hmax)⟩

/-- C97: if the labels of the states are pairwise different and all the training traces are possible, the value returned for a
parameter which does not share a transition with another estimated parameter is the one for which the expected number of uses
of the parameter in the observed times is the observed number of uses, if some time is spent before a transition with this
parameter; otherwise it is the initial value. This holds after any number of iterations. -/
theorem estimate_observed (processes : ℕ) (S : TSet (Sym String)) (M : PCTMC ℝ) (toUpdate : List String)
    (h : M.Estimable (M.names.filter (fun p => p ∉ toUpdate))) (epsilon : ℝ) (maxIt : ℕ) (hmax : 1 ≤ maxIt)
    (hl : M.labelling.Nodup) (hS : CTMC.TimedSet S) (hw : WaitsNonneg S) (hlen : S.times.length = S.sequences.length)
    (ht : ∀ t ∈ S.times, 1 ≤ t) (hpos : ∀ w ∈ S.sequences, M.density w ≠ 0)
    (d : List (String × Option ℝ)) (M' : PCTMC ℝ) (he : M.estimate processes (.timed S) toUpdate epsilon maxIt = .ok (d, M'))
    (p : String) (hn : p ∈ M.names) (hp : p ∈ toUpdate) (ha : M.Alone toUpdate p) (x0 : ℝ) (hx0 : M.values.lookup p = some x0) (h0 : 0 < x0) :
    ∃ x, (p, some x) ∈ d ∧ M'.values.lookup p = some x ∧ 0 ≤ x ∧ (M.expectedUses S p 1 = 0 → x = x0) ∧
      (M.expectedUses S p 1 ≠ 0 → M.expectedUses S p x = M.observedUses S p) := by
  obtain ⟨v, rfl, _, _, _, hall⟩ := estimate_iterations processes S M toUpdate h epsilon maxIt hmax hl hS hw hlen ht hpos d M' he
  obtain ⟨x, a1, a2, a3, a4⟩ := hall p hn hp ha (by rw [valOf_of_lookup hx0]; exact h0)
  rw [valOf_of_lookup hx0] at a3
  obtain ⟨_, _, hd⟩ := estimate_frame processes _ M h.wf toUpdate epsilon maxIt d _ he
  exact ⟨x, by rw [hd]; exact List.mem_map.2 ⟨p, hp, by rw [show ({ M with values := v } : PCTMC ℝ).values = v from rfl, a1]⟩, a1, a2, a3, a4⟩

/-- C97: this equation has no other solution. -/
theorem expectedUses_unique (S : TSet (Sym String)) (M : PCTMC ℝ) (toUpdate : List String)
    (h : M.Estimable (M.names.filter (fun p => p ∉ toUpdate))) (hw : WaitsNonneg S)
    (p : String) (hn : p ∈ M.names) (hp : p ∈ toUpdate) (x0 : ℝ) (hx0 : M.values.lookup p = some x0) (h0 : 0 < x0)
    (h1 : M.expectedUses S p 1 ≠ 0) (x y : ℝ) (hx : 0 ≤ x) (hy : 0 ≤ y) (hxy : M.expectedUses S p x = M.expectedUses S p y) : x = y := by
  have hc := rateAtOne_nonneg h ((M.mem_estimated' toUpdate p).2 ⟨hn, hp⟩) (by rw [valOf_of_lookup hx0]; exact h0)
  rcases lt_trichotomy x y with hlt | heq | hlt
  · exact absurd hxy (expectedUses_strictMono hc S hw h1 x y hx hlt).ne
  · exact heq
  · exact absurd hxy (expectedUses_strictMono hc S hw h1 y x hy hlt).ne'

/-- C97: a parameter to which the rates are proportional gets the ratio of the number of uses to the expected number of uses for
the value 1. -/
theorem estimate_proportional (processes : ℕ) (S : TSet (Sym String)) (M : PCTMC ℝ) (toUpdate : List String)
    (h : M.Estimable (M.names.filter (fun p => p ∉ toUpdate))) (epsilon : ℝ) (maxIt : ℕ) (hmax : 1 ≤ maxIt)
    (hl : M.labelling.Nodup) (hS : CTMC.TimedSet S) (hw : WaitsNonneg S) (hlen : S.times.length = S.sequences.length)
    (ht : ∀ t ∈ S.times, 1 ≤ t) (hpos : ∀ w ∈ S.sequences, M.density w ≠ 0)
    (d : List (String × Option ℝ)) (M' : PCTMC ℝ) (he : M.estimate processes (.timed S) toUpdate epsilon maxIt = .ok (d, M'))
    (p : String) (hn : p ∈ M.names) (hp : p ∈ toUpdate) (ha : M.Alone toUpdate p) (x0 : ℝ) (hx0 : M.values.lookup p = some x0) (h0 : 0 < x0)
    (hlin : ∀ i j, i < M.matrix.length → j < M.matrix.length → (M.rateExpr i j).degree p ≤ 1) (h1 : M.expectedUses S p 1 ≠ 0) :
    M'.values.lookup p = some (M.observedUses S p / M.expectedUses S p 1) := by
  obtain ⟨x, _, a1, _, _, a4⟩ := estimate_observed processes S M toUpdate h epsilon maxIt hmax hl hS hw hlen ht hpos d M' he p hn hp ha x0 hx0 h0
  have e : M.expectedUses S p x = x * M.expectedUses S p 1 := by
    unfold expectedUses
    simp only [Finset.mul_sum]
    refine Finset.sum_congr rfl (fun i _ => Finset.sum_congr rfl (fun j _ => ?_))
    have := hlin i j i.2 j.2
    rcases Nat.le_one_iff_eq_zero_or_eq_one.1 this with hd | hd
    · rw [hd]; simp
    · rw [hd]; ring
  rw [a1, ← a4 h1, e, mul_div_assoc, div_self h1, mul_one]

/-- The gain of one transition. -/
theorem pair_gain (J d : ℕ) (T c x y : ℝ) (hT : 0 ≤ T) (hc : 0 ≤ c) (hx : 0 < x) (hy : 0 < y) (hJ : J ≠ 0 → c ≠ 0) :
    J * Real.log (c * y ^ d) - T * (c * y ^ d) - (J * Real.log (c * x ^ d) - T * (c * x ^ d))
      ≤ d * Real.log (y / x) * (J - T * (c * x ^ d)) := by
  have hz : 0 < y / x := div_pos hy hx
  have h1 : d * Real.log (y / x) ≤ (y / x) ^ d - 1 := by
    rw [← Real.log_pow]
    exact Real.log_le_sub_one_of_pos (pow_pos hz _)
  have h2 : T * (c * x ^ d) * (d * Real.log (y / x)) ≤ T * (c * x ^ d) * ((y / x) ^ d - 1) :=
    mul_le_mul_of_nonneg_left h1 (mul_nonneg hT (mul_nonneg hc (pow_nonneg hx.le _)))
  have h3 : T * (c * x ^ d) * ((y / x) ^ d - 1) = T * (c * y ^ d) - T * (c * x ^ d) := by
    rw [div_pow]
    have : x ^ d ≠ 0 := (pow_pos hx d).ne'
    field_simp
  have h4 : (J : ℝ) * Real.log (c * y ^ d) - J * Real.log (c * x ^ d) = J * (d * Real.log (y / x)) := by
    by_cases h0 : J = 0
    · rw [h0]; simp
    · have hc' := hJ h0
      rw [Real.log_mul hc' (pow_pos hy _).ne', Real.log_mul hc' (pow_pos hx _).ne', Real.log_pow, Real.log_pow, Real.log_div hy.ne' hx.ne']
      ring
  nlinarith

/-- A transition of rate 0 is not used. -/
theorem jumpCount_zero (N : PCTMC ℝ) (hinj : Function.Injective N.here.labelling) (S : TSet (Sym String)) (hS : CTMC.TimedSet S)
    (hpos : ∀ w ∈ S.sequences, N.density w ≠ 0) (s ss : Fin N.nb) (hz : N.here.matrix s ss = 0) :
    jumpCount S (N.here.labelling s) (N.here.labelling ss) = 0 := by
  have h5 : N.here.jumps S s ss = 0 := by rw [N.here.jumps_eq]; exact numCT_zero N.here S s ss hz
  rw [N.here.jumps_det hinj S hS hpos] at h5
  exact_mod_cast h5

/-- C97: if no transition contains two of the estimated parameters, the returned values have the largest likelihood of all
values of the estimated parameters, provided that some time is spent in every state that is left. -/
theorem estimate_best (processes : ℕ) (S : TSet (Sym String)) (M : PCTMC ℝ) (toUpdate : List String)
    (h : M.Estimable (M.names.filter (fun p => p ∉ toUpdate))) (epsilon : ℝ) (maxIt : ℕ) (hmax : 1 ≤ maxIt)
    (hl : M.labelling.Nodup) (hS : CTMC.TimedSet S) (hw : WaitsNonneg S) (hlen : S.times.length = S.sequences.length)
    (ht : ∀ t ∈ S.times, 1 ≤ t) (hpos : ∀ w ∈ S.sequences, M.density w ≠ 0)
    (htime : ∀ a b, jumpCount S a b ≠ 0 → totalTime S a ≠ 0)
    (d : List (String × Option ℝ)) (M' : PCTMC ℝ) (he : M.estimate processes (.timed S) toUpdate epsilon maxIt = .ok (d, M'))
    (hn : ∀ p ∈ toUpdate, p ∈ M.names) (ha : ∀ p ∈ toUpdate, M.Alone toUpdate p)
    (h0 : ∀ p ∈ toUpdate, ∃ x, M.values.lookup p = some x ∧ 0 < x)
    (v : Valuation ℝ) (hv : ∀ q, q ∉ toUpdate → v.lookup q = M.values.lookup q)
    (hv0 : ∀ p ∈ toUpdate, ∃ y, v.lookup p = some y ∧ 0 ≤ y)
    (hvpos : ∀ w ∈ S.sequences, ({ M with values := v } : PCTMC ℝ).density w ≠ 0) :
    avgLogLik ({ M with values := v } : PCTMC ℝ).density S ≤ avgLogLik M'.density S := by
  obtain ⟨v', rfl, hsame, hest', hpos', hall⟩ := estimate_iterations processes S M toUpdate h epsilon maxIt hmax hl hS hw hlen ht hpos d M' he
  set fixed := M.names.filter (fun p => decide (p ∉ toUpdate)) with hfixed
  have hest : ∀ p, p ∈ M.estimated fixed ↔ p ∈ toUpdate := fun p => (M.mem_estimated' toUpdate p).trans ⟨And.right, fun hp => ⟨hn p hp, hp⟩⟩
  have hval0 : ∀ p ∈ toUpdate, 0 < valOf M.values p := fun p hp => by
    obtain ⟨x, e, hx⟩ := h0 p hp
    rw [valOf_of_lookup e]; exact hx
  have hsc : Scaled M fixed v (fun p => valOf v p / valOf M.values p) := by
    refine ⟨fun q hq => hv q (fun h' => hq ((hest q).2 h')), fun p hp => ?_, fun p hp => ?_⟩
    · obtain ⟨y, e, _⟩ := hv0 p ((hest p).1 hp)
      rw [e, valOf_of_lookup e]
      have := (hval0 p ((hest p).1 hp)).ne'
      congr 1
      field_simp
    · obtain ⟨y, e, hy⟩ := hv0 p ((hest p).1 hp)
      rw [valOf_of_lookup e]
      exact div_nonneg hy (hval0 p ((hest p).1 hp)).le
  have hV := hsc.estimable h
  have hinj : Function.Injective M.here.labelling := here_injective h.wf hl
  have k1 := (M.withVal v).avg_det hinj S hS hvpos ((M.withVal v).density_nonneg hV.here_valid)
  have k2 := (M.withVal v').avg_det hinj S hS hpos' ((M.withVal v').density_nonneg hest'.here_valid)
  refine k1.trans_le (le_trans ?_ k2.symm.le)
  refine div_le_div_of_nonneg_right ?_ (Nat.cast_nonneg _)
  refine add_le_add le_rfl ?_
  -- the equation of each parameter
  have haE : ∀ p ∈ M.estimated fixed, ∀ i j, i < M.matrix.length → j < M.matrix.length → (M.rateExpr i j).Occurs p → ∀ q ∈ M.estimated fixed,
      (M.rateExpr i j).Occurs q → q = p := fun p hp i j hi hj ho q hq hoq => ha p ((hest p).1 hp) i j hi hj ho q ((hest q).1 hq) hoq
  have hsameE : ∀ q, q ∉ M.estimated fixed → v'.lookup q = M.values.lookup q := fun q hq => hsame q (fun h' => hq ((hest q).2 h'.2))
  have hcof : ∀ p ∈ M.estimated fixed, ∀ i j : Fin M.matrix.length, 0 ≤ M.rateAtOne p i j := fun p hp =>
    rateAtOne_nonneg h hp (hval0 p ((hest p).1 hp))
  have hr : ∀ p ∈ M.estimated fixed, ∀ s ss : Fin M.nb, (M.rateExpr s ss).Occurs p →
      (M.withVal v).matrix s ss = M.rateAtOne p s ss * valOf v p ^ (M.rateExpr s ss).degree p := fun p hp s ss ho => by
    rw [← rateAtOne_congr hsc.same (haE p hp) s.2 ss.2 ho]
    exact rateAtOne_eq hV hp s.2 ss.2
  have hr' : ∀ p ∈ M.estimated fixed, ∀ s ss : Fin M.nb, (M.rateExpr s ss).Occurs p →
      (M.withVal v').matrix s ss = M.rateAtOne p s ss * valOf v' p ^ (M.rateExpr s ss).degree p := fun p hp s ss ho => by
    rw [← rateAtOne_congr hsameE (haE p hp) s.2 ss.2 ho]
    exact rateAtOne_eq hest' hp s.2 ss.2
  have hJv : ∀ s ss : Fin M.nb, (M.withVal v).matrix s ss = 0 → jumpCount S (M.here.labelling s) (M.here.labelling ss) = 0 :=
    jumpCount_zero ({ M with values := v } : PCTMC ℝ) hinj S hS hvpos
  have hJv' : ∀ s ss : Fin M.nb, (M.withVal v').matrix s ss = 0 → jumpCount S (M.here.labelling s) (M.here.labelling ss) = 0 :=
    jumpCount_zero ({ M with values := v' } : PCTMC ℝ) hinj S hS hpos'
  set N : Fin M.nb → Fin M.nb → ℕ := fun s ss => jumpCount S (M.here.labelling s) (M.here.labelling ss) with hNdef
  set T : Fin M.nb → ℝ := fun s => totalTime S (M.here.labelling s) with hTdef
  have hT0 : ∀ s, 0 ≤ T s := fun s => CTMC.totalTime_nonneg S hw _
  let c : String → ℝ := fun p => if 0 < valOf v p ∧ 0 < valOf v' p then Real.log (valOf v p / valOf v' p) else 0
  have hbal : ∀ p ∈ M.estimated fixed,
      ∑ s : Fin M.nb, ∑ ss : Fin M.nb, ((M.rateExpr s ss).degree p : ℝ) * (N s ss - T s * (M.withVal v').matrix s ss) = 0 := by
    intro p hp
    have hpu := (hest p).1 hp
    obtain ⟨x, a1, a2, a3, a4⟩ := hall p (hn p hpu) hpu (ha p hpu) (hval0 p hpu)
    have hexp : M.expectedUses S p x = ∑ s : Fin M.nb, ∑ ss : Fin M.nb, ((M.rateExpr s ss).degree p : ℝ) * (T s * (M.withVal v').matrix s ss) := by
      unfold expectedUses
      refine Finset.sum_congr rfl (fun s _ => Finset.sum_congr rfl (fun ss _ => ?_))
      by_cases ho : (M.rateExpr s ss).Occurs p
      · rw [hr' p hp s ss ho, valOf_of_lookup a1]; rfl
      · rw [Expr.degree_zero _ _ ho]; simp
    have hobs : M.observedUses S p = ∑ s : Fin M.nb, ∑ ss : Fin M.nb, ((M.rateExpr s ss).degree p : ℝ) * (N s ss : ℝ) := rfl
    simp only [mul_sub, Finset.sum_sub_distrib]
    rw [← hexp, ← hobs]
    by_cases h1 : M.expectedUses S p 1 = 0
    · have hx : 0 < x := by rw [a3 h1]; exact hval0 p hpu
      rw [(expectedUses_eq_zero (hcof p hp) S hw x hx).2 h1, sub_zero, hobs]
      refine Finset.sum_eq_zero (fun s _ => Finset.sum_eq_zero (fun ss _ => ?_))
      by_contra hne
      have hdne : ((M.rateExpr s ss).degree p : ℝ) ≠ 0 := left_ne_zero_of_mul hne
      have hNne : N s ss ≠ 0 := fun h' => hne (by rw [h']; simp)
      have ho : (M.rateExpr s ss).Occurs p := by
        by_contra ho
        exact hdne (by rw [Expr.degree_zero _ _ ho]; simp)
      have hTne := htime _ _ hNne
      have hcz : M.rateAtOne p s ss ≠ 0 := fun h' => hNne (hJv' s ss (by rw [hr' p hp s ss ho, h', zero_mul]))
      have hterm := h1
      unfold expectedUses at hterm
      have hnn : ∀ i j : Fin M.matrix.length, 0 ≤ ((M.rateExpr i j).degree p : ℝ) *
          (totalTime S (M.labelling.getD i "") * (M.rateAtOne p i j * 1 ^ (M.rateExpr i j).degree p)) := fun i j =>
        mul_nonneg (Nat.cast_nonneg _) (mul_nonneg (CTMC.totalTime_nonneg S hw _) (mul_nonneg (hcof p hp i j) (by simp)))
      rw [Finset.sum_eq_zero_iff_of_nonneg (fun i _ => Finset.sum_nonneg (fun j _ => hnn i j))] at hterm
      have h2 := hterm s (Finset.mem_univ _)
      rw [Finset.sum_eq_zero_iff_of_nonneg (fun j _ => hnn s j)] at h2
      have h3 := h2 ss (Finset.mem_univ _)
      rw [one_pow, mul_one] at h3
      exact (mul_ne_zero hdne (mul_ne_zero hTne hcz)) h3
    · rw [a4 h1, sub_self]
  have hpt : ∀ s ss : Fin M.nb, (N s ss : ℝ) * Real.log ((M.withVal v).matrix s ss) - T s * (M.withVal v).matrix s ss
      ≤ (N s ss : ℝ) * Real.log ((M.withVal v').matrix s ss) - T s * (M.withVal v').matrix s ss +
        ∑ p ∈ M.estimated fixed, c p * (((M.rateExpr s ss).degree p : ℝ) * (N s ss - T s * (M.withVal v').matrix s ss)) := by
    intro s ss
    by_cases hex : ∃ p ∈ M.estimated fixed, (M.rateExpr s ss).Occurs p
    · obtain ⟨p, hp, ho⟩ := hex
      rw [Finset.sum_eq_single_of_mem p hp (fun q hq hne => by
        rw [Expr.degree_zero _ _ (fun hoq => hne (haE p hp s ss s.2 ss.2 ho q hq hoq))]; simp)]
      have hpu := (hest p).1 hp
      obtain ⟨x, a1, a2, _, _⟩ := hall p (hn p hpu) hpu (ha p hpu) (hval0 p hpu)
      obtain ⟨y, b1, b2⟩ := hv0 p hpu
      have hd : (M.rateExpr s ss).degree p ≠ 0 := (Expr.degree_pos (h.mono s.2 ss.2) p hp ho).ne'
      by_cases hxy : 0 < valOf v p ∧ 0 < valOf v' p
      · have e : c p = Real.log (valOf v p / valOf v' p) := if_pos hxy
        rw [e, hr p hp s ss ho, hr' p hp s ss ho]
        have := pair_gain (N s ss) ((M.rateExpr s ss).degree p) (T s) (M.rateAtOne p s ss) (valOf v' p) (valOf v p) (hT0 s) (hcof p hp s ss)
          hxy.2 hxy.1 (fun hN hc => hN (hJv s ss (by rw [hr p hp s ss ho, hc, zero_mul])))
        linarith
      · have e : c p = 0 := if_neg hxy
        rw [e, zero_mul, add_zero]
        have hlhs : (N s ss : ℝ) * Real.log ((M.withVal v).matrix s ss) - T s * (M.withVal v).matrix s ss ≤ 0 ∧
            (N s ss : ℝ) * Real.log ((M.withVal v').matrix s ss) - T s * (M.withVal v').matrix s ss = 0 := by
          rw [valOf_of_lookup a1, valOf_of_lookup b1] at hxy
          have hrn : 0 ≤ (M.withVal v).matrix s ss := hV.here_valid.2 s ss
          rcases a2.lt_or_eq with hx | hx
          · have hy : y = 0 := by
              rcases b2.lt_or_eq with hy | hy
              · exact absurd ⟨hy, hx⟩ hxy
              · exact hy.symm
            have hz : ∀ i j : Fin M.nb, ((M.rateExpr i j).degree p : ℝ) * (N i j : ℝ) = 0 := by
              intro i j
              by_cases hoi : (M.rateExpr i j).Occurs p
              · have hdi : (M.rateExpr i j).degree p ≠ 0 := (Expr.degree_pos (h.mono i.2 j.2) p hp hoi).ne'
                rw [show N i j = 0 from hJv i j (by rw [hr p hp i j hoi, valOf_of_lookup b1, hy, zero_pow hdi, mul_zero])]
                simp
              · rw [Expr.degree_zero _ _ hoi]; simp
            have hb := hbal p hp
            have hb' : ∑ i : Fin M.nb, ∑ j : Fin M.nb, ((M.rateExpr i j).degree p : ℝ) * (T i * (M.withVal v').matrix i j) = 0 := by
              simp only [mul_sub, hz, zero_sub, Finset.sum_neg_distrib, neg_eq_zero] at hb
              exact hb
            have hnn : ∀ i j : Fin M.nb, 0 ≤ ((M.rateExpr i j).degree p : ℝ) * (T i * (M.withVal v').matrix i j) := fun i j =>
              mul_nonneg (Nat.cast_nonneg _) (mul_nonneg (hT0 i) (hest'.here_valid.2 i j))
            rw [Finset.sum_eq_zero_iff_of_nonneg (fun i _ => Finset.sum_nonneg (fun j _ => hnn i j))] at hb'
            have h2 := hb' s (Finset.mem_univ _)
            rw [Finset.sum_eq_zero_iff_of_nonneg (fun j _ => hnn s j)] at h2
            have h3 := h2 ss (Finset.mem_univ _)
            have hdc : ((M.rateExpr s ss).degree p : ℝ) ≠ 0 := by exact_mod_cast hd
            have h4 := (mul_eq_zero.1 h3).resolve_left hdc
            have h5 : (N s ss : ℝ) = 0 := (mul_eq_zero.1 (hz s ss)).resolve_left hdc
            rw [h4, h5, zero_mul, zero_mul]
            refine ⟨?_, by simp⟩
            have := mul_nonneg (hT0 s) hrn
            linarith
          · have hr0 : (M.withVal v').matrix s ss = 0 := by rw [hr' p hp s ss ho, valOf_of_lookup a1, ← hx, zero_pow hd, mul_zero]
            rw [show N s ss = 0 from hJv' s ss hr0, hr0]
            have := mul_nonneg (hT0 s) hrn
            constructor
            · push_cast; linarith
            · simp
        linarith [hlhs.1, hlhs.2]
    · push Not at hex
      have e0 : (M.withVal v).matrix s ss = (M.withVal v').matrix s ss := by
        refine Expr.den_congr _ _ _ (fun q hq => ?_)
        have : q ∉ M.estimated fixed := fun hq' => hex q hq' hq
        show (v.lookup q).getD 0 = (v'.lookup q).getD 0
        rw [hsc.same q this, hsameE q this]
      rw [Finset.sum_eq_zero (fun p hp => by rw [Expr.degree_zero _ _ (hex p hp)]; simp), e0, add_zero]
  calc ∑ s, ∑ ss, ((N s ss : ℝ) * Real.log ((M.withVal v).matrix s ss) - T s * (M.withVal v).matrix s ss)
      ≤ ∑ s, ∑ ss, ((N s ss : ℝ) * Real.log ((M.withVal v').matrix s ss) - T s * (M.withVal v').matrix s ss +
        ∑ p ∈ M.estimated fixed, c p * (((M.rateExpr s ss).degree p : ℝ) * (N s ss - T s * (M.withVal v').matrix s ss))) :=
        Finset.sum_le_sum (fun s _ => Finset.sum_le_sum (fun ss _ => hpt s ss))
    _ = ∑ s, ∑ ss, ((N s ss : ℝ) * Real.log ((M.withVal v').matrix s ss) - T s * (M.withVal v').matrix s ss) := by
        simp only [Finset.sum_add_distrib]
        rw [add_eq_left]
        have : ∀ s : Fin M.nb, ∑ ss : Fin M.nb, ∑ p ∈ M.estimated fixed, c p * (((M.rateExpr s ss).degree p : ℝ) * (N s ss - T s * (M.withVal v').matrix s ss))
            = ∑ p ∈ M.estimated fixed, ∑ ss : Fin M.nb, c p * (((M.rateExpr s ss).degree p : ℝ) * (N s ss - T s * (M.withVal v').matrix s ss)) :=
          fun s => Finset.sum_comm
        simp only [this]
        rw [Finset.sum_comm]
        refine Finset.sum_eq_zero (fun p hp => ?_)
        simp only [← Finset.mul_sum]
        rw [hbal p hp, mul_zero]

end Jajapy.PCTMC
