import Verif.Props.ConsistencyPCTMC
import Verif.Props.FitParametersEx

/-!
Examples for the values of estimated parameters (C97, C98).
-/

set_option linter.unusedSectionVars false
set_option linter.unusedSimpArgs false

namespace Jajapy.PCTMC

open MeasureTheory ProbabilityTheory Spec BW Filter Topology Tools

/-- The set of the example: the trace init 1 a 1/4 b 1 a, twice. -/
noncomputable def exLearn : TSet (Sym String) := ⟨[timed [("init", 1), ("a", 1/4), ("b", 1)] "a"], [2], false, some 4⟩

theorem exLearn_mem (w : List (Sym String)) (hw : w ∈ exLearn.sequences) : w = timed [("init", 1), ("a", 1/4), ("b", 1)] "a" := by
  simpa [exLearn] using hw

theorem exLearn_ok : CTMC.TimedSet exLearn ∧ WaitsNonneg exLearn := by
  constructor
  · intro w hw
    rw [exLearn_mem w hw]
    exact ⟨isTimed_timed _ _, by rw [timed_length]; decide⟩
  · intro w hw
    rw [exLearn_mem w hw, timedSteps_timed]
    simp

theorem exLearn_shows (a : String) (ha : a ∈ ["a", "b", "init"]) : Shows (.timed exLearn) a := by
  refine ⟨timed [("init", 1), ("a", 1/4), ("b", 1)] "a", by simp [exLearn], ?_⟩
  simp only [List.mem_cons, List.not_mem_nil, or_false] at ha
  rcases ha with rfl | rfl | rfl
  · exact ⟨1, rfl⟩
  · exact ⟨2, rfl⟩
  · exact ⟨0, rfl⟩

theorem exModel_labels (v : Valuation ℝ) : (exModel ℝ v).labelling.Nodup := by
  show ["a", "b", "init"].Nodup
  decide

theorem exModel_rate (v : Valuation ℝ) (i j : ℕ) (hi : i < 3) (hj : j < 3) : (exModel ℝ v).rateExpr i j =
    if i = 0 ∧ j = 1 then .mul (.num 2) (.sym "x") else if i = 1 ∧ j = 0 then .pow (.sym "y") 2
    else if i = 2 ∧ j = 0 then .num 1 else .num 0 := by
  interval_cases i <;> interval_cases j <;> rfl

theorem exLearn_density (a b : ℝ) (ha : 0 < a) (hb : 0 < b) : ∀ w ∈ exLearn.sequences, (exModel ℝ [("x", a), ("y", b)]).density w ≠ 0 := by
  intro w hw
  rw [exLearn_mem w hw]
  have hinj := here_injective (M := exModel ℝ [("x", a), ("y", b)]) (exModel_wf _) (exModel_labels _)
  have := (exModel ℝ [("x", a), ("y", b)]).here.density_path hinj
    [(⟨2, by show _ < 3; decide⟩, 1), (⟨0, by show _ < 3; decide⟩, 1/4), (⟨1, by show _ < 3; decide⟩, 1)] ⟨0, by show _ < 3; decide⟩
  refine ne_of_eq_of_ne this ?_
  refine mul_ne_zero ?_ ((along_ne_zero _ _ _).2 ?_)
  · show ([0, 0, 1] : List ℝ).getD 2 0 ≠ 0
    simp
  · intro m hm
    refine mul_ne_zero ?_ (Real.exp_pos _).ne'
    simp only [movesOf, List.mem_cons, List.not_mem_nil, or_false] at hm
    rcases hm with rfl | rfl | rfl
    · show ((exModel ℝ [("x", a), ("y", b)]).rateExpr 2 0).den (fun _ => 0) ≠ 0
      rw [exModel_rate _ _ _ (by norm_num) (by norm_num)]; simp [Expr.den]
    · show ((exModel ℝ [("x", a), ("y", b)]).rateExpr 0 1).den _ ≠ 0
      rw [exModel_rate _ _ _ (by norm_num) (by norm_num)]; simp [Expr.den, exModel, valOf, List.lookup, ha.ne', hb.ne']
    · show ((exModel ℝ [("x", a), ("y", b)]).rateExpr 1 0).den _ ≠ 0
      rw [exModel_rate _ _ _ (by norm_num) (by norm_num)]; simp [Expr.den, exModel, valOf, List.lookup, ha.ne', hb.ne']

theorem exModel_alone (v : Valuation ℝ) (p : String) : (exModel ℝ v).Alone ["x", "y"] p := by
  intro i j hi hj ho q hq hoq
  rw [exModel_rate v i j hi hj] at ho hoq
  rw [← Expr.mem_free] at ho hoq
  split_ifs at ho hoq <;> simp [Expr.free] at ho hoq <;> simp [ho, hoq]

theorem exModel_indexes (v : Valuation ℝ) : (exModel ℝ v).IndexesInRange := by
  show ∀ l ∈ [[((0 : ℕ), (1 : ℕ))], [(1, 0)]], ∀ p ∈ l, p.1 < 3 ∧ p.2 < 3
  decide

theorem exLearn_time : totalTime exLearn "a" = 1/2 ∧ totalTime exLearn "b" = 2 ∧ totalTime exLearn "init" = 2 := by
  have h1 : ("b" : String) ≠ "a" := by decide
  have h2 : ("a" : String) ≠ "b" := by decide
  have h3 : ("a" : String) ≠ "init" := by decide
  have h4 : ("b" : String) ≠ "init" := by decide
  have h5 : ("init" : String) ≠ "a" := by decide
  have h6 : ("init" : String) ≠ "b" := by decide
  unfold totalTime
  simp only [exLearn, List.zip_cons_cons, List.zip_nil_right, List.map_cons, List.map_nil, timedSteps_timed, h1, h2, h3, h4, h5, h6, if_false, if_true,
    List.sum_cons, List.sum_nil]
  norm_num

theorem exLearn_jumps : jumpCount exLearn "a" "b" = 2 ∧ jumpCount exLearn "b" "a" = 2 := by
  unfold jumpCount
  simp only [exLearn, List.zip_cons_cons, List.zip_nil_right, List.map_cons, List.map_nil, observations_timed]
  decide

theorem exModel_uses (x : ℝ) : (exModel ℝ [("x", 1/2), ("y", 3)]).expectedUses exLearn "x" x = x ∧
    (exModel ℝ [("x", 1/2), ("y", 3)]).observedUses exLearn "x" = 2 ∧
    (exModel ℝ [("x", 1/2), ("y", 3)]).expectedUses exLearn "y" x = 4 * x ^ 2 ∧
    (exModel ℝ [("x", 1/2), ("y", 3)]).observedUses exLearn "y" = 4 := by
  obtain ⟨ta, tb, ti⟩ := exLearn_time
  obtain ⟨ja, jb⟩ := exLearn_jumps
  have hl : ∀ k, (exModel ℝ [("x", 1/2), ("y", 3)]).labelling.getD k "" = (["a", "b", "init"] : List String).getD k "" := fun _ => rfl
  have hxy : ("x" : String) ≠ "y" := by decide
  have hyx : ("y" : String) ≠ "x" := by decide
  have e1 : ∀ p, (exModel ℝ [("x", 1/2), ("y", 3)]).expectedUses exLearn p x = ∑ i : Fin 3, ∑ j : Fin 3,
      ((if i.1 = 0 ∧ j.1 = 1 then .mul (.num 2) (.sym "x") else if i.1 = 1 ∧ j.1 = 0 then .pow (.sym "y") 2
        else if i.1 = 2 ∧ j.1 = 0 then .num 1 else .num 0 : Expr ℝ).degree p : ℝ) * (totalTime exLearn ((["a", "b", "init"] : List String).getD i "") *
        ((if i.1 = 0 ∧ j.1 = 1 then .mul (.num 2) (.sym "x") else if i.1 = 1 ∧ j.1 = 0 then .pow (.sym "y") 2
        else if i.1 = 2 ∧ j.1 = 0 then .num 1 else .num 0 : Expr ℝ).den (Function.update (valOf [("x", 1/2), ("y", 3)]) p 1) *
        x ^ (if i.1 = 0 ∧ j.1 = 1 then .mul (.num 2) (.sym "x") else if i.1 = 1 ∧ j.1 = 0 then .pow (.sym "y") 2
        else if i.1 = 2 ∧ j.1 = 0 then .num 1 else .num 0 : Expr ℝ).degree p)) := by
    intro p
    unfold expectedUses
    refine Finset.sum_congr rfl (fun i _ => Finset.sum_congr rfl (fun j _ => ?_))
    rw [rateAtOne, exModel_rate _ _ _ i.2 j.2]
    rfl
  have e2 : ∀ p, (exModel ℝ [("x", 1/2), ("y", 3)]).observedUses exLearn p = ∑ i : Fin 3, ∑ j : Fin 3,
      ((if i.1 = 0 ∧ j.1 = 1 then .mul (.num 2) (.sym "x") else if i.1 = 1 ∧ j.1 = 0 then .pow (.sym "y") 2
        else if i.1 = 2 ∧ j.1 = 0 then .num 1 else .num 0 : Expr ℝ).degree p : ℝ) *
        (jumpCount exLearn ((["a", "b", "init"] : List String).getD i "") ((["a", "b", "init"] : List String).getD j "") : ℝ) := by
    intro p
    unfold observedUses
    refine Finset.sum_congr rfl (fun i _ => Finset.sum_congr rfl (fun j _ => ?_))
    rw [exModel_rate _ _ _ i.2 j.2]
    rfl
  refine ⟨?_, ?_, ?_, ?_⟩
  · rw [e1]
    simp [Fin.sum_univ_three, Expr.degree, Expr.den, hxy, hyx, ta]
  · rw [e2]
    simp [Fin.sum_univ_three, Expr.degree, hxy, hyx, ja]
  · rw [e1]
    simp [Fin.sum_univ_three, Expr.degree, Expr.den, hxy, hyx, tb]
    try ring
  · rw [e2]
    simp [Fin.sum_univ_three, Expr.degree, hxy, hyx, jb]
    try norm_num

/-- C97, non-vacuity: from x = 1/2 and y = 3, the estimation on the set of the example returns, for every number of iterations, x = 2 and y = 1:
the traces jump from a to b (rate 2x) twice in a time of 1/2, and from b to a (rate y²) twice in a time of 2. -/
theorem exModel_learn (epsilon : ℝ) (maxIt : ℕ) (hmax : 1 ≤ maxIt) : ∃ d M', (exModel ℝ [("x", 1/2), ("y", 3)]).fitParameters 2 (.timed exLearn) ["x", "y"]
    epsilon maxIt none none [] = .ok (some (d, M')) ∧ M'.values.lookup "x" = some 2 ∧ M'.values.lookup "y" = some 1 := by
  have hf : (exModel ℝ [("x", 1/2), ("y", 3)]).names.filter (fun p => p ∉ ["x", "y"]) = [] := by decide +kernel
  obtain ⟨C, hC, _, _, h3⟩ := exModel_sort
  have hE : (exModel ℝ [("x", 1/2), ("y", 3)]).Estimable ((exModel ℝ [("x", 1/2), ("y", 3)]).names.filter (fun p => p ∉ ["x", "y"])) := by
    rw [hf]; exact exModel_estimable
  obtain ⟨d, M', h⟩ := estimate_total 2 (by decide) exLearn (exModel ℝ [("x", 1/2), ("y", 3)]) ["x", "y"]
    hE epsilon maxIt C (by rw [hf]; exact hC) h3 exLearn_ok.1 exLearn_ok.2 rfl
    (by simp [exLearn]) (timed [("init", 1), ("a", 1/4), ("b", 1)] "a") (by simp [exLearn]) (exLearn_density _ _ (by norm_num) (by norm_num) _ (by simp [exLearn]))
  have hfit : (exModel ℝ [("x", 1/2), ("y", 3)]).fitParameters 2 (.timed exLearn) ["x", "y"] epsilon maxIt none none [] = .ok (some (d, M')) := by
    refine fitParameters_ok (A := ["init", "a", "b"]) (by decide +kernel) ?_
      (prepare_spec _ rfl (exLearn_shows _ (by decide))) ?_ h
    · have : exLearn.getAlphabet = .ok [.obs "init", .obs "a", .obs "b"] := by
        unfold TSet.getAlphabet
        rw [if_neg (by simp [exLearn]), if_pos (show exLearn.type = some 4 from rfl)]
        simp [exLearn, TSet.addNew, TSet.evens, timed]
      unfold labelsOf
      dsimp only
      rw [this]
      rfl
    · rw [exModel_reduce]
      rfl
  refine ⟨d, M', hfit, ?_, ?_⟩
  · obtain ⟨x, _, a1, _, _, a2⟩ := fitParameters_observed 2 exLearn rfl (exModel ℝ [("x", 1/2), ("y", 3)]) (exModel_indexes _) ["x", "y"] hE epsilon maxIt hmax []
      exLearn_shows (by show "init" ∈ ["a", "b", "init"]; decide) (exModel_labels _) exLearn_ok.1 exLearn_ok.2 rfl (by simp [exLearn]) (exLearn_density _ _ (by norm_num) (by norm_num)) d M' hfit
      "x" (by show "x" ∈ ["x", "y"]; decide) (by decide) (exModel_alone _ _) (1/2) rfl (by norm_num)
    rw [a1, ← (exModel_uses x).1, a2 (by rw [(exModel_uses 1).1]; norm_num), (exModel_uses 1).2.1]
  · obtain ⟨x, _, a1, a0, _, a2⟩ := fitParameters_observed 2 exLearn rfl (exModel ℝ [("x", 1/2), ("y", 3)]) (exModel_indexes _) ["x", "y"] hE epsilon maxIt hmax []
      exLearn_shows (by show "init" ∈ ["a", "b", "init"]; decide) (exModel_labels _) exLearn_ok.1 exLearn_ok.2 rfl (by simp [exLearn]) (exLearn_density _ _ (by norm_num) (by norm_num)) d M' hfit
      "y" (by show "y" ∈ ["x", "y"]; decide) (by decide) (exModel_alone _ _) 3 rfl (by norm_num)
    have h2 := a2 (by rw [(exModel_uses 1).2.2.1]; norm_num)
    rw [(exModel_uses x).2.2.1, (exModel_uses 1).2.2.2] at h2
    rw [a1]
    congr 1
    nlinarith

/-- Non-vacuity of `estimate_best`: no other positive values of x and y give the set of the example a larger likelihood. -/
theorem exModel_best (epsilon : ℝ) (maxIt : ℕ) (hmax : 1 ≤ maxIt) : ∃ d M', (exModel ℝ [("x", 1/2), ("y", 3)]).estimate 2 (.timed exLearn) ["x", "y"]
    epsilon maxIt = .ok (d, M') ∧ ∀ a b : ℝ, 0 < a → 0 < b →
      avgLogLik (exModel ℝ [("x", a), ("y", b)]).density exLearn ≤ avgLogLik M'.density exLearn := by
  have hf : (exModel ℝ [("x", 1/2), ("y", 3)]).names.filter (fun p => p ∉ ["x", "y"]) = [] := by decide +kernel
  obtain ⟨C, hC, _, _, h3⟩ := exModel_sort
  have hE : (exModel ℝ [("x", 1/2), ("y", 3)]).Estimable ((exModel ℝ [("x", 1/2), ("y", 3)]).names.filter (fun p => p ∉ ["x", "y"])) := by
    rw [hf]; exact exModel_estimable
  obtain ⟨d, M', h⟩ := estimate_total 2 (by decide) exLearn (exModel ℝ [("x", 1/2), ("y", 3)]) ["x", "y"]
    hE epsilon maxIt C (by rw [hf]; exact hC) h3 exLearn_ok.1 exLearn_ok.2 rfl
    (by simp [exLearn]) (timed [("init", 1), ("a", 1/4), ("b", 1)] "a") (by simp [exLearn]) (exLearn_density _ _ (by norm_num) (by norm_num) _ (by simp [exLearn]))
  refine ⟨d, M', h, fun a b ha hb => ?_⟩
  refine estimate_best 2 exLearn (exModel ℝ [("x", 1/2), ("y", 3)]) ["x", "y"] hE epsilon maxIt hmax (exModel_labels _) exLearn_ok.1 exLearn_ok.2 rfl
    (by simp [exLearn]) (exLearn_density _ _ (by norm_num) (by norm_num)) ?_ d M' h (by decide +kernel) (fun p _ => exModel_alone _ p) ?_ [("x", a), ("y", b)] ?_ ?_
    (exLearn_density a b ha hb)
  · intro s s' hj
    obtain ⟨t1, t2, t3⟩ := exLearn_time
    unfold jumpCount at hj
    simp only [exLearn, List.zip_cons_cons, List.zip_nil_right, List.map_cons, List.map_nil, observations_timed, List.sum_cons, List.sum_nil, add_zero] at hj
    have hm : (s, s') ∈ [("init", "a"), ("a", "b"), ("b", "a")] := by
      refine List.count_pos_iff.1 (Nat.pos_of_ne_zero (fun h0 => hj ?_))
      have : [("init", "a"), ("a", "b"), ("b", "a")] = (["init", "a", "b"] ++ ["a"]).zip (["init", "a", "b"] ++ ["a"]).tail := rfl
      rw [← this, h0]
    simp only [List.mem_cons, List.not_mem_nil, or_false, Prod.mk.injEq] at hm
    rcases hm with ⟨rfl, _⟩ | ⟨rfl, _⟩ | ⟨rfl, _⟩
    · rw [t3]; norm_num
    · rw [t1]; norm_num
    · rw [t2]; norm_num
  · intro p hp
    simp only [List.mem_cons, List.not_mem_nil, or_false] at hp
    rcases hp with rfl | rfl
    · exact ⟨1/2, rfl, by norm_num⟩
    · exact ⟨3, rfl, by norm_num⟩
  · intro q hq
    have h1 : q ≠ "x" := fun h => hq (by simp [h])
    have h2 : q ≠ "y" := fun h => hq (by simp [h])
    show List.lookup q [("x", a), ("y", b)] = List.lookup q [("x", 1/2), ("y", 3)]
    rw [List.lookup_cons, List.lookup_cons, List.lookup_cons, List.lookup_cons]
    rw [beq_false_of_ne h1, beq_false_of_ne h2]
  · intro p hp
    simp only [List.mem_cons, List.not_mem_nil, or_false] at hp
    rcases hp with rfl | rfl
    · exact ⟨a, rfl, ha.le⟩
    · exact ⟨b, rfl, hb.le⟩

/-! ### Generated sets -/

theorem exModel_live : (exModel ℝ [("x", 2), ("y", 1)]).Live (fun q => ((exModel ℝ [("x", 2), ("y", 1)]).values.lookup q).getD 0) := by
  refine ⟨⟨exModel_wf _, exModel_full _ _, ?_, ?_⟩, ?_, by simp [exModel], by simp [exModel]⟩
  · intro p x hx
    simp only [hx, Option.getD_some]
  · intro s j
    show 0 ≤ Expr.den _ _
    rw [exModel_rate _ s j s.2 j.2]
    split_ifs <;> simp [Expr.den, exModel, List.lookup]
  · intro s
    have hs : s.1 < 3 := s.2
    obtain ⟨k, hk⟩ := s
    simp only at hs
    interval_cases k
    · exact ⟨⟨1, by decide⟩, by
        show 0 < ((exModel ℝ [("x", 2), ("y", 1)]).rateExpr 0 1).den _
        rw [exModel_rate _ _ _ (by norm_num) (by norm_num)]; simp [Expr.den, exModel, List.lookup]⟩
    · exact ⟨⟨0, by decide⟩, by
        show 0 < ((exModel ℝ [("x", 2), ("y", 1)]).rateExpr 1 0).den _
        rw [exModel_rate _ _ _ (by norm_num) (by norm_num)]; simp [Expr.den, exModel, List.lookup]⟩
    · exact ⟨⟨0, by decide⟩, by
        show 0 < ((exModel ℝ [("x", 2), ("y", 1)]).rateExpr 2 0).den (fun _ => 0)
        rw [exModel_rate _ _ _ (by norm_num) (by norm_num)]; simp [Expr.den]⟩

theorem exModel_reach : ∀ i : Fin (exModel ℝ [("x", 2), ("y", 1)]).matrix.length, ∃ c,
    0 < ((exModel ℝ [("x", 2), ("y", 1)]).chain (fun _ => 0)).initialState c ∧ ∃ k < 3,
      ((exModel ℝ [("x", 2), ("y", 1)]).chain (fun q => ((exModel ℝ [("x", 2), ("y", 1)]).values.lookup q).getD 0)).Walk k c i := by
  intro s
  refine ⟨⟨2, by decide⟩, by show 0 < ([0, 0, 1] : List ℝ).getD 2 0; simp, ?_⟩
  have m20 : 0 < ((exModel ℝ [("x", 2), ("y", 1)]).chain (fun q => ((exModel ℝ [("x", 2), ("y", 1)]).values.lookup q).getD 0)).matrix ⟨2, by decide⟩ ⟨0, by decide⟩ := by
    show 0 < ((exModel ℝ [("x", 2), ("y", 1)]).rateExpr 2 0).den (fun _ => 0)
    rw [exModel_rate _ _ _ (by norm_num) (by norm_num)]; simp [Expr.den]
  have m01 : 0 < ((exModel ℝ [("x", 2), ("y", 1)]).chain (fun q => ((exModel ℝ [("x", 2), ("y", 1)]).values.lookup q).getD 0)).matrix ⟨0, by decide⟩ ⟨1, by decide⟩ := by
    show 0 < ((exModel ℝ [("x", 2), ("y", 1)]).rateExpr 0 1).den _
    rw [exModel_rate _ _ _ (by norm_num) (by norm_num)]; simp [Expr.den, exModel, List.lookup]
  have hs : s.1 < 3 := s.2
  obtain ⟨k, hk⟩ := s
  simp only at hs
  interval_cases k
  · exact ⟨1, by norm_num, _, m20, rfl⟩
  · exact ⟨2, by norm_num, _, m20, _, m01, rfl⟩
  · exact ⟨0, by norm_num, rfl⟩

/-- C98, non-vacuity: the estimation from x = 1/2 and y = 3 on sets generated with x = 2 and y = 1 finds, in the limit, x = 2 and y = 1. -/
theorem exModel_limit (kind : String ⊕ WithTop ℝ → Kind) (hk : (∀ a, kind (.inl a) = .str) ∧ ∀ t, kind (.inr t) = .float) (geom : ℕ → ℕ) :
    ∀ᵐ D ∂callsLaw (simLaw 3), ∃ S : ℕ → TSet (Sym String),
      (∀ N, generateSet kind (fun j k => (exModel ℝ [("x", 2), ("y", 1)]).runTimed k (D j).1 (fun k => pad ((D j).2 k))) N false none (.int 3) geom
        = .ok (S N).asTraces) ∧
      ∀ (processes maxIt : ℕ → ℕ) (epsilon : ℕ → ℝ) (r : ℕ → List (String × Option ℝ) × PCTMC ℝ), (∀ N, 1 ≤ maxIt N) →
        (∀ᶠ N in atTop, (exModel ℝ [("x", 1/2), ("y", 3)]).fitParameters (processes N) (.timed (S N)) ["x", "y"] (epsilon N) (maxIt N) none none []
          = .ok (some (r N))) →
        Tendsto (fun N => ((r N).2.values.lookup "x").getD 0) atTop (𝓝 2) ∧ Tendsto (fun N => ((r N).2.values.lookup "y").getD 0) atTop (𝓝 1) := by
  have hf : (exModel ℝ [("x", 2), ("y", 1)]).names.filter (fun p => p ∉ ["x", "y"]) = [] := by decide +kernel
  have := fitParameters_limit (exModel ℝ [("x", 2), ("y", 1)]) [("x", 1/2), ("y", 3)] ["x", "y"] exModel_live (exModel_labels _)
    (by show "init" ∈ ["a", "b", "init"]; decide) (exModel_indexes _) (by rw [hf]; exact exModel_estimable)
    (fun q hq => by
      have h1 : q ≠ "x" := fun h => hq (by simp [h])
      have h2 : q ≠ "y" := fun h => hq (by simp [h])
      show List.lookup q [("x", (1/2 : ℝ)), ("y", 3)] = List.lookup q [("x", 2), ("y", 1)]
      rw [List.lookup_cons, List.lookup_cons, List.lookup_cons, List.lookup_cons]
      rw [beq_false_of_ne h1, beq_false_of_ne h2])
    (fun p hp => by
      simp only [List.mem_cons, List.not_mem_nil, or_false] at hp
      rcases hp with rfl | rfl
      · exact ⟨1/2, rfl, by norm_num⟩
      · exact ⟨3, rfl, by norm_num⟩)
    (fun i j hi hj => by
      rw [exModel_rate _ i j hi hj]
      split_ifs <;> simp [Expr.den, exModel, List.lookup])
    kind hk 3 (by norm_num) exModel_reach geom
  filter_upwards [this] with D hD
  obtain ⟨S, h1, h2⟩ := hD
  refine ⟨S, h1, fun processes maxIt epsilon r hmax hr => ⟨?_, ?_⟩⟩
  · refine (h2 processes maxIt epsilon r hmax hr "x" (by decide) (exModel_alone _ _) 2 rfl (by norm_num) ⟨⟨0, by decide⟩, ⟨1, by decide⟩, ?_, ?_⟩).1
    · rw [exModel_rate _ _ _ (by norm_num) (by norm_num), ← Expr.mem_free]; simp [Expr.free]
    · rw [rateAtOne, exModel_rate _ _ _ (by norm_num) (by norm_num)]; simp [Expr.den]
  · refine (h2 processes maxIt epsilon r hmax hr "y" (by decide) (exModel_alone _ _) 1 rfl (by norm_num) ⟨⟨1, by decide⟩, ⟨0, by decide⟩, ?_, ?_⟩).1
    · rw [exModel_rate _ _ _ (by norm_num) (by norm_num), ← Expr.mem_free]; simp [Expr.free]
    · rw [rateAtOne, exModel_rate _ _ _ (by norm_num) (by norm_num)]; simp [Expr.den]

end Jajapy.PCTMC
