import Verif.Props.PFit

/-!
Examples for `fit` on a PCTMC (C78), and a training set on which it decreases the likelihood.
-/

set_option linter.unusedSectionVars false

namespace Jajapy

open Spec BW

namespace PCTMC

/-- init -> l with rate 1, init -> a with rate q, l -> a with rate 2q. -/
noncomputable def exTwin (l : String) (q : ℝ) : PCTMC ℝ where
  matrix := [[0, 1, 2], [0, 0, 3], [0, 0, 0]]
  labelling := ["init", l, "a"]
  exprs := [.num 0, .num 1, .sym "q", .mul (.num 2) (.sym "q")]
  values := [("q", q)]
  indexes := [[(0, 2), (1, 2)]]
  names := ["q"]
  initialState := [1, 0, 0]
  sync := []

theorem exTwin_wf (l : String) (q : ℝ) : (exTwin l q).WF ∧ (exTwin l q).Full := by
  refine ⟨⟨?_, rfl, rfl, ?_, ?_⟩, ?_⟩
  · show ∀ row ∈ [[0, 1, 2], [0, 0, 3], [0, 0, 0]], row.length = 3
    decide
  · show ∀ row ∈ [[0, 1, 2], [0, 0, 3], [0, 0, 0]], ∀ t ∈ row, t < 4
    decide
  · intro x hx p hp
    rw [← Expr.mem_free] at hp
    simp only [exTwin, List.mem_cons, List.not_mem_nil, or_false] at hx
    rcases hx with rfl | rfl | rfl | rfl <;> simp_all [Expr.free, exTwin]
  · intro p hp
    simp only [exTwin, List.mem_singleton] at hp
    subst hp
    exact ⟨q, by simp [exTwin]⟩

theorem exTwin_estimable (l : String) (q : ℝ) (hq : 0 < q) : (exTwin l q).Estimable [] := by
  have hr : ∀ i j, i < 3 → j < 3 → (exTwin l q).rateExpr i j =
      if i = 0 ∧ j = 1 then .num 1 else if i = 0 ∧ j = 2 then .sym "q" else if i = 1 ∧ j = 2 then .mul (.num 2) (.sym "q") else .num 0 := by
    intro i j hi hj
    interval_cases i <;> interval_cases j <;> rfl
  refine ⟨(exTwin_wf l q).1, (exTwin_wf l q).2, by show ["q"].Nodup; decide, ?_, ?_, ?_, ?_⟩
  · intro p hp _
    refine indexes_of_check ?_ p hp
    intro p hp
    have : p = "q" := by simpa [exTwin] using hp
    subst this
    have e : (exTwin l q).indexesOf "q" = [(0, 2), (1, 2)] := rfl
    rw [e]
    refine ⟨by decide, (fun x hx => ?_), ?_⟩
    · show x.1 < 3 ∧ x.2 < 3
      simp only [List.mem_cons, List.not_mem_nil, or_false] at hx
      rcases hx with rfl | rfl <;> decide
    · intro i hi j hj
      have hi : i < 3 := List.mem_range.1 hi
      have hj : j < 3 := List.mem_range.1 hj
      rw [hr i j hi hj]
      interval_cases i <;> interval_cases j <;> simp [Expr.free]
  · intro i j hi hj
    rw [hr i j hi hj]
    split_ifs
    · exact .const _ (by simp [← Expr.mem_free, Expr.free])
    · exact .sym _
    · exact .mul _ _ (.const _ (by simp [← Expr.mem_free, Expr.free])) (.sym _) (by simp [← Expr.mem_free, Expr.free])
    · exact .const _ (by simp [← Expr.mem_free, Expr.free])
  · intro ρ hρ
    have hx : ρ "q" = q := hρ "q" _ rfl
    constructor
    · intro s
      show 0 ≤ ([1, 0, 0] : List ℝ).getD s 0
      have hs : s.1 < 3 := s.2
      generalize s.1 = k at hs
      interval_cases k <;> simp
    · intro s ss
      show 0 ≤ ((exTwin l q).rateExpr s ss).den ρ
      rw [hr s ss s.2 ss.2]
      split_ifs <;> simp [Expr.den, hx, hq.le]
  · intro p hp _ x hx
    have hp' : p = "q" := by simpa [exTwin] using hp
    subst hp'
    have hx' : some q = some x := hx
    injection hx' with hx'
    rw [← hx']; exact hq.le

theorem exTwin_sort (l : String) (q : ℝ) : ∃ C, (exTwin l q).sortParameters [] = .ok C ∧ C.cat1 = ["q"] ∧ C.cat2 = [] ∧ C.cat3 = [] ∧
    C.coeff 0 2 = 1 ∧ C.coeff 1 2 = 2 := by
  refine ⟨_, rfl, rfl, rfl, rfl, ?_, ?_⟩ <;> simp

noncomputable def exOne : TSet (Sym String) := ⟨[timed [("init", 1)] "a"], [1], false, some 4⟩

theorem exOne_ok : Typed (.timed exOne) ∧ Shows (.timed exOne) "init" ∧ WaitsNonneg exOne := by
  refine ⟨rfl, ⟨timed [("init", 1)] "a", by simp [exOne], 0, rfl⟩, ?_⟩
  intro w hw
  have : w = timed [("init", 1)] "a" := by simpa [exOne] using hw
  subst this
  rw [timedSteps_timed]
  simp

theorem twin_density (H : CTMC ℝ String 3) (l : String) (q : ℝ) (hl : l ≠ "a") (l0 : H.labelling 0 = "init") (l1 : H.labelling 1 = l)
    (l2 : H.labelling 2 = "a") (i0 : H.initialState 0 = 1) (i1 : H.initialState 1 = 0) (i2 : H.initialState 2 = 0)
    (m0 : ∀ s ss, H.matrix s ss = if s = 0 ∧ ss = 1 then 1 else if s = 0 ∧ ss = 2 then q else if s = 1 ∧ ss = 2 then 2 * q else 0) :
    H.density (timed [("init", 1)] "a") = q * Real.exp (-(1 + q)) ∧
    bwd H.rateStep (H.maskTimed (.obs "a")) ("init", 1) 0 = q * Real.exp (-(1 + q)) ∧
    fwd H.rateStep H.initialState ("init", 1) 0 = 0 ∧ fwd H.rateStep H.initialState ("init", 1) 1 = Real.exp (-(1 + q)) ∧
    H.rateStep 0 2 ("init", 1) = q * Real.exp (-(1 + q)) ∧
    (l = "init" → bwd H.rateStep (H.maskTimed (.obs "a")) ("init", 1) 1 = 2 * q * Real.exp (-(2 * q)) ∧
      H.rateStep 1 2 ("init", 1) = 2 * q * Real.exp (-(2 * q))) := by
  refine ⟨?_, ?_, ?_, ?_, ?_, ?_⟩
  · unfold CTMC.density
    rw [totalWeight_eq, timedSteps_timed]
    simp only [beta0, betas, bwd, List.headD, Fin.sum_univ_three, CTMC.rateStep, CTMC.lastMask, observations_timed, m0]
    simp [l0, l1, l2, i0, i1, i2, hl.symm]
  · simp only [bwd, Fin.sum_univ_three, CTMC.rateStep, CTMC.maskTimed, m0]
    simp [l0, l1, l2, hl]
  · simp only [fwd, Fin.sum_univ_three, CTMC.rateStep, m0]
    simp
  · simp only [fwd, Fin.sum_univ_three, CTMC.rateStep, m0]
    simp [l0, i0, i1, i2]
  · simp only [Fin.sum_univ_three, CTMC.rateStep, m0]
    simp [l0]
  · rintro rfl
    constructor
    · simp only [bwd, Fin.sum_univ_three, CTMC.rateStep, CTMC.maskTimed, m0]
      simp [l0, l1, l2]
    · simp only [Fin.sum_univ_three, CTMC.rateStep, m0]
      simp [l1]

theorem exTwin_matrix (l : String) (q : ℝ) : ∀ s ss : Fin 3, (exTwin l q).here.matrix s ss =
    if s = 0 ∧ ss = 1 then 1 else if s = 0 ∧ ss = 2 then q else if s = 1 ∧ ss = 2 then 2 * q else 0 := by
  intro s ss
  fin_cases s <;> fin_cases ss <;> rfl

/-- The sums of the example: the state 1, in which no run is at the beginning of the trace, takes part in them. -/
theorem twin_tables (H : CTMC ℝ String 3) (l0 : H.labelling 0 = "init") (l1 : H.labelling 1 = "init")
    (l2 : H.labelling 2 = "a") (i0 : H.initialState 0 = 1) (i1 : H.initialState 1 = 0) (i2 : H.initialState 2 = 0)
    (m0 : ∀ s ss, H.matrix s ss = if s = 0 ∧ ss = 1 then 1 else if s = 0 ∧ ss = 2 then 1 else if s = 1 ∧ ss = 2 then 2 * 1 else 0) :
    ∃ t : FitTables 3, fitTables H (timed [("init", 1)] "a") 1 = .ok (some t) ∧
      (∀ s, ∃ x, t.visits s = .ok x) ∧ (∀ s ss, ∃ x, t.uses s ss = .ok x) ∧
      t.total.time 0 = 1 ∧ t.total.time 1 = 2 * Real.exp (-2) ∧ t.total.uses 0 2 = 1 ∧ t.total.uses 1 2 = 2 * Real.exp (-2) ∧
      t.total.seen 0 2 ∧ t.total.seen 1 2 := by
  obtain ⟨d1, d2, d3, d4, d5, d6⟩ := twin_density H "init" 1 (by decide) l0 l1 l2 i0 i1 i2 m0
  obtain ⟨d6, d7⟩ := d6 rfl
  have hnn : ∀ s ss, 0 ≤ H.matrix s ss := by
    intro s ss
    rw [m0]
    split_ifs <;> norm_num
  have hne : Real.exp (-2) ≠ 0 := (Real.exp_pos _).ne'
  have e2 : -(1 + 1 : ℝ) = -2 := by norm_num
  have e2' : -(2 * 1 : ℝ) = -2 := by norm_num
  rw [e2] at d1 d2 d4 d5
  rw [e2'] at d6 d7
  have hls := lastSum_alphasMatrix H hnn [("init", 1)] "a"
  rw [d1, one_mul] at hls
  have hT := fitTables_timed H ("init", 1) [] "a" 1
  simp only [hls, if_neg hne] at hT
  have hr : ∀ s ss, ([("init", 1)].map symStep).map (H.tauTimed s ss) = [H.rateStep s ss ("init", 1)] := by
    intro s ss
    simp only [List.map_cons, List.map_nil, H.tauTimed_symStep]
  have hsum := sums_short H hnn ("init", 1) "a" (((1:ℕ):ℝ) / Real.exp (-2))
  have hm : H.maskTimed (.obs "a") 2 = 1 := by simp [CTMC.maskTimed, l2]
  simp only [hr] at hT
  refine ⟨_, hT, fun s => ⟨_, (hsum s s).1⟩, fun s ss => ⟨_, (hsum s ss).2⟩, ?_, ?_, ?_, ?_, ?_, ?_⟩
  · refine (congrArg (fun x : Py ℝ => x.toOption.getD 0) (hsum 0 0).1).trans ?_
    show (H.initialState 0 + fwd H.rateStep H.initialState ("init", 1) 0) * bwd H.rateStep (H.maskTimed (.obs "a")) ("init", 1) 0 * 1 * _ = _
    rw [d2, d3, i0]
    field_simp
    simp
  · refine (congrArg (fun x : Py ℝ => x.toOption.getD 0) (hsum 1 1).1).trans ?_
    show (H.initialState 1 + fwd H.rateStep H.initialState ("init", 1) 1) * bwd H.rateStep (H.maskTimed (.obs "a")) ("init", 1) 1 * 1 * _ = _
    rw [d6, d4, i1]
    field_simp
    simp
  · refine (congrArg (fun x : Py ℝ => x.toOption.getD 0) (hsum 0 2).2).trans ?_
    show (H.initialState 0 + fwd H.rateStep H.initialState ("init", 1) 0) * H.rateStep 0 2 ("init", 1) * H.maskTimed (.obs "a") 2 * _ = _
    rw [d5, d3, i0, hm]
    field_simp
    simp
  · refine (congrArg (fun x : Py ℝ => x.toOption.getD 0) (hsum 1 2).2).trans ?_
    show (H.initialState 1 + fwd H.rateStep H.initialState ("init", 1) 1) * H.rateStep 1 2 ("init", 1) * H.maskTimed (.obs "a") 2 * _ = _
    rw [d7, d4, i1, hm]
    field_simp
    simp
  · show 0 < [H.rateStep 0 2 ("init", 1)].sum
    rw [d5]
    simp [Real.exp_pos]
  · show 0 < [H.rateStep 1 2 ("init", 1)].sum
    rw [d7]
    simp [Real.exp_pos]

theorem exTwin_step (C : Cats ℝ) (hC : (exTwin "init" 1).sortParameters [] = .ok C) :
    ∃ t : Tables (exTwin "init" 1).nb, at1 t.time 0 = 1 ∧ at1 t.time 1 = 2 * Real.exp (-2) ∧ at2 t.uses 0 2 = 1 ∧
      at2 t.uses 1 2 = 2 * Real.exp (-2) ∧ t.seenAt 0 2 ∧ t.seenAt 1 2 ∧
      fitStep 2 C false exOne (exTwin "init" 1) = (exTwin "init" 1).update C [(exTwin "init" 1).work C (exTwin "init" 1).here t] := by
  have hE := exTwin_estimable "init" 1 one_pos
  obtain ⟨t, ht, h1, h2, h3, h4, h5, h6, h7, h8⟩ := twin_tables (exTwin "init" 1).here rfl rfl rfl rfl rfl rfl (exTwin_matrix "init" 1)
  refine ⟨t.total, (at1_fin t.total.time 0).trans h3, (at1_fin t.total.time 1).trans h4, (at2_fin t.total.uses 0 2).trans h5,
    (at2_fin t.total.uses 1 2).trans h6, ⟨by decide, by decide, h7⟩, ⟨by decide, by decide, h8⟩, ?_⟩
  have hw := fitWork_ok hE (sortParameters_spec hE C hC) (exTwin "init" 1).here t h1 h2
  have htr : (exTwin "init" 1).fitTrace C (exTwin "init" 1).here false (timed [("init", 1)] "a", 1) =
      .ok (some ([], (exTwin "init" 1).work C (exTwin "init" 1).here t.total)) := by
    unfold fitTrace
    refine ((Except.bind_eq_ok _ _ _).2 ⟨_, ht, ?_⟩)
    refine ((Except.bind_eq_ok _ _ _).2 ⟨_, hw, rfl⟩)
  unfold fitStep
  rw [hE.hypothesis_eq]
  simp only [bind, Except.bind]
  have : (exOne.sequences.zip exOne.times).mapM ((exTwin "init" 1).fitTrace C (exTwin "init" 1).here false) =
      .ok [some ([], (exTwin "init" 1).work C (exTwin "init" 1).here t.total)] := by
    simp only [exOne, List.zip_cons_cons, List.zip_nil_right, List.mapM_cons, List.mapM_nil, htr]
    rfl
  rw [this]
  simp only [collect]
  rfl

/-- The value that one iteration gives to q, instead of 1. -/
noncomputable def exWrong : ℝ := (1 + 2 * Real.exp (-2)) / (1 + 2 * (2 * Real.exp (-2)))

theorem exWrong_bounds : 0 < exWrong ∧ exWrong < 1 := by
  have h := Real.exp_pos (-2)
  unfold exWrong
  constructor
  · positivity
  · rw [div_lt_one (by positivity)]
    linarith

theorem exTwin_density (l : String) (q : ℝ) (hl : l ≠ "a") : (exTwin l q).density (timed [("init", 1)] "a") = q * Real.exp (-(1 + q)) :=
  (twin_density (exTwin l q).here l q hl rfl rfl rfl rfl rfl rfl (exTwin_matrix l q)).1

theorem exTwin_inst (l : String) (q : ℝ) (hq : 0 < q) (lo hi : Option ℝ) : (exTwin l q).randomInstantiation none lo hi [[]] = .ok (some (exTwin l q)) := by
  have hE := exTwin_estimable l q hq
  obtain ⟨M2, h1, _⟩ := ((exTwin l q).instantiate_spec hE.wf (exTwin l q).defaultParameters []).1 hE.ratesOK
  have : (exTwin l q).randomInstantiation none lo hi [[]] = .ok (some M2) := by
    unfold randomInstantiation instantiateLoop
    rw [Option.getD_none]
    simp only [List.map_nil, bind, Except.bind]
    rw [h1]
    rfl
  rw [this, randomInstantiation_full hE.full this]

/-- C78 is violated also when `fit` returns: both states 0 and 1 have the label init, the only trace waits 1 in init and then
shows a, and the current value 1 of q is the best one; one iteration changes it, and the log-density of the training set
decreases. -/
theorem fit_decreases (epsilon : ℝ) (lo hi : Option ℝ) :
    (exTwin "init" 1).fit 2 (.timed exOne) (.names []) false epsilon 1 lo hi [[]] = .ok (some (exTwin "init" exWrong)) ∧
    avgLogLik (exTwin "init" exWrong).density exOne < avgLogLik (exTwin "init" 1).density exOne := by
  constructor
  · obtain ⟨C, hC, h1, h2, h3, c1, c2⟩ := exTwin_sort "init" 1
    obtain ⟨t, a1, a2, a3, a4, hs1, hs2, hstep⟩ := exTwin_step C hC
    have hidx : (exTwin "init" 1).indexesOf "q" = [(0, 2), (1, 2)] := rfl
    have hupd : ∃ ll, (exTwin "init" 1).update C [(exTwin "init" 1).work C (exTwin "init" 1).here t] = .ok (exTwin "init" exWrong, ll) := by
      have hd : ((exTwin "init" 1).work C (exTwin "init" 1).here t).den1 "q" = 1 + 2 * (2 * Real.exp (-2)) := by
        simp only [work, hidx, List.map_cons, List.map_nil, List.sum_cons, List.sum_nil, add_zero, c1, c2]
        rw [if_pos hs1, if_pos hs2]
        rw [show at1 t.time 0 = 1 from a1, show at1 t.time 1 = _ from a2, one_mul]
      have hn : ((exTwin "init" 1).work C (exTwin "init" 1).here t).num1 "q" = 1 + 2 * Real.exp (-2) := by
        simp only [work, hidx, List.map_cons, List.map_nil, List.sum_cons, List.sum_nil, add_zero]
        rw [if_pos hs1, if_pos hs2, a3, a4]
      have hv : (exTwin "init" 1).value1 (1 + 2 * (2 * Real.exp (-2))) (1 + 2 * Real.exp (-2)) "q" = exWrong := by
        unfold value1 exWrong
        rw [if_neg (by have := Real.exp_pos (-2); positivity)]
      unfold update
      rw [h1, h2, h3]
      simp only [List.map_cons, List.map_nil, List.mapM_nil, bind, Except.bind, pure, Except.pure, List.append_nil, List.sum_cons,
        List.sum_nil, add_zero, hd, hn, hv]
      obtain ⟨M2, i1, _⟩ := ((exTwin "init" 1).instantiate_spec (exTwin_wf "init" 1).1 ["q"] [exWrong]).1
        (exTwin_estimable "init" 1 one_pos).ratesOK
      obtain ⟨b, hb, hbr⟩ := (exTwin "init" 1).checkRates_eq (exTwin_wf "init" 1).1 ((exTwin "init" 1).newValues ["q"] [exWrong])
      unfold instantiate at i1
      simp only [bind, Except.bind] at i1
      rw [hb] at i1
      cases b with
      | false => exact absurd i1 (by simp [pure, Except.pure])
      | true =>
        unfold instantiate
        simp only [bind, Except.bind]
        rw [hb]
        exact ⟨_, rfl⟩
    obtain ⟨ll, hupd⟩ := hupd
    unfold fit
    rw [prepare_spec (.timed exOne) exOne_ok.1 exOne_ok.2.1, exTwin_inst "init" 1 one_pos lo hi]
    simp only [bind, Except.bind, FixedArg.resolve, hC]
    unfold BW.fit
    rw [loop_succ _ _ _ _ _ _ (hstep.trans hupd), if_neg (by simp)]
    rfl
  · have e1 := exTwin_density "init" 1 (by decide)
    have e4 := exTwin_density "init" exWrong (by decide)
    obtain ⟨hw0, hw1⟩ := exWrong_bounds
    generalize exWrong = r at *
    have p1 : 0 < (exTwin "init" 1).density (timed [("init", 1)] "a") := by rw [e1]; positivity
    have p4 : 0 < (exTwin "init" r).density (timed [("init", 1)] "a") := by rw [e4]; positivity
    unfold avgLogLik
    simp only [exOne, List.zip_cons_cons, List.zip_nil_right, List.filter_cons, List.filter_nil, p1, p4, decide_true, if_true,
      List.map_cons, List.map_nil, List.sum_cons, List.sum_nil, Nat.cast_one, add_zero, div_one, one_mul]
    apply Real.log_lt_log p4
    rw [e1, e4]
    have h2 : Real.exp (-(1 + 1)) = Real.exp (-(1 + r)) * Real.exp (r - 1) := by
      rw [← Real.exp_add]; congr 1; ring
    rw [h2]
    have h3 := Real.add_one_lt_exp (show r - 1 ≠ 0 by linarith)
    have h5 := Real.exp_pos (-(1 + r))
    nlinarith

/-- Non-vacuity of `fit_short_monotone_partial` and `fit_short_total`: the same model, with two different labels. -/
theorem exTwin_short (q : ℝ) : (exTwin "b" q).Short exOne := by
  intro w hw
  have : w = timed [("init", 1)] "a" := by simpa [exOne] using hw
  subst this
  refine ⟨"init", 1, "a", rfl, ?_⟩
  intro i j hi hj
  have hi : i < 3 := hi
  have hj : j < 3 := hj
  interval_cases i <;> interval_cases j <;> simp [exTwin, rateExpr]

example (epsilon : ℝ) (maxIt : ℕ) : ∃ M', (exTwin "b" 3).fit 2 (.timed exOne) (.names []) false epsilon maxIt none none [[]] = .ok (some M') ∧
    avgLogLik (exTwin "b" 3).density exOne ≤ avgLogLik M'.density exOne := by
  obtain ⟨C, hC, _, _, h3, _⟩ := exTwin_sort "b" 3
  have hE := exTwin_estimable "b" 3 (by norm_num)
  obtain ⟨M', h⟩ := fit_short_total 2 (by decide) exOne exOne_ok.1 exOne_ok.2.1 (exTwin "b" 3) [] hE (exTwin_short 3) exOne_ok.2.2 rfl
    (by simp [exOne]) C hC h3 (timed [("init", 1)] "a") (by simp [exOne])
    (by rw [exTwin_density "b" 3 (by decide)]; positivity) epsilon maxIt none none [[]] (by simp)
  exact ⟨M', h, fit_short_monotone_partial 2 exOne exOne_ok.1 exOne_ok.2.1 _ [] hE (exTwin_short 3) exOne_ok.2.2 rfl (by simp [exOne])
    epsilon maxIt none none [[]] M' h⟩

/-- Non-vacuity of `fit_kept`: the counterexample returns. -/
example (epsilon : ℝ) : ∃ M0 : PCTMC ℝ, M0 = { exTwin "init" 1 with values := M0.values } ∧
      (∀ p, (∃ x, (exTwin "init" 1).values.lookup p = some x) → M0.values.lookup p = (exTwin "init" 1).values.lookup p) ∧
      M0.Kept [] false (exTwin "init" exWrong) :=
  fit_kept 2 (.timed exOne) _ (exTwin_wf "init" 1).1 [] false epsilon 1 none none [[]] _ (fit_decreases epsilon none none).1

/-- Non-vacuity of `fit_long_raises`: the trace init, 0, a, 1, b of the example of C72. -/
example (epsilon : ℝ) (maxIt : ℕ) (hmax : 1 ≤ maxIt) (M' : PCTMC ℝ) :
    (exModel ℝ [("x", 1/2), ("y", 3)]).fit 2 (.timed exTimed) (.names []) false epsilon maxIt none none [[]] ≠ .ok (some M') := by
  have hE := exModel_estimable
  obtain ⟨M2, h1, _⟩ := ((exModel ℝ [("x", 1/2), ("y", 3)]).instantiate_spec hE.wf (exModel ℝ [("x", 1/2), ("y", 3)]).defaultParameters []).1 hE.ratesOK
  have h0 : (exModel ℝ [("x", 1/2), ("y", 3)]).randomInstantiation none none none [[]] = .ok (some (exModel ℝ [("x", 1/2), ("y", 3)])) := by
    have : (exModel ℝ [("x", 1/2), ("y", 3)]).randomInstantiation none none none [[]] = .ok (some M2) := by
      unfold randomInstantiation instantiateLoop
      rw [Option.getD_none]
      simp only [List.map_nil, bind, Except.bind]
      rw [h1]
      rfl
    rw [this, randomInstantiation_full hE.full this]
  refine fit_long_raises 2 exTimed rfl _ _ none none [[]] h0 hE.wf hE.full hE.valid [] false (timed [("init", 0), ("a", 1)] "b")
    (by simp [exTimed]) (isTimed_timed _ _) (by rw [timed_length]; decide) exModel_density.ne' (Or.inr ?_) epsilon maxIt hmax M'
  refine ⟨"x", by decide +kernel, by simp, (⟨0, by decide⟩ : Fin 3), (⟨1, by decide⟩ : Fin 3), by decide +kernel, ?_, ("a", 1), ?_, rfl⟩
  · show 0 < (2 : ℝ) * (([("x", 1/2), ("y", 3)] : Valuation ℝ).lookup "x").getD 0
    simp [List.lookup]
  · rw [timedSteps_timed]; simp

end PCTMC
end Jajapy
