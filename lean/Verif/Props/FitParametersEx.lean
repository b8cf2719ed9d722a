import Verif.Props.FitParameters
import Mathlib.Analysis.SpecialFunctions.Log.Basic

/-!
Examples for the estimation of parameters (C72-C75), and the cases in which it does not do what is asked.
-/

set_option linter.unusedSectionVars false

namespace Jajapy

open Spec BW

namespace PCTMC

/-- The recorded transitions, as a finite check. -/
theorem indexes_of_check {M : PCTMC ℝ} (h : ∀ p ∈ M.names, (M.indexesOf p).Nodup ∧
    (∀ q ∈ M.indexesOf p, q.1 < M.matrix.length ∧ q.2 < M.matrix.length) ∧
    ∀ i ∈ List.range M.matrix.length, ∀ j ∈ List.range M.matrix.length, (i, j) ∈ M.indexesOf p ↔ p ∈ (M.rateExpr i j).free) :
    ∀ p ∈ M.names, (M.indexesOf p).Nodup ∧
      ∀ i j, (i, j) ∈ M.indexesOf p ↔ i < M.matrix.length ∧ j < M.matrix.length ∧ (M.rateExpr i j).Occurs p := by
  intro p hp
  obtain ⟨h1, h2, h3⟩ := h p hp
  refine ⟨h1, fun i j => ?_⟩
  constructor
  · intro hm
    obtain ⟨hi, hj⟩ := h2 _ hm
    exact ⟨hi, hj, (Expr.mem_free _ _).1 ((h3 i (List.mem_range.2 hi) j (List.mem_range.2 hj)).1 hm)⟩
  · rintro ⟨hi, hj, ho⟩
    exact (h3 i (List.mem_range.2 hi) j (List.mem_range.2 hj)).2 ((Expr.mem_free _ _).2 ho)

/-- Non-vacuity of the theorems about estimable models. -/
theorem exModel_estimable : (exModel ℝ [("x", 1/2), ("y", 3)]).Estimable [] := by
  have hr : ∀ i j, i < 3 → j < 3 → (exModel ℝ [("x", 1/2), ("y", 3)]).rateExpr i j =
      if i = 0 ∧ j = 1 then .mul (.num 2) (.sym "x") else if i = 1 ∧ j = 0 then .pow (.sym "y") 2
      else if i = 2 ∧ j = 0 then .num 1 else .num 0 := by
    intro i j hi hj
    interval_cases i <;> interval_cases j <;> rfl
  refine ⟨exModel_wf _, exModel_full _ _, by show ["x", "y"].Nodup; decide, ?_, ?_, ?_, ?_⟩
  · intro p hp _
    exact indexes_of_check (by decide +kernel) p hp
  · intro i j hi hj
    rw [hr i j hi hj]
    split_ifs
    · exact .mul _ _ (.const _ (by simp [← Expr.mem_free, Expr.free])) (.sym _) (by simp [← Expr.mem_free, Expr.free])
    · exact .pow _ _ (by decide)
    · exact .const _ (by simp [← Expr.mem_free, Expr.free])
    · exact .const _ (by simp [← Expr.mem_free, Expr.free])
  · intro ρ hρ
    have hx : ρ "x" = 1/2 := hρ "x" _ rfl
    have hy : ρ "y" = 3 := hρ "y" _ rfl
    constructor
    · intro s
      show 0 ≤ ([0, 0, 1] : List ℝ).getD s 0
      have hs : s.1 < 3 := s.2
      generalize s.1 = k at hs
      interval_cases k <;> simp
    · intro s ss
      show 0 ≤ ((exModel ℝ [("x", 1/2), ("y", 3)]).rateExpr s ss).den ρ
      rw [hr s ss s.2 ss.2]
      split_ifs <;> simp [Expr.den, hx, hy]
  · intro p hp _ x hx
    have hp' : p = "x" ∨ p = "y" := by simpa [exModel] using hp
    rcases hp' with rfl | rfl
    · have hx' : some (1/2 : ℝ) = some x := hx
      injection hx' with hx'
      rw [← hx']; norm_num
    · have hx' : some (3 : ℝ) = some x := hx
      injection hx' with hx'
      rw [← hx']; norm_num

/-- The sorted parameters of the example: 2x is of the first category, y² of the second one. -/
theorem exModel_sort : ∃ C, (exModel ℝ [("x", 1/2), ("y", 3)]).sortParameters [] = .ok C ∧ C.cat1 = ["x"] ∧ C.cat2 = ["y"] ∧ C.cat3 = [] := by
  have h : (match (exModel ℝ [("x", 1/2), ("y", 3)]).sortParameters [] with
    | .ok C => decide (C.cat1 = ["x"] ∧ C.cat2 = ["y"] ∧ C.cat3 = []) | .error _ => false) = true := by decide +kernel
  cases hs : (exModel ℝ [("x", 1/2), ("y", 3)]).sortParameters [] with
  | error e => rw [hs] at h; cases h
  | ok C => rw [hs] at h; exact ⟨C, rfl, by simpa using h⟩

/-- The traces of the examples. -/
noncomputable def exTimed : TSet (Sym String) := ⟨[timed [("init", 0), ("a", 1)] "b"], [2], false, some 4⟩

theorem exTimed_ok : CTMC.TimedSet exTimed ∧ WaitsNonneg exTimed := by
  constructor
  · intro w hw
    have : w = timed [("init", 0), ("a", 1)] "b" := by simpa [exTimed] using hw
    subst this
    exact ⟨isTimed_timed _ _, by rw [timed_length]; decide⟩
  · intro w hw
    have : w = timed [("init", 0), ("a", 1)] "b" := by simpa [exTimed] using hw
    subst this
    rw [timedSteps_timed]
    simp

theorem exTimed_shows (a : String) (ha : a ∈ ["a", "b", "init"]) : Shows (.timed exTimed) a := by
  refine ⟨timed [("init", 0), ("a", 1)] "b", by simp [exTimed], ?_⟩
  simp only [List.mem_cons, List.not_mem_nil, or_false] at ha
  rcases ha with rfl | rfl | rfl
  · exact ⟨1, rfl⟩
  · exact ⟨2, rfl⟩
  · exact ⟨0, rfl⟩

theorem exModel_reduce (v : Valuation ℝ) : (exModel ℝ v).reduceForTraces ["init", "a", "b"] = exModel ℝ v := by
  unfold reduceForTraces removeUnseen
  simp [removeLoop, dropUnused, exModel, uses]

/-- Non-vacuity of `fitParameters_frame` and `fitParameters_monotone_partial`: on the example, with any budget, the estimation
of both parameters (or of x) ends. -/
theorem exModel_fit (epsilon : ℝ) (maxIt : ℕ) : ∃ d M', (exModel ℝ [("x", 1/2), ("y", 3)]).fitParameters 2 (.timed exTimed) ["x", "y"]
    epsilon maxIt none none [] = .ok (some (d, M')) := by
  have hf : (exModel ℝ [("x", 1/2), ("y", 3)]).names.filter (fun p => p ∉ ["x", "y"]) = [] := by decide +kernel
  obtain ⟨C, hC, _, _, h3⟩ := exModel_sort
  have hden := exModel_density
  obtain ⟨d, M', h⟩ := estimate_total 2 (by decide) exTimed (exModel ℝ [("x", 1/2), ("y", 3)]) ["x", "y"]
    (by rw [hf]; exact exModel_estimable) epsilon maxIt C (by rw [hf]; exact hC) h3 exTimed_ok.1 exTimed_ok.2 rfl
    (by simp [exTimed]) (timed [("init", 0), ("a", 1)] "b") (by simp [exTimed]) hden.ne'
  refine ⟨d, M', fitParameters_ok (A := ["init", "a", "b"]) (by decide +kernel) ?_
    (prepare_spec _ rfl (exTimed_shows _ (by decide))) ?_ h⟩
  · have : exTimed.getAlphabet = .ok [.obs "init", .obs "a", .obs "b"] := by
      unfold TSet.getAlphabet
      rw [if_neg (by simp [exTimed]), if_pos (show exTimed.type = some 4 from rfl)]
      simp [exTimed, TSet.addNew, TSet.evens, timed]
    unfold labelsOf
    dsimp only
    rw [this]
    rfl
  · rw [exModel_reduce]
    rfl

/-- init -> a with rate p, and a loop of rate 1 in each state. -/
noncomputable def exLoops (p : ℝ) : PCTMC ℝ where
  matrix := [[1, 2], [0, 1]]
  labelling := ["init", "a"]
  exprs := [.num 0, .num 1, .sym "p"]
  values := [("p", p)]
  indexes := [[(0, 1)]]
  names := ["p"]
  initialState := [1, 0]
  sync := []

theorem exLoops_estimable : (exLoops 1).Estimable [] := by
  have hr : ∀ i j, i < 2 → j < 2 → (exLoops 1).rateExpr i j =
      if i = 0 ∧ j = 1 then .sym "p" else if i = 1 ∧ j = 0 then .num 0 else .num 1 := by
    intro i j hi hj
    interval_cases i <;> interval_cases j <;> rfl
  refine ⟨⟨?_, rfl, rfl, ?_, ?_⟩, ?_, by show ["p"].Nodup; decide, ?_, ?_, ?_, ?_⟩
  · show ∀ row ∈ [[1, 2], [0, 1]], row.length = 2
    decide
  · show ∀ row ∈ [[1, 2], [0, 1]], ∀ t ∈ row, t < 3
    decide
  · intro x hx q hq
    rw [← Expr.mem_free] at hq
    simp only [exLoops, List.mem_cons, List.not_mem_nil, or_false] at hx
    rcases hx with rfl | rfl | rfl <;> simp_all [Expr.free, exLoops]
  · intro q hq
    simp only [exLoops, List.mem_singleton] at hq
    subst hq
    exact ⟨1, by simp [exLoops]⟩
  · intro p hp _
    exact indexes_of_check (by decide +kernel) p hp
  · intro i j hi hj
    rw [hr i j hi hj]
    split_ifs
    · exact .sym _
    · exact .const _ (by simp [← Expr.mem_free, Expr.free])
    · exact .const _ (by simp [← Expr.mem_free, Expr.free])
  · intro ρ hρ
    have hx : ρ "p" = 1 := hρ "p" _ rfl
    constructor
    · intro s
      show 0 ≤ ([1, 0] : List ℝ).getD s 0
      have hs : s.1 < 2 := s.2
      generalize s.1 = k at hs
      interval_cases k <;> simp
    · intro s ss
      show 0 ≤ ((exLoops 1).rateExpr s ss).den ρ
      rw [hr s ss s.2 ss.2]
      split_ifs <;> simp [Expr.den, hx]
  · intro p hp _ x hx
    have hp' : p = "p" := by simpa [exLoops] using hp
    subst hp'
    have hx' : some (1 : ℝ) = some x := hx
    injection hx' with hx'
    rw [← hx']; norm_num

theorem exLoops_sort : ∃ C, (exLoops 1).sortParameters [] = .ok C ∧ C.cat1 = ["p"] ∧ C.cat2 = [] ∧ C.cat3 = [] :=
  ⟨_, rfl, by decide +kernel, by decide +kernel, by decide +kernel⟩

noncomputable def exUntimed : TSet String := ⟨[["init", "a", "a"]], [3], false, some 0⟩

theorem exLoops_lik : (exLoops 1).lik ["init", "a", "a"] ≠ 0 := by
  have key : ∀ H : CTMC ℝ String 2, H.labelling 0 = "init" → H.labelling 1 = "a" → H.initialState 0 = 1 → H.initialState 1 = 0 →
      H.matrix 0 0 = 1 → H.matrix 0 1 = 1 → H.matrix 1 0 = 0 → H.matrix 1 1 = 1 → H.embedded.lik ["init", "a", "a"] ≠ 0 := by
    intro H l0 l1 i0 i1 m00 m01 m10 m11
    have n00 : H.embedded.matrix 0 0 = 1/2 := by
      show H.matrix 0 0 / ∑ j, H.matrix 0 j = _
      rw [Fin.sum_univ_two, m00, m01]; norm_num
    have n01 : H.embedded.matrix 0 1 = 1/2 := by
      show H.matrix 0 1 / ∑ j, H.matrix 0 j = _
      rw [Fin.sum_univ_two, m00, m01]; norm_num
    have n10 : H.embedded.matrix 1 0 = 0 := by
      show H.matrix 1 0 / ∑ j, H.matrix 1 j = _
      rw [Fin.sum_univ_two, m10, m11]; norm_num
    have n11 : H.embedded.matrix 1 1 = 1 := by
      show H.matrix 1 1 / ∑ j, H.matrix 1 j = _
      rw [Fin.sum_univ_two, m10, m11]; norm_num
    have hs : ∀ s, ∑ j, H.embedded.matrix s j = 1 := by
      intro s
      rw [Fin.sum_univ_two]
      fin_cases s
      · show H.embedded.matrix 0 0 + H.embedded.matrix 0 1 = 1
        rw [n00, n01]; norm_num
      · show H.embedded.matrix 1 0 + H.embedded.matrix 1 1 = 1
        rw [n10, n11]; norm_num
    have k0 : H.embedded.labelling 0 = "init" := l0
    have k1 : H.embedded.labelling 1 = "a" := l1
    have j0 : H.embedded.initialState 0 = 1 := i0
    have j1 : H.embedded.initialState 1 = 0 := i1
    rw [H.embedded.lik_eq hs _ (by simp), totalWeight_eq]
    simp only [beta0, betas, bwd, List.headD, Fin.sum_univ_two, MC.step]
    simp [k0, k1, j0, j1, n00, n01, n10, n11]
  exact key (exLoops 1).here rfl rfl rfl rfl rfl rfl rfl rfl

theorem exLoops_const : ∀ s < (exLoops 1).matrix.length, ∃ j < (exLoops 1).matrix.length,
    0 < ((exLoops 1).rateExpr s j).den (fun p => ((exLoops 1).values.lookup p).getD 0) ∧
    ∀ p ∈ ["p"], ¬ ((exLoops 1).rateExpr s j).Occurs p := by
  intro s hs
  have hs' : s < 2 := hs
  refine ⟨s, hs, ?_⟩
  have : (exLoops 1).rateExpr s s = .num 1 := by
    interval_cases s <;> rfl
  rw [this]
  exact ⟨one_pos, by simp [← Expr.mem_free, Expr.free]⟩

/-- Non-vacuity of `fitParameters_untimed_monotone_partial`. -/
theorem exLoops_fit (epsilon : ℝ) (maxIt : ℕ) : ∃ d M', (exLoops 1).fitParameters 2 (.untimed exUntimed) ["p"] epsilon maxIt
    none none [] = .ok (some (d, M')) := by
  have hf : (exLoops 1).names.filter (fun p => p ∉ ["p"]) = [] := by decide +kernel
  obtain ⟨C, hC, _, _, h3⟩ := exLoops_sort
  obtain ⟨d, M', h⟩ := estimate_untimed_total 2 (by decide) exUntimed (exLoops 1) ["p"]
    (by rw [hf]; exact exLoops_estimable) epsilon maxIt (by simp [exLoops]) C (by rw [hf]; exact hC) h3 (by simp [exUntimed]) rfl
    (by simp [exUntimed]) exLoops_const _ (by simp [exUntimed]) exLoops_lik
  refine ⟨d, M', fitParameters_ok (A := ["init", "a"]) (by decide +kernel) ?_
    (prepare_spec _ rfl ⟨["init", "a", "a"], by simp [exUntimed], by simp⟩) ?_ h⟩
  · show exUntimed.getAlphabet = _
    unfold TSet.getAlphabet
    rw [if_neg (by simp [exUntimed]), if_neg (by simp [exUntimed]), if_pos (show exUntimed.type = some 0 from rfl)]
    simp [exUntimed, TSet.addNew]
  · have : (exLoops 1).reduceForTraces ["init", "a"] = exLoops 1 := by
      unfold reduceForTraces removeUnseen
      simp [removeLoop, dropUnused, exLoops, uses]
    rw [this]
    rfl

/-! ### C72, disagreement: a rate that is a sum -/

theorem step_single {M : PCTMC ℝ} (hM : M.WF) (hF : M.Full) (C : Cats ℝ) (w : List (Sym String)) (hw : IsTimed w)
    (hl : 2 ≤ w.length) (hd : M.here.density w ≠ 0) (b : Bool) (ty : Option ℕ) :
    estimateStep 2 C (.timed ⟨[w], [1], b, ty⟩) M = M.update C [M.work C M.here (tbCT M.here (w, 1))] := by
  unfold estimateStep
  rw [hypothesis_full hM hF]
  simp only [bind, Except.bind]
  rw [tables_timed]
  swap
  · intro x hx
    have : x = w := by simpa using hx
    rw [this]
    exact ⟨hw, hl⟩
  simp only [List.zip_cons_cons, List.zip_nil_right, List.map_cons, List.map_nil, if_neg hd, collect]
  rfl

theorem line_two (H : CTMC ℝ String 2) (r t : ℝ) (hr : 0 < r) (l0 : H.labelling 0 = "init") (l1 : H.labelling 1 = "a")
    (i0 : H.initialState 0 = 1) (i1 : H.initialState 1 = 0) (m00 : H.matrix 0 0 = 0) (m01 : H.matrix 0 1 = r) :
    H.density (timed [("init", t)] "a") = r * Real.exp (-r * t) ∧
    at1 (tbCT H (timed [("init", t)] "a", 1)).time 0 = t ∧ at2 (tbCT H (timed [("init", t)] "a", 1)).uses 0 1 = 1 ∧
    (tbCT H (timed [("init", t)] "a", 1)).seenAt 0 1 := by
  have hd : H.density (timed [("init", t)] "a") = r * Real.exp (-r * t) := by
    unfold CTMC.density
    rw [totalWeight_eq, timedSteps_timed]
    simp only [beta0, betas, bwd, List.headD, Fin.sum_univ_two, CTMC.rateStep, CTMC.lastMask, observations_timed]
    simp [l0, l1, i0, i1, m00, m01]
  have he : r * Real.exp (-r * t) ≠ 0 := mul_ne_zero hr.ne' (Real.exp_pos _).ne'
  refine ⟨hd, (at1_fin _ 0).trans ?_, (at2_fin _ 0 1).trans ?_, by decide, by decide, ?_⟩
  · simp only [tbCT, wkCT, hd, timedSteps_timed, vis_cons, vis_nil, beta0_cons, beta0_nil, bwd, Fin.sum_univ_two, CTMC.rateStep,
      CTMC.lastMask, observations_timed]
    simp [l0, l1, i0, m00, m01]
    field_simp
  · rw [tbCT_uses]
    simp only [hd, timedSteps_timed, use_cons, use_nil, beta0_nil, CTMC.rateStep,
      CTMC.lastMask, observations_timed, Fin.sum_univ_two]
    simp [l0, l1, i0, m00, m01]
    field_simp
  · have : H.rateStep 0 1 ("init", t) = r * Real.exp (-r * t) := by
      simp [CTMC.rateStep, Fin.sum_univ_two, l0, m00, m01]
    show 0 < ((timedSteps (timed [("init", t)] "a")).map (H.rateStep 0 1)).sum
    rw [timedSteps_timed]
    simp only [List.map_cons, List.map_nil, List.sum_cons, List.sum_nil, this, add_zero]
    exact mul_pos hr (Real.exp_pos _)

/-- init -> a with rate p + 3. -/
noncomputable def exShift (p : ℝ) : PCTMC ℝ where
  matrix := [[0, 1], [0, 0]]
  labelling := ["init", "a"]
  exprs := [.num 0, .add (.sym "p") (.num 3)]
  values := [("p", p)]
  indexes := [[(0, 1)]]
  names := ["p"]
  initialState := [1, 0]
  sync := []

theorem exShift_wf (p : ℝ) : (exShift p).WF ∧ (exShift p).Full := by
  refine ⟨⟨?_, rfl, rfl, ?_, ?_⟩, ?_⟩
  · show ∀ row ∈ [[0, 1], [0, 0]], row.length = 2
    decide
  · show ∀ row ∈ [[0, 1], [0, 0]], ∀ t ∈ row, t < 2
    decide
  · intro x hx q hq
    rw [← Expr.mem_free] at hq
    simp only [exShift, List.mem_cons, List.not_mem_nil, or_false] at hx
    rcases hx with rfl | rfl <;> simp_all [Expr.free, exShift]
  · intro q hq
    simp only [exShift, List.mem_singleton] at hq
    subst hq
    exact ⟨p, by simp [exShift]⟩

theorem exShift_tables (p t : ℝ) (hp : 0 < p + 3) :
    (exShift p).here.density (timed [("init", t)] "a") = (p + 3) * Real.exp (-(p + 3) * t) ∧
    at1 (tbCT (exShift p).here (timed [("init", t)] "a", 1)).time 0 = t ∧
    at2 (tbCT (exShift p).here (timed [("init", t)] "a", 1)).uses 0 1 = 1 ∧
    (tbCT (exShift p).here (timed [("init", t)] "a", 1)).seenAt 0 1 :=
  line_two (exShift p).here (p + 3) t hp rfl rfl rfl rfl rfl rfl

noncomputable def exQuarter : TSet (Sym String) := ⟨[timed [("init", 1/4)] "a"], [1], false, some 4⟩

theorem exShift_sort : ∃ C, (exShift 1).sortParameters [] = .ok C ∧ C.cat1 = ["p"] ∧ C.cat2 = [] ∧ C.cat3 = [] ∧ C.coeff 0 1 = 1 := by
  refine ⟨_, rfl, by decide +kernel, by decide +kernel, by decide +kernel, ?_⟩
  simp

/-- C72 fails for a rate that is a sum: the rate of the transition is p + 3 and the state is left after 1/4; the best value
is p = 1 (rate 4), and it is the current one, but one iteration assigns 4 to p (rate 7), and the log-density of the training set
decreases. -/
theorem estimate_sum_decreases (epsilon : ℝ) :
    (exShift 1).estimate 2 (.timed exQuarter) ["p"] epsilon 1 = .ok ([("p", some 4)], exShift 4) ∧
    avgLogLik (exShift 4).density exQuarter < avgLogLik (exShift 1).density exQuarter := by
  constructor
  · obtain ⟨C, hC, h1, h2, h3, hc⟩ := exShift_sort
    obtain ⟨t1, t2, t3, t4⟩ := exShift_tables 1 (1/4) (by norm_num)
    have hfix : (exShift 1).names.filter (fun p => p ∉ ["p"]) = [] := by decide +kernel
    have hidx : (exShift 1).indexesOf "p" = [(0, 1)] := by decide +kernel
    have hstep := step_single (exShift_wf 1).1 (exShift_wf 1).2 C (timed [("init", 1/4)] "a") (isTimed_timed _ _)
      (by rw [timed_length]; decide) (by rw [t1]; positivity) false (some 4)
    have hupd : ∃ ll, (exShift 1).update C [(exShift 1).work C (exShift 1).here (tbCT (exShift 1).here (timed [("init", 1/4)] "a", 1))]
        = .ok (exShift 4, ll) := by
      unfold update
      rw [h1, h2, h3]
      have hv : (exShift 1).value1 (List.map (fun w => Work.den1 w "p") [(exShift 1).work C (exShift 1).here (tbCT (exShift 1).here (timed [("init", 1/4)] "a", 1))]).sum
          (List.map (fun w => Work.num1 w "p") [(exShift 1).work C (exShift 1).here (tbCT (exShift 1).here (timed [("init", 1/4)] "a", 1))]).sum "p" = 4 := by
        simp only [work, List.map_cons, List.map_nil, List.sum_cons, List.sum_nil, add_zero, hidx, if_pos t4, t2, t3, hc]
        unfold value1
        norm_num
      simp only [List.map_cons, List.map_nil, List.mapM_nil, bind, Except.bind, pure, Except.pure, List.append_nil]
      simp only [List.map_cons, List.map_nil] at hv
      rw [hv]
      obtain ⟨b, hb, hbr⟩ := (exShift 1).checkRates_eq (exShift_wf 1).1 ((exShift 1).newValues ["p"] [4])
      have hb1 : b = true := hbr.2 (by
        intro i j hi hj h0 _ ρ hρ
        have hp : ρ "p" = 1 := hρ "p" 1 rfl
        have hi' : i < 2 := hi
        have hj' : j < 2 := hj
        interval_cases i <;> interval_cases j
        · exact absurd rfl h0
        · show 0 ≤ ρ "p" + 3
          rw [hp]; norm_num
        · exact absurd rfl h0
        · exact absurd rfl h0)
      unfold instantiate
      simp only [bind, Except.bind]
      rw [hb, hb1]
      exact ⟨_, rfl⟩
    obtain ⟨ll, hupd⟩ := hupd
    unfold estimate
    rw [hfix, hC]
    simp only [bind, Except.bind]
    unfold BW.fit
    rw [loop_succ _ _ _ _ _ _ (hstep.trans hupd), if_neg (by simp)]
    rfl
  · have e1 := (exShift_tables 1 (1/4) (by norm_num)).1
    have e4 := (exShift_tables 4 (1/4) (by norm_num)).1
    have e1' : (exShift 1).density (timed [("init", 1/4)] "a") = (1 + 3) * Real.exp (-(1 + 3) * (1/4)) := e1
    have e4' : (exShift 4).density (timed [("init", 1/4)] "a") = (4 + 3) * Real.exp (-(4 + 3) * (1/4)) := e4
    unfold avgLogLik
    have p1 : 0 < (exShift 1).density (timed [("init", 1/4)] "a") := by rw [e1']; positivity
    have p4 : 0 < (exShift 4).density (timed [("init", 1/4)] "a") := by rw [e4']; positivity
    simp only [exQuarter, List.zip_cons_cons, List.zip_nil_right, List.filter_cons, List.filter_nil, p1, p4, decide_true, if_true,
      List.map_cons, List.map_nil, List.sum_cons, List.sum_nil, Nat.cast_one, add_zero, div_one, one_mul]
    apply Real.log_lt_log p4
    rw [e1', e4']
    have h2 : Real.exp (-(1 + 3) * (1/4)) = Real.exp (-(4 + 3) * (1/4)) * Real.exp (3/4) := by
      rw [← Real.exp_add]; norm_num
    rw [h2]
    have h3 : (7:ℝ)/4 < Real.exp (3/4) := by
      have := Real.add_one_lt_exp (show (3/4:ℝ) ≠ 0 by norm_num)
      linarith
    have h5 := Real.exp_pos (-(4 + 3) * (1/4))
    nlinarith

/-- C75 fails: `fit_nonInstantiatedParameters` changes the value of a parameter that has one. -/
theorem fitNonInstantiated_changes (epsilon : ℝ) :
    (exShift 1).Full ∧ (exShift 1).fitNonInstantiated 2 (.timed exQuarter) epsilon 1 none none [] =
      .ok (some ([("p", some 4)], exShift 4)) := by
  refine ⟨(exShift_wf 1).2, ?_⟩
  unfold fitNonInstantiated
  refine fitParameters_ok (A := ["init", "a"]) (M1 := exShift 1) (fun p hp => hp) ?_
    (prepare_spec _ rfl ⟨timed [("init", 1/4)] "a", by simp [exQuarter], 0, rfl⟩) ?_ (estimate_sum_decreases epsilon).1
  · have : exQuarter.getAlphabet = .ok [.obs "init", .obs "a"] := by
      unfold TSet.getAlphabet
      rw [if_neg (by simp [exQuarter]), if_pos (show exQuarter.type = some 4 from rfl)]
      simp [exQuarter, TSet.addNew, TSet.evens, timed]
    unfold labelsOf
    dsimp only
    rw [this]
    rfl
  · have : (exShift 1).reduceForTraces ["init", "a"] = exShift 1 := by
      unfold reduceForTraces removeUnseen
      simp [removeLoop, dropUnused, exShift, uses]
    rw [this]
    rfl

/-! ### C72, disagreement: the greatest root is not a real number -/

theorem line_three (H : CTMC ℝ String 3) (r r' t t' : ℝ) (hr : 0 < r) (hr' : 0 < r') (l0 : H.labelling 0 = "init")
    (l1 : H.labelling 1 = "a") (l2 : H.labelling 2 = "b") (i0 : H.initialState 0 = 1) (i1 : H.initialState 1 = 0)
    (i2 : H.initialState 2 = 0) (m00 : H.matrix 0 0 = 0) (m01 : H.matrix 0 1 = r) (m02 : H.matrix 0 2 = 0)
    (m10 : H.matrix 1 0 = 0) (m11 : H.matrix 1 1 = 0) (m12 : H.matrix 1 2 = r') :
    H.density (timed [("init", t), ("a", t')] "b") = r * Real.exp (-r * t) * (r' * Real.exp (-r' * t')) ∧
    at1 (tbCT H (timed [("init", t), ("a", t')] "b", 1)).time 0 = t ∧ at1 (tbCT H (timed [("init", t), ("a", t')] "b", 1)).time 1 = t' ∧
    at2 (tbCT H (timed [("init", t), ("a", t')] "b", 1)).uses 0 1 = 1 ∧ at2 (tbCT H (timed [("init", t), ("a", t')] "b", 1)).uses 1 2 = 1 := by
  have hd : H.density (timed [("init", t), ("a", t')] "b") = r * Real.exp (-r * t) * (r' * Real.exp (-r' * t')) := by
    unfold CTMC.density
    rw [totalWeight_eq, timedSteps_timed]
    simp only [beta0, betas, bwd, List.headD, Fin.sum_univ_three, CTMC.rateStep, CTMC.lastMask, observations_timed]
    simp [l0, l1, l2, i0, i1, i2, m00, m01, m02, m10, m11, m12]
    ring
  have e1 := (Real.exp_pos (-r * t)).ne'
  have e2 := (Real.exp_pos (-r' * t')).ne'
  refine ⟨hd, (at1_fin _ 0).trans ?_, (at1_fin _ 1).trans ?_, (at2_fin _ 0 1).trans ?_, (at2_fin _ 1 2).trans ?_⟩
  · simp only [tbCT, wkCT, hd, timedSteps_timed, vis_cons, vis_nil, beta0_cons, beta0_nil, bwd, fwd, Fin.sum_univ_three, CTMC.rateStep,
      CTMC.lastMask, observations_timed]
    simp [l0, l1, l2, i0, i1, i2, m00, m01, m02, m10, m11, m12]
    field_simp
  · simp only [tbCT, wkCT, hd, timedSteps_timed, vis_cons, vis_nil, beta0_cons, beta0_nil, bwd, fwd, Fin.sum_univ_three, CTMC.rateStep,
      CTMC.lastMask, observations_timed]
    simp [l0, l1, l2, i0, i1, i2, m00, m01, m02, m10, m11, m12]
    field_simp
  · rw [tbCT_uses]
    simp only [hd, timedSteps_timed, use_cons, use_nil, beta0_cons, beta0_nil, bwd, fwd, CTMC.rateStep,
      CTMC.lastMask, observations_timed, Fin.sum_univ_three]
    simp [l0, l1, l2, i0, i1, i2, m00, m01, m02, m10, m11, m12]
    field_simp
  · rw [tbCT_uses]
    simp only [hd, timedSteps_timed, use_cons, use_nil, beta0_cons, beta0_nil, bwd, fwd, CTMC.rateStep,
      CTMC.lastMask, observations_timed, Fin.sum_univ_three]
    simp [l0, l1, l2, i0, i1, i2, m00, m01, m02, m10, m11, m12]
    field_simp

/-- init -> a with rate p, a -> b with rate p⁴. -/
noncomputable def exQuartic (p : ℝ) : PCTMC ℝ where
  matrix := [[0, 1, 0], [0, 0, 2], [0, 0, 0]]
  labelling := ["init", "a", "b"]
  exprs := [.num 0, .sym "p", .pow (.sym "p") 4]
  values := [("p", p)]
  indexes := [[(0, 1), (1, 2)]]
  names := ["p"]
  initialState := [1, 0, 0]
  sync := []

theorem exQuartic_wf (p : ℝ) : (exQuartic p).WF ∧ (exQuartic p).Full := by
  refine ⟨⟨?_, rfl, rfl, ?_, ?_⟩, ?_⟩
  · show ∀ row ∈ [[0, 1, 0], [0, 0, 2], [0, 0, 0]], row.length = 3
    decide
  · show ∀ row ∈ [[0, 1, 0], [0, 0, 2], [0, 0, 0]], ∀ t ∈ row, t < 3
    decide
  · intro x hx q hq
    rw [← Expr.mem_free] at hq
    simp only [exQuartic, List.mem_cons, List.not_mem_nil, or_false] at hx
    rcases hx with rfl | rfl | rfl <;> simp_all [Expr.free, exQuartic]
  · intro q hq
    simp only [exQuartic, List.mem_singleton] at hq
    subst hq
    exact ⟨p, by simp [exQuartic]⟩

theorem exQuartic_estimable : (exQuartic 1).Estimable [] := by
  have hr : ∀ i j, i < 3 → j < 3 → (exQuartic 1).rateExpr i j =
      if i = 0 ∧ j = 1 then .sym "p" else if i = 1 ∧ j = 2 then .pow (.sym "p") 4 else .num 0 := by
    intro i j hi hj
    interval_cases i <;> interval_cases j <;> rfl
  refine ⟨(exQuartic_wf 1).1, (exQuartic_wf 1).2, by show ["p"].Nodup; decide, ?_, ?_, ?_, ?_⟩
  · intro p hp _
    exact indexes_of_check (by decide +kernel) p hp
  · intro i j hi hj
    rw [hr i j hi hj]
    split_ifs
    · exact .sym _
    · exact .pow _ _ (by decide)
    · exact .const _ (by simp [← Expr.mem_free, Expr.free])
  · intro ρ hρ
    have hx : ρ "p" = 1 := hρ "p" _ rfl
    constructor
    · intro s
      show 0 ≤ ([1, 0, 0] : List ℝ).getD s 0
      have hs : s.1 < 3 := s.2
      generalize s.1 = k at hs
      interval_cases k <;> simp
    · intro s ss
      show 0 ≤ ((exQuartic 1).rateExpr s ss).den ρ
      rw [hr s ss s.2 ss.2]
      split_ifs <;> simp [Expr.den, hx]
  · intro p hp _ x hx
    have hp' : p = "p" := by simpa [exQuartic] using hp
    subst hp'
    have hx' : some (1 : ℝ) = some x := hx
    injection hx' with hx'
    rw [← hx']; norm_num

theorem exQuartic_sort : ∃ C, (exQuartic 1).sortParameters [] = .ok C ∧ C.cat1 = [] ∧ C.cat2 = [] ∧ C.cat3 = ["p"] ∧
    C.power 0 1 "p" = 1 ∧ C.power 1 2 "p" = 4 ∧ C.total 0 1 = 1 ∧ C.total 1 2 = 4 := by
  refine ⟨_, rfl, by decide +kernel, by decide +kernel, by decide +kernel, by decide +kernel, by decide +kernel, by decide +kernel, by decide +kernel⟩

open Polynomial in
/-- The greatest root of x⁴ + 12x - 5, in the order that numpy uses, is 1 + 2i. -/
theorem maxRoot_quartic (P : ℝ[X]) (hP : P = X ^ 4 + 12 * X - 5) : maxRoot P = .error .typeError := by
  have hne : P.map Complex.ofRealHom ≠ 0 := by
    rw [hP]
    intro h
    have := congrArg (fun Q => Q.coeff 4) h
    simp [coeff_X, coeff_ofNat_mul] at this
  have hroot : ∀ z : ℂ, z ∈ (P.map Complex.ofRealHom).roots ↔ (z ^ 2 - 2 * z + 5) * (z ^ 2 + 2 * z - 1) = 0 := by
    intro z
    have e : (P.map Complex.ofRealHom).eval z = (z ^ 2 - 2 * z + 5) * (z ^ 2 + 2 * z - 1) := by
      rw [hP]
      simp
      ring
    rw [mem_roots hne, IsRoot.def, e]
  have hz : (⟨1, 2⟩ : ℂ) ∈ (P.map Complex.ofRealHom).roots := by
    rw [hroot]
    have : (⟨1, 2⟩ : ℂ) ^ 2 - 2 * ⟨1, 2⟩ + 5 = 0 := by
      rw [Complex.ext_iff]
      simp [pow_two]
      norm_num
    rw [this, zero_mul]
  have hmax : ∀ w ∈ (P.map Complex.ofRealHom).roots, lexLE w ⟨1, 2⟩ := by
    intro w hw
    rw [hroot, mul_eq_zero] at hw
    rcases hw with h | h
    · right
      have hre := congrArg Complex.re h
      have him := congrArg Complex.im h
      simp [pow_two] at hre him
      have h1 : w.re = 1 := by
        by_contra hc
        have h2 : w.im = 0 := by
          have : (w.re - 1) * w.im = 0 := by linarith
          rcases mul_eq_zero.1 this with h | h
          · exact absurd (by linarith) hc
          · exact h
        rw [h2] at hre
        nlinarith [sq_nonneg (w.re - 1)]
      refine ⟨h1, ?_⟩
      rw [h1] at hre
      show w.im ≤ 2
      nlinarith
    · left
      have hre := congrArg Complex.re h
      have him := congrArg Complex.im h
      simp [pow_two] at hre him
      show w.re < 1
      have : (w.re + 1) * w.im = 0 := by linarith
      rcases mul_eq_zero.1 this with h | h
      · linarith
      · rw [h] at hre
        nlinarith
  have hex : ∃ z ∈ (P.map Complex.ofRealHom).roots, ∀ w ∈ (P.map Complex.ofRealHom).roots, lexLE w z := ⟨_, hz, hmax⟩
  unfold maxRoot
  rw [dif_pos hex, if_neg]
  have h1 := hex.choose_spec.2 _ hz
  have h2 := hmax _ hex.choose_spec.1
  generalize hex.choose = z at h1 h2
  intro h0
  unfold lexLE at h1 h2
  rw [h0] at h1 h2
  simp only at h1 h2
  rcases h1 with h1 | ⟨h1, h1'⟩
  · rcases h2 with h2 | ⟨h2, _⟩ <;> linarith
  · linarith

noncomputable def exLong : TSet (Sym String) := ⟨[timed [("init", 12), ("a", 1/4)] "b"], [1], false, some 4⟩

/-- C72, disagreement: the rates are monomials (p and p⁴), p = 1, and the trace has a positive density, but the estimation
raises TypeError: the greatest root of the equation for p, in the order that numpy uses, is not a real number. -/
theorem estimate_quartic_fails (epsilon : ℝ) (k : ℕ) :
    (exQuartic 1).Estimable [] ∧ 0 < (exQuartic 1).density (timed [("init", 12), ("a", 1/4)] "b") ∧
    (exQuartic 1).estimate 2 (.timed exLong) ["p"] epsilon (k + 1) = .error .typeError := by
  obtain ⟨C, hC, h1, h2, h3, p1, p2, q1, q2⟩ := exQuartic_sort
  obtain ⟨t1, t2, t3, t4, t5⟩ : (exQuartic 1).here.density (timed [("init", 12), ("a", 1/4)] "b")
      = 1 * Real.exp (-1 * 12) * (1 * Real.exp (-1 * (1/4))) ∧
      at1 (tbCT (exQuartic 1).here (timed [("init", 12), ("a", 1/4)] "b", 1)).time 0 = 12 ∧
      at1 (tbCT (exQuartic 1).here (timed [("init", 12), ("a", 1/4)] "b", 1)).time 1 = 1/4 ∧
      at2 (tbCT (exQuartic 1).here (timed [("init", 12), ("a", 1/4)] "b", 1)).uses 0 1 = 1 ∧
      at2 (tbCT (exQuartic 1).here (timed [("init", 12), ("a", 1/4)] "b", 1)).uses 1 2 = 1 :=
    line_three (exQuartic 1).here 1 1 12 (1/4) one_pos one_pos rfl rfl rfl rfl rfl rfl rfl rfl rfl rfl rfl
      (one_pow 4)
  have hm1 : at2 (exQuartic 1).here.matrix 0 1 = 1 := at2_fin (n := 3) _ 0 1
  have hm2 : at2 (exQuartic 1).here.matrix 1 2 = 1 := (at2_fin (n := 3) (exQuartic 1).here.matrix 1 2).trans (one_pow 4)
  have hcur : (exQuartic 1).current "p" = 1 := rfl
  have hfix : (exQuartic 1).names.filter (fun p => p ∉ ["p"]) = [] := by decide +kernel
  have hidx : (exQuartic 1).indexesOf "p" = [(0, 1), (1, 2)] := by decide +kernel
  refine ⟨exQuartic_estimable, by show 0 < (exQuartic 1).here.density _; rw [t1]; positivity, ?_⟩
  have hstep := step_single (exQuartic_wf 1).1 (exQuartic_wf 1).2 C (timed [("init", 12), ("a", 1/4)] "b") (isTimed_timed _ _)
    (by rw [timed_length]; decide) (by rw [t1]; positivity) false (some 4)
  have hupd : (exQuartic 1).update C [(exQuartic 1).work C (exQuartic 1).here (tbCT (exQuartic 1).here
      (timed [("init", 12), ("a", 1/4)] "b", 1))] = .error .typeError := by
    unfold update
    rw [h1, h2, h3]
    have hv : (exQuartic 1).value3 (List.map (fun w => Work.terms w "p") [(exQuartic 1).work C (exQuartic 1).here
        (tbCT (exQuartic 1).here (timed [("init", 12), ("a", 1/4)] "b", 1))]).sum "p" = .error .typeError := by
      unfold value3
      rw [hcur, if_neg one_ne_zero]
      apply maxRoot_quartic
      simp only [work, List.map_cons, List.map_nil, List.sum_cons, List.sum_nil, add_zero, hidx, t2, t3, t4, t5, p1, p2, q1, q2,
        hm1, hm2, hcur, one_pow, div_one, mul_one]
      simp only [Nat.cast_one, one_mul, Nat.cast_ofNat, mul_one_div_cancel (four_ne_zero (α := ℝ)), ← Polynomial.C_mul_X_pow_eq_monomial, map_one, pow_one]
      have e12 : (Polynomial.C (12:ℝ)) = 12 := rfl
      have e4 : (Polynomial.C (4:ℝ)) = 4 := rfl
      rw [e12, e4]
      ring
    simp only [List.map_cons, List.map_nil, List.mapM_nil, List.mapM_cons, bind, Except.bind, pure, Except.pure, List.append_nil]
    simp only [List.map_cons, List.map_nil] at hv
    rw [hv]
  unfold estimate
  rw [hfix, hC]
  simp only [bind, Except.bind]
  have : BW.fit (estimateStep 2 C (.timed exLong)) epsilon (k + 1) (exQuartic 1) = .error .typeError := by
    unfold BW.fit loop
    simp only [bind, Except.bind]
    rw [show estimateStep 2 C (.timed exLong) (exQuartic 1) = .error .typeError from hstep.trans hupd]
  rw [this]

/-! ### C72, disagreements: parameters that cannot be estimated -/

/-- If no transition is recorded for a requested parameter (for instance because the states of its transitions were removed
from the model), the estimation never ends with a result: it raises an exception. -/
theorem estimate_unused (processes : ℕ) (S : Traces) (M : PCTMC ℝ) (toUpdate : List String) (epsilon : ℝ) (maxIt : ℕ) (p : String)
    (hp : p ∈ toUpdate) (hpn : p ∈ M.names) (h0 : M.indexesOf p = []) (r : List (String × Option ℝ) × PCTMC ℝ) :
    M.estimate processes S toUpdate epsilon maxIt ≠ .ok r := by
  intro h
  unfold estimate at h
  obtain ⟨C, hC, -⟩ := (Except.bind_eq_ok _ _ _).1 h
  unfold sortParameters at hC
  simp only at hC
  obtain ⟨_, _, hC⟩ := (Except.bind_eq_ok _ _ _).1 hC
  obtain ⟨cats, hcats, -⟩ := (Except.bind_eq_ok _ _ _).1 hC
  obtain ⟨c, -, hc⟩ := List.mapM_mem _ _ _ hcats p (List.mem_filter.2 ⟨hpn, by simp [hp]⟩)
  unfold category at hc
  rw [h0] at hc
  simp [bind, Except.bind, pure, Except.pure] at hc

/-- The hypotheses of `estimate_unused` are met, and the exception is a ValueError: in the model a -> b, a -> c with rates x, with
c -> a with rate y, the traces without c remove the only transition of y. -/
theorem estimate_unused_example (epsilon : ℝ) (maxIt : ℕ) (S : Traces) :
    ((exSplit ℝ).reduceForTraces ["init", "a", "b"]).indexesOf "y" = [] ∧
    ((exSplit ℝ).reduceForTraces ["init", "a", "b"]).estimate 2 S ["y"] epsilon maxIt = .error .valueError := by
  have hM : (exSplit ℝ).reduceForTraces ["init", "a", "b"] =
      { matrix := [[0, 1, 0], [0, 0, 0], [2, 0, 0]], labelling := ["a", "b", "init"],
        exprs := [.num 0, .sym "x", .num 1], values := [("x", 1), ("y", 1)], indexes := [[(0, 1)], []], names := ["x", "y"],
        initialState := [0, 0, 1], sync := [] } := by
    unfold reduceForTraces removeUnseen
    simp [removeLoop, dropUnused, exSplit, removeState, shiftPair, uses, dropExpr, List.eraseIdx]
  rw [hM]
  refine ⟨by decide +kernel, ?_⟩
  unfold estimate
  have hf : (["x", "y"] : List String).filter (fun p => p ∉ ["y"]) = ["x"] := by decide
  rw [hf]
  rfl

/-- init -> a with rate p*q². -/
noncomputable def exCofactor : PCTMC ℝ where
  matrix := [[0, 1], [0, 0]]
  labelling := ["init", "a"]
  exprs := [.num 0, .mul (.sym "p") (.pow (.sym "q") 2)]
  values := [("p", 1), ("q", 1)]
  indexes := [[(0, 1)], [(0, 1)]]
  names := ["p", "q"]
  initialState := [1, 0]
  sync := []

/-- C72, disagreement: with the rate p*q² and q not estimated, the estimation of p raises TypeError, whatever the traces: the
coefficient of p is computed as the product of the other factors in which only the factors that are a single parameter
are replaced by a value. -/
theorem estimate_cofactor_fails (epsilon : ℝ) (maxIt : ℕ) (S : Traces) :
    exCofactor.estimate 2 S ["p"] epsilon maxIt = .error .typeError := by
  unfold estimate
  have hf : exCofactor.names.filter (fun p => p ∉ ["p"]) = ["q"] := by decide +kernel
  rw [hf]
  have hs : (match exCofactor.sortParameters ["q"] with | .ok _ => false | .error e => decide (e = .typeError)) = true := by decide +kernel
  cases h : exCofactor.sortParameters ["q"] with
  | ok C => rw [h] at hs; cases hs
  | error e =>
    rw [h] at hs
    have : e = .typeError := by simpa using hs
    rw [this]
    rfl

end PCTMC
end Jajapy
