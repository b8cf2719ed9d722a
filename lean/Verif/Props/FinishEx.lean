import Verif.Props.Finish
import Verif.Props.PrismEx

/-!
C79: examples. The hypotheses of the theorems of `Props/Finish.lean` are met by concrete models, training sets and floats.
-/

namespace Jajapy

open BW Spec Files Create

/-! ### Floats -/

/-- The decimal fractions, as real numbers. -/
noncomputable def realIO : FloatIO ℝ where
  dom x := ∃ q : ℚ, decIO.dom q ∧ x = q
  repr x := open Classical in if h : ∃ q : ℚ, decIO.dom q ∧ x = q then decIO.repr h.choose else []
  parse t := (decIO.parse t).map (fun q : ℚ => (q : ℝ))
  parse_repr x h := by
    rw [dif_pos h, decIO.parse_repr _ h.choose_spec.1]
    simp only [Option.map_some]
    rw [← h.choose_spec.2]
  repr_ne x h := by
    rw [dif_pos h]
    exact decIO.repr_ne _ h.choose_spec.1
  repr_chars x h := by
    rw [dif_pos h]
    exact decIO.repr_chars _ h.choose_spec.1
  repr_notInt x h := by
    rw [dif_pos h]
    exact decIO.repr_notInt _ h.choose_spec.1

theorem realIO_decimal : ∀ x, realIO.dom x → 0 < x → Prism.Decimal (realIO.repr x) := by
  intro x h hx
  have e : realIO.repr x = decIO.repr h.choose := dif_pos h
  rw [e]
  refine Prism.dec_decimal _ h.choose_spec.1 ?_
  have := h.choose_spec.2
  rw [this] at hx
  exact_mod_cast hx

theorem realIO_rat {q : ℚ} (k : ℕ) (h : q.den ∣ 10 ^ k) : realIO.dom (q : ℝ) := ⟨q, ⟨k, h⟩, rfl⟩

theorem realIO_zero : realIO.dom 0 := by simpa using realIO_rat (q := 0) 0 (by decide)
theorem realIO_one : realIO.dom 1 := by simpa using realIO_rat (q := 1) 0 (by decide)

/-! ### A Markov chain -/

/-- From 'init' the chain stays or goes to 'a'. -/
noncomputable def branch : MC ℝ String 2 where
  matrix := ![![1/2, 1/2], ![0, 1]]
  labelling := ![ "init", "a"]
  initialState := ![1, 0]

/-- In the only trace of the set the chain does not stay in 'init'. -/
def branchSet : TSet String := ⟨[["init", "a", "a"]], [3], false, some 0⟩

/-- What is learnt. -/
noncomputable def branch' : MC ℝ String 2 := { branch with matrix := ![![0, 1], ![0, 1]] }

theorem branch_weight : totalWeight branch.initialState branch.step (fun _ => 1) ["init", "a", "a"] = 1/2 := by
  rw [totalWeight_eq]
  simp [beta0, betas, bwd, MC.step, branch, Fin.sum_univ_two]

theorem branch_stochastic : branch.Stochastic := by
  refine ⟨?_, ?_, ?_, ?_⟩
  · intro s; fin_cases s <;> simp [branch]
  · simp [branch, Fin.sum_univ_two]
  · intro s s'; fin_cases s <;> fin_cases s' <;> simp [branch]
  · intro s; fin_cases s <;> simp [branch, Fin.sum_univ_two] <;> norm_num

theorem branch_mk : mkMC branch.matrix ["init", "a"] = .ok branch := by
  refine (mkMC_ok_iff _ _ _).2 ⟨by simp, rfl, fun i => Or.inl ?_, rfl, ?_, ?_⟩
  · rw [branch_stochastic.2.2.2 i]; norm_num
  · intro s; fin_cases s <;> simp [branch]
  · intro s
    have : (Finset.univ.filter (fun s => branch.labelling s = "init")) = {0} := by
      ext s; fin_cases s <;> simp [branch]
    rw [this]
    fin_cases s <;> simp [branch]

theorem branch_learns (processes : ℕ) (hp : 1 < processes) (epsilon : ℝ) : ∃ st, fit (stepMC processes branchSet) epsilon 1 branch = .ok st ∧ st.h = branch' ∧ st.ll.isSome := by
  obtain ⟨r, hr⟩ := (branch.bw_step_outcome processes branchSet branch_stochastic.2.2.2 (by decide) (by decide)).1
    (Or.inl ⟨hp, ["init", "a", "a"], by decide, by
      rw [branch.lik_eq branch_stochastic.2.2.2 _ (by decide), branch_weight]; norm_num⟩)
  unfold fit
  rw [loop_succ _ _ _ _ r.1 r.2 (by simpa using hr), if_neg (by simp), loop_zero]
  refine ⟨_, rfl, ?_, rfl⟩
  obtain ⟨h1, _, _, _⟩ := stepMC_ok _ _ _ _ _ hr
  show r.1 = _
  have hp : possMC branch branchSet = [(["init", "a", "a"], 3)] := by
    simp [possMC, branchSet, branch_weight]
  have e : ∀ s ss, numMC branch branchSet s ss = ![![0, 3], ![0, 6]] s ss := by
    intro s ss
    unfold numMC
    rw [hp]
    simp only [List.map_cons, List.map_nil, List.sum_cons, List.sum_nil, wkMC, branch_weight]
    fin_cases s <;> fin_cases ss <;> simp [use, uses, alphas, betas, fwd, bwd, MC.step, branch, Fin.sum_univ_two] <;> norm_num
  have d : ∀ s, denMC branch branchSet s = ![3, 6] s := by
    intro s
    unfold denMC
    rw [hp]
    simp only [List.map_cons, List.map_nil, List.sum_cons, List.sum_nil, wkMC, branch_weight]
    fin_cases s <;> simp [vis, visits, alphas, betas, fwd, bwd, MC.step, branch, Fin.sum_univ_two] <;> norm_num
  rw [h1]
  unfold newMC branch'
  congr 1
  funext s ss
  rw [e, d]
  fin_cases s <;> fin_cases ss <;> simp

theorem branch'_dom : (∀ i j, realIO.dom (branch'.matrix i j)) ∧ ∀ s, realIO.dom (branch'.initialState s) := by
  constructor
  · intro i j
    fin_cases i <;> fin_cases j
    · exact realIO_zero
    · exact realIO_one
    · exact realIO_zero
    · exact realIO_one
  · intro s
    fin_cases s
    · exact realIO_one
    · exact realIO_zero

/-- Hypotheses of `MC.call_file`, `MC.call_prism_partial`, `MC.call_returns_partial` and `MC.call_storm_monotone_partial`: a call that writes the two files and
returns a Storm model and the data. -/
example (printable : Char → Bool) : ∃ t t' P start x Z, (callMC printable realIO "m".toList ⟨true, true, true, true⟩ 2 branchSet (1/100) 1 branch).file = some t ∧
    loadMC realIO t = .ok ("m".toList, ⟨2, branch'⟩) ∧
    (callMC printable realIO "m".toList ⟨true, true, true, true⟩ 2 branchSet (1/100) 1 branch).prism = some t' ∧
    Spec.Prism.readPrism realIO.parse (Spec.Prism.literal realIO.parse) t' = some P ∧
    Spec.Prism.Describes P .dtmc start (Spec.Prism.chainChoices branch'.matrix) branch.labelling ∧
    (callMC printable realIO "m".toList ⟨true, true, true, true⟩ 2 branchSet (1/100) 1 branch).result = .ok x ∧ x.model = .inr Z ∧
    ∀ w, Spec.Storm.prob Z 0 w = branch'.lik w := by
  obtain ⟨st, hst, h1, _⟩ := branch_learns 2 (by norm_num) (1/100)
  have hi : ∃ s, branch.initialState s = 1 := ⟨0, rfl⟩
  have hl : ∀ s, branch.labelling s ≠ "deadlock" := by intro s; fin_cases s <;> simp [branch]
  have hl' : ∀ s, branch.labelling s ≠ "init" → Spec.Prism.IsName (branch.labelling s).toList := by
    intro s; fin_cases s
    · intro h; exact absurd rfl h
    · intro _; show Spec.Prism.IsName "a".toList; decide
  have hk : ∀ s, branch.initialState s = if s = 0 then 1 else 0 := by intro s; fin_cases s <;> simp [branch]
  obtain ⟨t, a1, a2⟩ := (MC.call_file printable realIO _ _ branch "m".toList ⟨true, true, true, true⟩ 2 branchSet (1/100) 1 st branch_mk branch_stochastic hst
    (by constructor <;> decide) (by rw [h1]; exact branch'_dom.1) (by rw [h1]; exact branch'_dom.2)).1 rfl
  obtain ⟨t', P, start, b1, b2, _, _, b3⟩ := MC.call_prism_partial printable realIO branch "m".toList ⟨true, true, true, true⟩ 2 branchSet (1/100) 1 st
    branch_stochastic hst (by decide) realIO_decimal (by rw [h1]; exact branch'_dom.1) hl' hi rfl
  obtain ⟨x, c1, _, c2, _⟩ := MC.call_returns_partial printable realIO _ _ branch "m".toList ⟨true, true, true, true⟩ 2 branchSet (1/100) 1 st branch_mk
    branch_stochastic hst (fun _ => hi) (fun _ => by norm_num) hl
  obtain ⟨Z, c3, _, c4⟩ := c2 rfl
  rw [h1] at a2 b3
  refine ⟨t, t', P, start, x, Z, a1, a2, b1, b2, b3, c1, c3, ?_⟩
  intro w
  rw [← h1]
  exact c4 0 hk w

example (printable : Char → Bool) : ∃ x Z, (callMC printable realIO "m".toList ⟨false, false, true, false⟩ 2 branchSet (1/100) 1 branch).result = .ok x ∧
    x.model = .inr Z ∧ avgLogLik branch.lik branchSet ≤ avgLogLik (Spec.Storm.prob Z ((0 : Fin 2) : ℕ)) branchSet := by
  obtain ⟨st, hst, h1, _⟩ := branch_learns 2 (by norm_num) (1/100)
  exact MC.call_storm_monotone_partial printable realIO _ _ branch "m".toList 2 branchSet (1/100) 1 st branch_mk branch_stochastic hst
    (by intro s; fin_cases s <;> simp [branch]) 0 (by intro s; fin_cases s <;> simp [branch]) (by decide) (by decide) (by decide)

/-- Two initial states. -/
noncomputable def twoInit : MC ℝ String 2 := { branch with labelling := ![ "init", "init"], initialState := ![1/2, 1/2] }

/-- Hypotheses of `MC.call_prism_raises`. -/
example : ∀ s, twoInit.initialState s ≠ 1 := by
  intro s
  fin_cases s <;> simp [twoInit]

/-! ### A Markov decision process -/

/-- A nonnegative row with one possible entry has sum 1 or 0. -/
theorem row_zero_one {n : ℕ} (f : Fin n → ℝ) (k : Fin n) (h0 : ∀ j, j ≠ k → f j = 0) (hs : ∑ j, f j = 1 ∨ ∑ j, f j = 0) (j : Fin n) : realIO.dom (f j) := by
  rw [Finset.sum_eq_single k (fun b _ hb => h0 b hb) (fun h => absurd (Finset.mem_univ _) h)] at hs
  by_cases hj : j = k
  · subst hj
    rcases hs with h | h <;> rw [h]
    · exact realIO_one
    · exact realIO_zero
  · rw [h0 j hj]
    exact realIO_zero

/-- From 'init' the action 'go' leads to 'a', the action 'stay' does not move; 'a' is never left. -/
def walk : MDP ℝ String 2 where
  actions := ["go", "stay"]
  matrix := ![![![0, 1], ![1, 0]], ![![0, 1], ![0, 0]]]
  labelling := ![ "init", "a"]
  initialState := ![1, 0]

def walkSet : TSet String := ⟨[["init", "stay", "init", "go", "a"]], [2], false, some 1⟩

theorem walk_stochastic : walk.Stochastic := by
  refine ⟨?_, ?_, ?_, ?_⟩
  · intro s; fin_cases s <;> simp [walk]
  · simp [walk, Fin.sum_univ_two]
  · intro s i s'
    change Fin 2 at i
    fin_cases s <;> fin_cases i <;> fin_cases s' <;> simp [walk]
  · intro s i
    change Fin 2 at i
    fin_cases s <;> fin_cases i <;> simp [walk, Fin.sum_univ_two]

theorem walk_mk : mkMDP walk.actions walk.matrix ["init", "a"] = .ok walk := by
  refine (mkMDP_ok_iff _ _ _ _).2 ⟨by simp, rfl, fun i a => ?_, ⟨rfl, fun _ _ _ => rfl⟩, ?_, ?_⟩
  · rcases walk_stochastic.2.2.2 i a with h | h
    · left; rw [h]; norm_num
    · right; rw [h]; norm_num
  · intro s; fin_cases s <;> simp [walk]
  · intro s
    have : (Finset.univ.filter (fun s => walk.labelling s = "init")) = {0} := by
      ext s; rw [Finset.mem_filter, Finset.mem_singleton]; fin_cases s <;> simp [walk]
    rw [this]
    fin_cases s <;> simp [walk]

theorem walk_prob (s : Fin 2) (i : Fin 2) (s' : Fin 2) : walk.prob s (["go", "stay"][i]) s' = walk.matrix s i s' :=
  walk.prob_getElem (by decide) s i s'

theorem walk_lik : walk.lik ["init", "stay", "init", "go", "a"] = 1 := by
  have h := walk.lik_alternate [("init", "stay"), ("init", "go")] "a"
  have e : ∀ s s', walk.prob s "go" s' = walk.matrix s (0 : Fin 2) s' := fun s s' => walk_prob s 0 s'
  have e' : ∀ s s', walk.prob s "stay" s' = walk.matrix s (1 : Fin 2) s' := fun s s' => walk_prob s 1 s'
  refine h.trans ?_
  unfold MDP.stepWeight
  rw [totalWeight_eq]
  simp only [beta0, betas, bwd, List.headD, Fin.sum_univ_two, MDP.step, MDP.mask, e, e']
  simp [walk]

/-- Hypotheses of `MDP.call_file`, `MDP.call_prism_partial` and `MDP.call_returns_partial`. -/
example (printable : Char → Bool) (maxIt : ℕ) : ∃ st t t' P start x Z, fit (stepMDP 2 walkSet) (1/100) (maxIt + 1) walk = .ok st ∧
    (callMDP printable realIO "m".toList ⟨true, true, true, true⟩ 2 walkSet (1/100) (maxIt + 1) walk).file = some t ∧
    loadMDP realIO t = .ok ("m".toList, ⟨2, st.h⟩) ∧
    (callMDP printable realIO "m".toList ⟨true, true, true, true⟩ 2 walkSet (1/100) (maxIt + 1) walk).prism = some t' ∧
    Spec.Prism.readPrism realIO.parse (Spec.Prism.literal realIO.parse) t' = some P ∧
    Spec.Prism.Describes P .mdp start (Spec.Prism.mdpChoices st.h) walk.labelling ∧
    (callMDP printable realIO "m".toList ⟨true, true, true, true⟩ 2 walkSet (1/100) (maxIt + 1) walk).result = .ok x ∧ x.model = .inr Z ∧
    ∀ (s : Fin 2) (a : Fin st.h.actions.length) (s' : Fin 2), Spec.Storm.value Z s a s' = st.h.matrix s a s' := by
  have hn : walk.actions.Nodup := by decide
  have ho : ∀ w ∈ walkSet.sequences, w.length % 2 = 1 := by decide
  obtain ⟨st, hst⟩ := walk.fit_total 2 (by norm_num) walkSet (1/100) (maxIt + 1) hn walk_stochastic ho (by decide) (by decide)
    ["init", "stay", "init", "go", "a"] (by decide) (by rw [walk_lik]; norm_num)
  obtain ⟨s0, s1, s2, s3⟩ := MDP.fit_structure _ _ _ _ _ hn ho _ hst
  have hS' := (MDP.fit_stochastic _ _ _ _ _ hn walk_stochastic ho _ hst).1
  have hm : ∀ i a j, realIO.dom (st.h.matrix i a j) := by
    intro i a j
    have hz : ∀ j, walk.prob i (st.h.actions[a]) j = 0 → st.h.matrix i a j = 0 := by
      intro j hj
      rw [← st.h.prob_getElem (by rw [s0]; exact hn) i a j]
      exact s3 _ _ _ hj
    have hx : st.h.actions[a] ∈ walk.actions := by rw [← s0]; exact List.getElem_mem _
    generalize st.h.actions[a] = y at hz hx
    have hk : ∃ k, ∀ j, j ≠ k → walk.prob i y j = 0 := by
      simp only [walk, List.mem_cons, List.not_mem_nil, or_false] at hx
      rcases hx with rfl | rfl
      · refine ⟨1, fun j hj => ?_⟩
        rw [show walk.prob i "go" j = walk.matrix i (0 : Fin 2) j from walk_prob i 0 j]
        fin_cases i <;> fin_cases j <;> simp [walk] at hj ⊢
      · refine ⟨0, fun j hj => ?_⟩
        rw [show walk.prob i "stay" j = walk.matrix i (1 : Fin 2) j from walk_prob i 1 j]
        fin_cases i <;> fin_cases j <;> simp [walk] at hj ⊢
    obtain ⟨k, hk⟩ := hk
    exact row_zero_one _ k (fun j hj => hz j (hk j hj)) (hS'.2.2.2 i a) j
  have hi : ∃ s, walk.initialState s = 1 := ⟨0, rfl⟩
  obtain ⟨t, a1, a2⟩ := (MDP.call_file printable realIO _ _ _ walk "m".toList ⟨true, true, true, true⟩ 2 walkSet (1/100) (maxIt + 1) st walk_mk hn
    walk_stochastic ho hst (by constructor <;> decide) hm (by rw [s2]; intro s; fin_cases s; exacts [realIO_one, realIO_zero])).1 rfl
  obtain ⟨t', P, start, b1, b2, _, _, b3⟩ := MDP.call_prism_partial printable realIO walk "m".toList ⟨true, true, true, true⟩ 2 walkSet (1/100) (maxIt + 1) st
    hn walk_stochastic ho hst (by decide) realIO_decimal hm (by
      intro a ha
      simp only [walk, List.mem_cons, List.not_mem_nil, or_false] at ha
      rcases ha with rfl | rfl <;> decide) (by
      intro s; fin_cases s
      · intro h; exact absurd rfl h
      · intro _; show Spec.Prism.IsName "a".toList; decide) hi rfl
  obtain ⟨x, c1, _, c2, _⟩ := MDP.call_returns_partial printable realIO walk "m".toList ⟨true, true, true, true⟩ 2 walkSet (1/100) (maxIt + 1) st
    hn ho hst (fun _ => hi) (fun _ => Nat.succ_pos _)
  obtain ⟨Z, c3, _, _, _, c4⟩ := c2 rfl
  exact ⟨st, t, t', P, start, x, Z, hst, a1, a2, b1, b2, b3, c1, c3, c4⟩

/-- Hypotheses of `MDP.call_prism_raises`: two initial states. -/
example : ∃ M : MDP ℝ String 2, M.actions.Nodup ∧ (∀ w ∈ walkSet.sequences, w.length % 2 = 1) ∧ ∀ s, M.initialState s ≠ 1 :=
  ⟨{ walk with labelling := ![ "init", "init"], initialState := ![1/2, 1/2] }, by show (["go", "stay"]).Nodup; decide, by decide,
    by intro s; fin_cases s <;> simp⟩

/-! ### A CTMC -/

/-- Two states that alternate. -/
def blink : CTMC ℝ String 2 where
  matrix := ![![0, 2], ![1, 0]]
  labelling := ![ "init", "a"]
  initialState := ![1, 0]

noncomputable def blinkSet : TSet (Sym String) := ⟨[timed [("init", 1/2), ("a", 1)] "init"], [2], false, some 4⟩

theorem blink_valid : blink.Valid := by
  refine ⟨?_, ?_⟩
  · intro s; fin_cases s <;> simp [blink]
  · intro s s'; fin_cases s <;> fin_cases s' <;> simp [blink]

theorem blink_mk : mkCTMC blink.matrix ["init", "a"] = .ok blink := by
  refine (mkCTMC_ok_iff _ _ _).2 ⟨by simp, rfl, rfl, ?_, ?_⟩
  · intro s; fin_cases s <;> simp [blink]
  · intro s
    have : (Finset.univ.filter (fun s => blink.labelling s = "init")) = {0} := by
      ext s; rw [Finset.mem_filter, Finset.mem_singleton]; fin_cases s <;> simp [blink]
    rw [this]
    fin_cases s <;> simp [blink]

theorem blinkSet_ok : CTMC.TimedSet blinkSet ∧ WaitsNonneg blinkSet ∧ blinkSet.times.length = blinkSet.sequences.length ∧ ∀ t ∈ blinkSet.times, 1 ≤ t := by
  refine ⟨?_, ?_, rfl, by simp [blinkSet]⟩
  · intro w hw
    rw [List.mem_singleton.mp hw]
    exact ⟨isTimed_timed _ _, by rw [timed_length]; simp⟩
  · intro w hw
    rw [List.mem_singleton.mp hw, timedSteps_timed]
    simp

theorem blink_path : ∃ p : Fin ((timedSteps (timed [("init", (1/2 : ℝ)), ("a", 1)] "init")).length + 1) → Fin 2,
    0 < pathWeight blink.initialState blink.rateStep (blink.lastMask (timed [("init", 1/2), ("a", 1)] "init")) (timedSteps (timed [("init", 1/2), ("a", 1)] "init")) p ∧
    ∀ s : Fin 2, ∃ k, p (Fin.castSucc k) = s ∧ 0 < ((timedSteps (timed [("init", (1/2 : ℝ)), ("a", 1)] "init")).get k).2 := by
  rw [timedSteps_timed]
  refine ⟨![0, 1, 0], ?_, ?_⟩
  · unfold pathWeight
    simp only [List.length_cons, List.length_nil, Fin.prod_univ_two, CTMC.rateStep, CTMC.lastMask, observations_timed]
    simp [blink]
    positivity
  · intro s
    fin_cases s
    · exact ⟨0, rfl, by simp⟩
    · exact ⟨1, rfl, by simp⟩

theorem blink_visits (s : Fin 2) : blink.Visited blinkSet s := by
  obtain ⟨p, h1, h2⟩ := blink_path
  exact ⟨_, by simp [blinkSet], p, h1, h2 s⟩

theorem blink_possible : blink.density (timed [("init", 1/2), ("a", 1)] "init") ≠ 0 := by
  obtain ⟨p, h1, _⟩ := blink_path
  refine (lt_of_lt_of_le h1 ?_).ne'
  exact Finset.single_le_sum (f := fun p => pathWeight blink.initialState blink.rateStep
    (blink.lastMask (timed [("init", 1/2), ("a", 1)] "init")) (timedSteps (timed [("init", 1/2), ("a", 1)] "init")) p)
    (fun p _ => blink.path_nonneg blink_valid _ p) (Finset.mem_univ p)

/-- Hypotheses of `CTMC.call_file`, `CTMC.call_prism_partial` and `CTMC.call_returns_partial`. -/
example (printable : Char → Bool) (maxIt : ℕ) : ∃ st t t' P start x Z, fit (stepTimed 2 (fun _ _ => true) blinkSet) (1/100) (maxIt + 1) blink = .ok st ∧
    (callCTMC printable realIO "m".toList ⟨true, true, true, true⟩ 2 (fun _ _ => true) blinkSet (1/100) (maxIt + 1) blink).file = some t ∧
    loadCTMC realIO t = .ok ("m".toList, ⟨2, st.h⟩) ∧
    (callCTMC printable realIO "m".toList ⟨true, true, true, true⟩ 2 (fun _ _ => true) blinkSet (1/100) (maxIt + 1) blink).prism = some t' ∧
    Spec.Prism.readPrism realIO.parse (Spec.Prism.literal realIO.parse) t' = some P ∧
    Spec.Prism.Describes P .ctmc start (Spec.Prism.chainChoices st.h.matrix) blink.labelling ∧
    (callCTMC printable realIO "m".toList ⟨true, true, true, true⟩ 2 (fun _ _ => true) blinkSet (1/100) (maxIt + 1) blink).result = .ok x ∧ x.model = .inr Z ∧
    Storm.toCTMC Z false = .ok (some ⟨2, st.h⟩) := by
  obtain ⟨k1, k2, k3, k4⟩ := blinkSet_ok
  obtain ⟨st, hst⟩ := blink.fit_total 2 (by norm_num) (fun _ _ => true) blinkSet (1/100) (maxIt + 1) blink_valid k1 k2 k3 k4 _
    (by simp [blinkSet]) blink_possible
  obtain ⟨s1, s2, _⟩ := CTMC.fit_structure _ _ _ _ _ _ k1 _ hst
  have hm : ∀ i j, realIO.dom (st.h.matrix i j) := by
    intro i j
    rw [CTMC.fit_fixed_partial _ _ _ _ _ _ blink_valid k1 k2 k3 k4 _ hst i j rfl (blink_visits i)]
    fin_cases i <;> fin_cases j
    · exact realIO_zero
    · show realIO.dom 2
      simpa using realIO_rat (q := 2) 0 (by decide)
    · exact realIO_one
    · exact realIO_zero
  have hi : ∃ s, blink.initialState s = 1 := ⟨0, rfl⟩
  obtain ⟨t, a1, a2⟩ := (CTMC.call_file printable realIO _ _ blink "m".toList ⟨true, true, true, true⟩ 2 (fun _ _ => true) blinkSet (1/100) (maxIt + 1) st
    blink_mk k1 hst (by constructor <;> decide) hm (by rw [s2]; intro s; fin_cases s; exacts [realIO_one, realIO_zero])).1 rfl
  obtain ⟨t', P, start, b1, b2, _, _, b3⟩ := CTMC.call_prism_partial printable realIO blink "m".toList ⟨true, true, true, true⟩ 2 (fun _ _ => true) blinkSet
    (1/100) (maxIt + 1) st blink_valid k1 k2 hst (by decide) realIO_decimal hm (by
      intro s; fin_cases s
      · intro h; exact absurd rfl h
      · intro _; show Spec.Prism.IsName "a".toList; decide) hi rfl
  obtain ⟨x, c1, _, c2, _⟩ := CTMC.call_returns_partial printable realIO _ _ blink "m".toList ⟨true, true, true, true⟩ 2 (fun _ _ => true) blinkSet
    (1/100) (maxIt + 1) st blink_mk blink_valid k1 k2 hst (fun _ => hi) (fun _ => Nat.succ_pos _) (by intro s; fin_cases s <;> simp [blink])
  obtain ⟨Z, c3, c4⟩ := c2 rfl (by intro s; fin_cases s <;> simp [blink, CTMC.e, Fin.sum_univ_two])
  exact ⟨st, t, t', P, start, x, Z, hst, a1, a2, b1, b2, b3, c1, c3, c4⟩

/-- The state 'a' is not left. -/
def stop : CTMC ℝ String 2 := { blink with matrix := ![![0, 2], ![0, 0]] }

noncomputable def stopSet : TSet (Sym String) := ⟨[timed [("init", 1/2)] "a"], [2], false, some 4⟩

/-- Hypotheses of `CTMC.call_storm_nan`: learning on a chain with an absorbing state. -/
example (printable : Char → Bool) (maxIt : ℕ) : ∃ x Z, (callCTMC printable realIO "m".toList ⟨false, false, true, false⟩ 2 (fun _ _ => false) stopSet (1/100)
    maxIt stop).result = .ok x ∧ x.model = .inr Z ∧ ∀ j : Fin 2, Spec.Storm.Entry Z ((1 : Fin 2) : ℕ) 0 j none := by
  have hV : stop.Valid := by
    refine ⟨?_, ?_⟩
    · intro s; fin_cases s <;> simp [stop, blink]
    · intro s s'; fin_cases s <;> fin_cases s' <;> simp [stop]
  have k1 : CTMC.TimedSet stopSet := by
    intro w hw
    rw [List.mem_singleton.mp hw]
    exact ⟨isTimed_timed _ _, by rw [timed_length]; simp⟩
  have k2 : WaitsNonneg stopSet := by
    intro w hw
    rw [List.mem_singleton.mp hw, timedSteps_timed]
    simp
  have hd : stop.density (timed [("init", 1/2)] "a") ≠ 0 := by
    unfold CTMC.density
    rw [totalWeight_eq, timedSteps_timed]
    simp only [beta0, betas, bwd, CTMC.rateStep, CTMC.lastMask, observations_timed, Fin.sum_univ_two, List.headD]
    simp [stop, blink]
  obtain ⟨st, hst⟩ := stop.fit_total 2 (by norm_num) (fun _ _ => false) stopSet (1/100) maxIt hV k1 k2 rfl (by simp [stopSet]) _
    (by simp [stopSet]) hd
  exact CTMC.call_storm_nan printable realIO stop "m".toList 2 (fun _ _ => false) stopSet (1/100) maxIt st hV k1 k2 hst 1 (by simp [CTMC.e, stop])

/-- Hypotheses of `CTMC.call_prism_raises`. -/
example : CTMC.TimedSet blinkSet ∧ ∀ s, ({ blink with labelling := ![ "init", "init"], initialState := ![1/2, 1/2] } : CTMC ℝ String 2).initialState s ≠ 1 :=
  ⟨blinkSet_ok.1, by intro s; fin_cases s <;> simp⟩

/-! ### A HMM and a GoHMM -/

/-- The first state emits 'x', the second 'y'. -/
def spell : HMM ℝ String 2 where
  matrix := ![![0, 1], ![0, 1]]
  alphabet := ["x", "y"]
  output := ![![1, 0], ![0, 1]]
  initialState := ![1, 0]

def spellSet : TSet String := ⟨[["x", "y", "y"]], [2], false, some 0⟩

theorem spell_stochastic : spell.Stochastic := by
  refine ⟨fun s => ?_, ?_, fun s s' => ?_, fun s => ?_, fun s i => ?_, fun s => ?_⟩
  · fin_cases s <;> simp [spell]
  · simp [spell]
  · fin_cases s <;> fin_cases s' <;> simp [spell]
  · fin_cases s <;> simp [spell, Fin.sum_univ_two]
  · change Fin 2 at i
    fin_cases s <;> fin_cases i <;> simp [spell]
  · change ∑ i : Fin 2, _ = _
    fin_cases s <;> simp [spell, Fin.sum_univ_two]

theorem spell_emit (s : Fin 2) : spell.emit s "x" = (![1, 0] : Fin 2 → ℝ) s ∧ spell.emit s "y" = (![0, 1] : Fin 2 → ℝ) s := by
  refine ⟨?_, ?_⟩
  · refine (spell.emit_getElem (by decide) s ⟨0, by decide⟩).trans ?_
    fin_cases s <;> simp [spell]
  · refine (spell.emit_getElem (by decide) s ⟨1, by decide⟩).trans ?_
    fin_cases s <;> simp [spell]

theorem spell_lik : spell.lik ["x", "y", "y"] = 1 := by
  rw [spell.lik_eq spell_stochastic.2.2.2.1 _ (by simp), totalWeight_eq]
  simp only [beta0, betas, bwd, HMM.step, spell_emit, List.headD, Fin.sum_univ_two]
  simp [spell]

/-- Hypotheses of `HMM.call_file` and `HMM.call_returns_partial`. -/
example (printable : Char → Bool) (maxIt : ℕ) : ∃ st t x, fit (stepHMM 2 spellSet) (1/100) (maxIt + 1) spell = .ok st ∧
    (callHMM printable realIO "m".toList ⟨true, true, true, true⟩ 2 spellSet (1/100) (maxIt + 1) spell).file = some t ∧
    loadHMM realIO t = .ok ("m".toList, ⟨2, ⟨st.h.matrix, st.h.alphabet, st.h.output, List.ofFn st.h.initialState⟩⟩) ∧
    (callHMM printable realIO "m".toList ⟨true, true, true, true⟩ 2 spellSet (1/100) (maxIt + 1) spell).prism = none ∧
    (callHMM printable realIO "m".toList ⟨true, true, true, true⟩ 2 spellSet (1/100) (maxIt + 1) spell).result = .ok x ∧ x.model = .inl st.h := by
  have hn : spell.alphabet.Nodup := by decide
  obtain ⟨st, hst⟩ := HMM.fit_total 2 (by norm_num) spellSet (1/100) (maxIt + 1) spell hn spell_stochastic (by decide) (by decide) (by decide)
    ["x", "y", "y"] (by decide) (by rw [spell_lik]; norm_num)
  obtain ⟨s0, s1, s2, s3⟩ := HMM.fit_structure _ _ _ _ _ hn _ hst
  have hS' := HMM.fit_stochastic _ _ _ _ _ hn spell_stochastic (by decide) _ hst
  have hm : ∀ i j, realIO.dom (st.h.matrix i j) := by
    intro i j
    refine row_zero_one _ 1 (fun j hj => s1 i j ?_) (Or.inl (hS'.2.2.2.1 i)) j
    fin_cases i <;> fin_cases j <;> simp [spell] at hj ⊢
  have hi : ∀ s, realIO.dom (st.h.initialState s) := by
    refine row_zero_one _ 0 (fun j hj => s3 j ?_) (Or.inl hS'.2.1)
    fin_cases j <;> simp [spell] at hj ⊢
  have ho : ∀ i k, realIO.dom (st.h.output i k) := by
    intro i k
    have hz : ∀ k, spell.emit i (st.h.alphabet[k]) = 0 → st.h.output i k = 0 := by
      intro k hk
      rw [← st.h.emit_getElem (by rw [s0]; exact hn) i k]
      exact s2 _ _ hk
    have hl : st.h.alphabet.length = 2 := by rw [s0]; rfl
    have h0 : st.h.alphabet[0]'(by omega) = "x" := by simp only [s0]; rfl
    have h1 : st.h.alphabet[1]'(by omega) = "y" := by simp only [s0]; rfl
    have hcase : ∀ k : Fin st.h.alphabet.length, k.val = 0 ∨ k.val = 1 := fun k => by have := k.2; omega
    refine row_zero_one _ ⟨i.val, by rw [hl]; exact i.2⟩ (fun j hj => hz j ?_) (Or.inl (hS'.2.2.2.2.2 i)) k
    have hj' : j.val ≠ i.val := fun h => hj (Fin.ext h)
    rcases hcase j with h | h
    · have : st.h.alphabet[j] = "x" := by simp only [Fin.getElem_fin, h, h0]
      rw [this, (spell_emit i).1]
      fin_cases i
      · exact absurd h hj'
      · rfl
    · have : st.h.alphabet[j] = "y" := by simp only [Fin.getElem_fin, h, h1]
      rw [this, (spell_emit i).2]
      fin_cases i
      · rfl
      · exact absurd h hj'
  obtain ⟨t, a1, a2⟩ := (HMM.call_file printable realIO spell "m".toList ⟨true, true, true, true⟩ 2 spellSet (1/100) (maxIt + 1) st hn spell_stochastic
    (by decide) hst (by constructor <;> decide) hm ho hi).1 rfl
  obtain ⟨b1, x, b2, b3, _⟩ := HMM.call_returns_partial printable realIO spell "m".toList ⟨true, true, true, true⟩ 2 spellSet (1/100) (maxIt + 1) st hst
    (fun _ => Nat.succ_pos _)
  exact ⟨st, t, x, hst, a1, a2, b1, b2, b3⟩

/-- Hypotheses of `GoHMM.call_file` and `GoHMM.call_returns_partial`. -/
example (printable : Char → Bool) : ∃ st t x, fit (stepGoHMM 1 exSetPoint) (1/100) 1 exGoPoint = .ok st ∧
    (callGoHMM printable realIO "m".toList ⟨true, true, true, true⟩ 1 exSetPoint (1/100) 1 exGoPoint).file = some t ∧
    loadGoHMM realIO t = .ok ("m".toList, ⟨1, 1, ⟨st.h.matrix, st.h.mu, st.h.sigma, List.ofFn st.h.initialState⟩⟩) ∧
    (callGoHMM printable realIO "m".toList ⟨true, true, true, true⟩ 1 exSetPoint (1/100) 1 exGoPoint).result = .ok x ∧ x.model = .inl st.h := by
  obtain ⟨M', ll, hr, hsig, _⟩ := GoHMM.likelihood_decreases
  have ht : ∀ t ∈ exSetPoint.times, 1 ≤ t := by simp [exSetPoint]
  have hst : ∃ st, fit (stepGoHMM 1 exSetPoint) (1/100) 1 exGoPoint = .ok st ∧ st.h = M' := by
    unfold fit
    rw [loop_succ _ _ _ _ M' ll hr, if_neg (by simp), loop_zero]
    exact ⟨_, rfl, rfl⟩
  obtain ⟨st, hst, h1⟩ := hst
  have hV' := GoHMM.fit_valid _ _ _ _ _ exGoPoint_valid ht _ hst
  have hmu := GoHMM.fit_means _ _ _ _ _ exGoPoint_valid ht (by simp [exSetPoint]) 0 0 0 (by simp [exSetPoint]) 0 _ hst
  have hmu' : st.h.mu 0 0 = 0 := by
    rcases hmu with h | h
    · rw [h]; rfl
    · exact le_antisymm h.2 h.1
  have hm : ∀ i j, realIO.dom (st.h.matrix i j) := fun i j => row_zero_one _ 0 (fun j hj => absurd (Subsingleton.elim j 0) hj) (Or.inl (hV'.2.2.2.1 i)) j
  have hi : ∀ s, realIO.dom (st.h.initialState s) := row_zero_one _ 0 (fun j hj => absurd (Subsingleton.elim j 0) hj) (Or.inl hV'.2.1)
  have ho : ∀ i j, realIO.dom (st.h.mu i j) ∧ realIO.dom (st.h.sigma i j) := by
    intro i j
    obtain rfl := Subsingleton.elim i 0
    obtain rfl := Subsingleton.elim j 0
    rw [hmu', h1, hsig]
    exact ⟨realIO_zero, realIO_zero⟩
  obtain ⟨t, a1, a2⟩ := (GoHMM.call_file printable realIO (by norm_num) (by norm_num) exGoPoint "m".toList ⟨true, true, true, true⟩ 1 exSetPoint
    (1/100) 1 st exGoPoint_valid ht hst (by constructor <;> decide) hm ho hi).1 rfl
  obtain ⟨_, x, b2, b3, _⟩ := GoHMM.call_returns_partial printable realIO exGoPoint "m".toList ⟨true, true, true, true⟩ 1 exSetPoint
    (1/100) 1 st hst (fun _ => by norm_num)
  exact ⟨st, t, x, hst, a1, a2, b2, b3⟩

end Jajapy
