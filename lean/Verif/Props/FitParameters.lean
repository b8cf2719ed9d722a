import Verif.Props.BWPCTMC
import Verif.Props.TSet
import Verif.Lemmas.PReduceWF

/-!
Property theorems for `fit_parameters` and `fit_nonInstantiatedParameters` (C72-C75).
-/

set_option linter.unusedSectionVars false

namespace Jajapy

open Spec BW

namespace PCTMC

theorem labelsOf_spec (S : Traces) (hS : Typed S) : ∃ A, labelsOf S = .ok A ∧ ∀ o, o ∈ A ↔ Shows S o := by
  cases S with
  | untimed S =>
    obtain ⟨A, h1, _, h3⟩ := TSet.getAlphabet_untimed S hS
    exact ⟨A, h1, h3⟩
  | timed S =>
    obtain ⟨A, h1, _, h3⟩ := TSet.getAlphabet_timed S hS
    refine ⟨_, by unfold labelsOf; dsimp only; rw [h1]; rfl, fun o => ?_⟩
    rw [List.mem_filterMap]
    constructor
    · rintro ⟨x, hx, hxo⟩
      cases x with
      | obs o' =>
        simp only [Option.some.injEq] at hxo
        subst hxo
        exact (h3 _).1 hx
      | time t => cases hxo
    · intro h
      exact ⟨.obs o, (h3 _).2 h, rfl⟩

theorem prepare_spec (S : Traces) (hS : Typed S) (hi : Shows S "init") : prepare S = .ok S := by
  cases S with
  | untimed S =>
    obtain ⟨A, h1, _, h3⟩ := TSet.getAlphabet_untimed S hS
    unfold prepare withInit
    dsimp only
    rw [h1]
    have : "init" ∈ A := (h3 _).2 hi
    simp only [bind, Except.bind, pure, Except.pure]
    rw [if_pos this]
  | timed S =>
    obtain ⟨A, h1, _, h3⟩ := TSet.getAlphabet_timed S hS
    unfold prepare withInit
    dsimp only
    rw [h1]
    have : (Sym.obs "init") ∈ A := (h3 _).2 hi
    simp only [bind, Except.bind, pure, Except.pure]
    rw [if_pos this]

/-- `fit_parameters` refuses a list with a name that is not declared in the model. -/
theorem fitParameters_unknown (processes : ℕ) (S : Traces) (M : PCTMC ℝ) (toUpdate : List String) (epsilon : ℝ) (maxIt : ℕ)
    (lo hi : Option ℝ) (rounds : List (List ℝ)) (h : ∃ p ∈ toUpdate, p ∉ M.names) :
    M.fitParameters processes S toUpdate epsilon maxIt lo hi rounds = .error .runtimeError := by
  unfold fitParameters
  rw [if_pos h]

theorem fitParameters_inv {processes : ℕ} {S : Traces} {M : PCTMC ℝ} {toUpdate : List String} {epsilon : ℝ} {maxIt : ℕ}
    {lo hi : Option ℝ} {rounds : List (List ℝ)} {d : List (String × Option ℝ)} {M' : PCTMC ℝ}
    (h : M.fitParameters processes S toUpdate epsilon maxIt lo hi rounds = .ok (some (d, M'))) :
    (∀ p ∈ toUpdate, p ∈ M.names) ∧ ∃ A S' M1, labelsOf S = .ok A ∧ prepare S = .ok S' ∧
      (M.reduceForTraces A).start lo hi rounds = .ok (some M1) ∧ M1.estimate processes S' toUpdate epsilon maxIt = .ok (d, M') := by
  unfold fitParameters at h
  split_ifs at h with hu
  push Not at hu
  obtain ⟨A, hA, h⟩ := (Except.bind_eq_ok _ _ _).1 h
  obtain ⟨S', hS', h⟩ := (Except.bind_eq_ok _ _ _).1 h
  obtain ⟨o, ho, h⟩ := (Except.bind_eq_ok _ _ _).1 h
  cases o with
  | none => simp [pure, Except.pure] at h
  | some M1 =>
    obtain ⟨r, hr, h⟩ := (Except.bind_eq_ok _ _ _).1 h
    simp only [pure, Except.pure, Except.ok.injEq, Option.some.injEq] at h
    subst h
    exact ⟨hu, A, S', M1, hA, hS', ho, hr⟩

/-- `fit_parameters` is the sequence of its steps. -/
theorem fitParameters_ok {processes : ℕ} {S : Traces} {M : PCTMC ℝ} {toUpdate : List String} {epsilon : ℝ} {maxIt : ℕ}
    {lo hi : Option ℝ} {rounds : List (List ℝ)} {r : List (String × Option ℝ) × PCTMC ℝ}
    (hu : ∀ p ∈ toUpdate, p ∈ M.names) {A : List String} {S' : Traces} {M1 : PCTMC ℝ} (hA : labelsOf S = .ok A)
    (hS' : prepare S = .ok S') (hM1 : (M.reduceForTraces A).start lo hi rounds = .ok (some M1))
    (he : M1.estimate processes S' toUpdate epsilon maxIt = .ok r) :
    M.fitParameters processes S toUpdate epsilon maxIt lo hi rounds = .ok (some r) := by
  unfold fitParameters
  rw [if_neg (by push Not; exact hu), hA]
  show (do let S' ← prepare S; _) = _
  rw [hS']
  show (do let o ← (M.reduceForTraces A).start lo hi rounds; _) = _
  rw [hM1]
  show (do let r ← M1.estimate processes S' toUpdate epsilon maxIt; _) = _
  rw [he]
  rfl

theorem instantiateLoop_frame (M : PCTMC ℝ) (hM : M.WF) (ps : List String) (lo hi : ℝ) (rounds : List (List ℝ)) (M' : PCTMC ℝ)
    (h : M.instantiateLoop ps lo hi rounds = .ok (some M')) :
    M' = { M with values := M'.values } ∧ ∀ p, p ∉ ps → M'.values.lookup p = M.values.lookup p := by
  induction rounds with
  | nil => simp [instantiateLoop] at h
  | cons r rounds ih =>
    unfold instantiateLoop at h
    by_cases hr : M.RatesOK M.values
    · obtain ⟨M2, h1, h2, h3⟩ := (M.instantiate_spec hM ps (r.map (fun u => u * (hi - lo) + lo))).1 hr
      rw [h1] at h
      simp only [bind, Except.bind, if_true, pure, Except.pure, Except.ok.injEq, Option.some.injEq] at h
      subst h
      refine ⟨h2, fun p hp => ?_⟩
      rw [h3, assign_not_mem]
      intro hm
      obtain ⟨x, hx, rfl⟩ := List.mem_map.1 hm
      exact hp (List.of_mem_zip hx).1
    · rw [(M.instantiate_spec hM ps (r.map (fun u => u * (hi - lo) + lo))).2 hr] at h
      exact ih h

theorem start_frame (M : PCTMC ℝ) (hM : M.WF) (lo hi : Option ℝ) (rounds : List (List ℝ)) (M' : PCTMC ℝ)
    (h : M.start lo hi rounds = .ok (some M')) :
    M' = { M with values := M'.values } ∧ ∀ p ∈ M.names, (lo = none ∧ hi = none) ∨ (∃ x, M.values.lookup p = some x) →
      M'.values.lookup p = M.values.lookup p := by
  unfold start at h
  split_ifs at h with hn
  · simp only [Except.ok.injEq, Option.some.injEq] at h
    subst h
    exact ⟨rfl, fun _ _ _ => rfl⟩
  · unfold randomInstantiation at h
    obtain ⟨h1, h2⟩ := M.instantiateLoop_frame hM _ _ _ _ _ h
    refine ⟨h1, fun p _ hp => h2 p ?_⟩
    rcases hp with hp | ⟨x, hx⟩
    · exact absurd hp hn
    · simp [defaultParameters, hasValue, hx]

/-- C73: when `fit_parameters` returns, the model is the given one restricted to the states whose label is observed in the
traces (same rate expressions, labels, initial probabilities, recorded transitions), apart from the values of the
parameters; a parameter that was not asked for keeps its value, if it has one or if no bound for random values is given;
the returned dictionary has the requested names, with their values in the model after the call. -/
theorem fitParameters_frame (processes : ℕ) (S : Traces) (hS : Typed S) (M : PCTMC ℝ) (hM : M.WF) (hI : M.IndexesInRange)
    (toUpdate : List String) (epsilon : ℝ) (maxIt : ℕ) (lo hi : Option ℝ) (rounds : List (List ℝ))
    (d : List (String × Option ℝ)) (M' : PCTMC ℝ)
    (h : M.fitParameters processes S toUpdate epsilon maxIt lo hi rounds = .ok (some (d, M'))) :
    (∃ keep, Restricts { M' with values := M.values } M keep ∧
      ∀ k < M.matrix.length, k ∈ keep ↔ Shows S (M.labelling.getD k "")) ∧
    (∀ p ∈ M.names, p ∉ toUpdate → (lo = none ∧ hi = none) ∨ (∃ x, M.values.lookup p = some x) →
      M'.values.lookup p = M.values.lookup p) ∧
    d = toUpdate.map (fun p => (p, M'.values.lookup p)) := by
  obtain ⟨hu, A, S', M1, hA, hS', hM1, he⟩ := fitParameters_inv h
  obtain ⟨A', hA', hmem⟩ := labelsOf_spec S hS
  rw [hA] at hA'
  injection hA' with hA'
  subst hA'
  obtain ⟨keep, hR, hk, _⟩ := M.reduceForTraces_spec hM hI A
  have hwf := M.reduceForTraces_wf hM A
  obtain ⟨h1, h2⟩ := (M.reduceForTraces A).start_frame hwf lo hi rounds M1 hM1
  have hwf1 : M1.WF := by
    rw [h1]
    exact ⟨hwf.square, hwf.labels, hwf.init, hwf.bound, hwf.declared⟩
  obtain ⟨h3, h4, h5⟩ := M1.estimate_frame processes S' hwf1 toUpdate epsilon maxIt d M' he
  refine ⟨⟨keep, ?_, fun k hk' => by rw [hk k hk', hmem]⟩, ?_, h5⟩
  · have : { M' with values := M.values } = M.reduceForTraces A := by
      rw [h3, h1, ← hR.values]
    rw [this]
    exact hR
  · intro p hp hpu hv
    rw [h4 p hpu, h2 p (by rw [hR.names]; exact hp) (by rw [hR.values]; exact hv), hR.values]

/-- C72, timed traces: if the traces contain the label 'init' and no random values are asked for, the log-density of the
training set under the model after the call is at least the one under the given model restricted to the labels of the
traces; if every label of the model is observed, at least the one under the given model. -/
theorem fitParameters_monotone_partial (processes : ℕ) (S : TSet (Sym String)) (hT : S.type = some 4) (M : PCTMC ℝ) (hI : M.IndexesInRange)
    (toUpdate : List String) (h : M.Estimable (M.names.filter (fun p => p ∉ toUpdate))) (epsilon : ℝ) (maxIt : ℕ)
    (rounds : List (List ℝ)) (hinit : Shows (.timed S) "init")
    (hS : CTMC.TimedSet S) (hw : WaitsNonneg S) (hlen : S.times.length = S.sequences.length) (ht : ∀ t ∈ S.times, 1 ≤ t)
    (d : List (String × Option ℝ)) (M' : PCTMC ℝ)
    (hf : M.fitParameters processes (.timed S) toUpdate epsilon maxIt none none rounds = .ok (some (d, M'))) :
    (∃ R keep, Restricts R M keep ∧ (∀ k < M.matrix.length, k ∈ keep ↔ Shows (.timed S) (M.labelling.getD k "")) ∧
      avgLogLik R.density S ≤ avgLogLik M'.density S) ∧
    ((∀ a ∈ M.labelling, Shows (.timed S) a) → avgLogLik M.density S ≤ avgLogLik M'.density S) ∧
    M'.Estimable (M.names.filter (fun p => p ∉ toUpdate)) := by
  obtain ⟨hu, A, S', M1, hA, hS', hM1, he⟩ := fitParameters_inv hf
  obtain ⟨A', hA', hmem⟩ := labelsOf_spec (.timed S) hT
  rw [hA] at hA'
  injection hA' with hA'
  subst hA'
  rw [prepare_spec (.timed S) hT hinit] at hS'
  injection hS' with hS'
  subst hS'
  have : M.reduceForTraces A = M1 := by
    unfold start at hM1
    rw [if_pos ⟨rfl, rfl⟩] at hM1
    simpa using hM1
  subst this
  obtain ⟨keep, hR, hk, _⟩ := M.reduceForTraces_spec h.wf hI A
  have hE := h.reduce hI A
  have hn : (M.reduceForTraces A).names = M.names := hR.names
  rw [← hn] at hE
  obtain ⟨h1, h2⟩ := estimate_monotone_partial processes S _ toUpdate hE epsilon maxIt hS hw hlen ht d M' he
  rw [hn] at h2
  refine ⟨⟨_, keep, hR, fun k hk' => by rw [hk k hk', hmem], h1⟩, fun hall => ?_, h2⟩
  rw [← (reduce_same h.wf hI A (fun a ha => (hmem a).2 (hall a ha))).1]
  exact h1

/-- C72, untimed traces: the same, for the probability of the traces, when each state has a positive rate that does not
depend on the estimated parameters and leads to a state whose label is observed. -/
theorem fitParameters_untimed_monotone_partial (processes : ℕ) (S : TSet String) (hT : S.type = some 0) (M : PCTMC ℝ)
    (hI : M.IndexesInRange) (toUpdate : List String) (h : M.Estimable (M.names.filter (fun p => p ∉ toUpdate))) (epsilon : ℝ)
    (maxIt : ℕ) (rounds : List (List ℝ)) (hinit : Shows (.untimed S) "init") (hall : ∀ a ∈ M.labelling, Shows (.untimed S) a)
    (hi : M.initialState.sum = 1) (hS : ∀ w ∈ S.sequences, 2 ≤ w.length) (hlen : S.times.length = S.sequences.length)
    (ht : ∀ t ∈ S.times, 1 ≤ t)
    (hconst : ∀ s < M.matrix.length, ∃ j < M.matrix.length, 0 < (M.rateExpr s j).den (fun p => (M.values.lookup p).getD 0) ∧
      ∀ p ∈ toUpdate, ¬ (M.rateExpr s j).Occurs p)
    (d : List (String × Option ℝ)) (M' : PCTMC ℝ)
    (hf : M.fitParameters processes (.untimed S) toUpdate epsilon maxIt none none rounds = .ok (some (d, M'))) :
    avgLogLik M.lik S ≤ avgLogLik M'.lik S ∧ M'.Estimable (M.names.filter (fun p => p ∉ toUpdate)) := by
  obtain ⟨hu, A, S', M1, hA, hS', hM1, he⟩ := fitParameters_inv hf
  obtain ⟨A', hA', hmem⟩ := labelsOf_spec (.untimed S) hT
  rw [hA] at hA'
  injection hA' with hA'
  subst hA'
  rw [prepare_spec (.untimed S) hT hinit] at hS'
  injection hS' with hS'
  subst hS'
  have : M.reduceForTraces A = M1 := by
    unfold start at hM1
    rw [if_pos ⟨rfl, rfl⟩] at hM1
    simpa using hM1
  subst this
  obtain ⟨keep, hR, hk, _⟩ := M.reduceForTraces_spec h.wf hI A
  have hE := h.reduce hI A
  have hn : (M.reduceForTraces A).names = M.names := hR.names
  rw [← hn] at hE
  have hrange := restricts_all h.wf hR (fun k hk' => (hk k hk').2 ((hmem _).2 (hall _ (by
      rw [List.getD_eq_getElem?_getD, List.getElem?_eq_getElem (by rw [h.wf.labels]; exact hk')]
      exact List.getElem_mem _))))
  obtain ⟨hlen', hrate, hlab, hin⟩ := hrange
  obtain ⟨h1, h2⟩ := estimate_untimed_monotone_partial processes S _ toUpdate hE epsilon maxIt (by rw [hin]; exact hi) hS hlen ht
    (by
      intro s hs
      rw [hlen'] at hs
      obtain ⟨j, hj, hpos, hocc⟩ := hconst s hs
      refine ⟨j, by rw [hlen']; exact hj, ?_, ?_⟩
      · rw [hrate s hs j hj, hR.values]; exact hpos
      · rw [hrate s hs j hj]; exact hocc)
    d M' he
  rw [hn] at h2
  rw [← (reduce_same h.wf hI A (fun a ha => (hmem a).2 (hall a ha))).2]
  exact ⟨h1, h2⟩

end PCTMC
end Jajapy
