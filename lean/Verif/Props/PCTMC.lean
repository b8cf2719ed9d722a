import Verif.Lemmas.PCTMC
import Verif.Props.Create
import Verif.Props.CTMC

/-!
Property theorems for parametric CTMCs: instantiation (C45) and agreement with the CTMC of the evaluated rates (C46).
-/

set_option linter.unusedSectionVars false

namespace Jajapy

open Finset Spec Tools BW

section
variable {K : Type} [Field K] [LinearOrder K]

/-! ### C46: expressions -/

namespace Expr

/-- C46: evaluating an expression with a dictionary of values gives its usual value as soon as every parameter that occurs
in it has a value, and stays symbolic otherwise. -/
theorem eval_spec (x : Expr K) (v : Valuation K) :
    ((∀ p, x.Occurs p → Known v p) → ∀ ρ, Extends ρ v → x.eval v = some (x.den ρ)) ∧
    ((∃ p, x.Occurs p ∧ ¬ Known v p) → x.eval v = none) :=
  ⟨fun h ρ hρ => x.eval_some v h ρ hρ, fun h => x.eval_none v h⟩

/-- C46: the evaluation depends on the values of the parameters that occur in the expression and on nothing else. -/
theorem eval_congr (x : Expr K) (v w : Valuation K) (h : ∀ p, x.Occurs p → v.lookup p = w.lookup p) : x.eval v = x.eval w := by
  induction x with
  | num c => rfl
  | sym q => exact h q .sym
  | add a b iha ihb => simp only [eval, iha (fun p hp => h p (.addL _ _ hp)), ihb (fun p hp => h p (.addR _ _ hp))]
  | mul a b iha ihb => simp only [eval, iha (fun p hp => h p (.mulL _ _ hp)), ihb (fun p hp => h p (.mulR _ _ hp))]
  | pow a k iha => simp only [eval, iha (fun p hp => h p (.pow _ _ hp))]

/-- Non-vacuity: `2*x^2*y + 3` at x = 5, y = 1/2, with an irrelevant z, is 28; without a value for y it stays symbolic. -/
example : (add (mul (mul (num 2) (pow (sym "x") 2)) (sym "y")) (num 3) : Expr ℚ).eval [("x", 5), ("z", 7), ("y", 1/2)] = some 28 ∧
    (add (mul (mul (num 2) (pow (sym "x") 2)) (sym "y")) (num 3) : Expr ℚ).eval [("x", 5), ("z", 7)] = none := by
  decide +kernel

end Expr

namespace PCTMC

/-! ### The constructor -/

/-- The constructor accepts a square array of indexes exactly when a label is 'init', the two lists of the parameters have
the same length, there is a state, every index is one of an expression and every state has one label; the model is then the
given one, with the initial distribution uniform over the states labelled 'init'. -/
theorem mkPCTMC_ok_iff [IsStrictOrderedRing K] [FloorRing K] (matrix : List (List ℕ)) (labelling : List String)
    (exprs : List (Expr K)) (values : List (String × Option K)) (indexes : List (List (ℕ × ℕ))) (names : List String)
    (sync : List (ℕ × String × ℕ × Expr K)) (hsq : ∀ row ∈ matrix, row.length = matrix.length) (M : PCTMC K) :
    mkPCTMC matrix labelling exprs values indexes names sync = .ok M ↔
      ("init" ∈ labelling ∧ indexes.length = names.length ∧ (∀ row ∈ matrix, ∀ t ∈ row, t < exprs.length) ∧
       labelling.length = matrix.length) ∧
      M.matrix = matrix ∧ M.labelling = labelling ∧ M.exprs = exprs ∧ M.indexes = indexes ∧ M.names = names ∧ M.sync = sync ∧
      M.values = values.filterMap (fun p => p.2.map (fun x => (p.1, x))) ∧
      M.initialState = labelling.map (fun i => if i = "init" then 1 / (labelling.count "init" : K) else 0) := by
  unfold mkPCTMC
  by_cases h1 : "init" ∈ labelling
  swap
  · rw [if_pos h1]; simp [h1]
  rw [if_neg (not_not.2 h1)]
  by_cases h2 : indexes.length = names.length
  swap
  · rw [if_pos h2]; simp [h2]
  rw [if_neg (not_not.2 h2)]
  have hlab : 0 < labelling.length := List.length_pos_of_mem h1
  cases hm : matrix.flatten.max? with
  | none =>
    rw [List.max?_eq_none_iff] at hm
    have : matrix.length = 0 := by
      cases hmm : matrix with
      | nil => rfl
      | cons r rs =>
        exfalso
        have hr : r ∈ matrix := by rw [hmm]; simp
        have := hsq r hr
        have : r = [] := by rw [List.flatten_eq_nil_iff] at hm; exact hm r hr
        subst this
        rw [hmm] at *
        simp at *
    simp only [reduceCtorEq, false_iff]
    rintro ⟨⟨_, _, _, h⟩, _⟩
    omega
  | some m =>
    simp only
    have hmax : (∀ row ∈ matrix, ∀ t ∈ row, t < exprs.length) ↔ m < exprs.length := by
      have hm' := List.max?_eq_some_iff.1 hm
      constructor
      · intro h
        obtain ⟨row, hr, ht⟩ := List.mem_flatten.1 hm'.1
        exact h row hr m ht
      · intro h row hr t ht
        exact lt_of_le_of_lt (hm'.2 t (List.mem_flatten.2 ⟨row, hr, ht⟩)) h
    by_cases h3 : m < exprs.length
    swap
    · rw [if_pos (not_lt.1 h3)]
      simp only [reduceCtorEq, false_iff]
      rintro ⟨⟨_, _, h, _⟩, _⟩
      exact h3 (hmax.1 h)
    rw [if_neg (not_le.2 h3)]
    by_cases h4 : labelling.length = matrix.length
    swap
    · rw [if_pos h4]
      simp only [reduceCtorEq, false_iff]
      rintro ⟨⟨_, _, _, h⟩, _⟩
      exact h4 h
    rw [if_neg (not_not.2 h4)]
    have hsum : roundHalfEven (initFromLabels labelling : List K).sum = 1 := by
      rw [initFromLabels_sum _ h1, roundHalfEven_eq_one]
      norm_num
    unfold modelInit
    simp only [hsum, ne_eq, not_true_eq_false, if_false, bind, Except.bind, pure, Except.pure, Except.ok.injEq]
    constructor
    · rintro rfl
      exact ⟨⟨h1, h2, hmax.2 h3, h4⟩, rfl, rfl, rfl, rfl, rfl, rfl, rfl, rfl⟩
    · rintro ⟨_, e1, e2, e3, e4, e5, e6, e7, e8⟩
      obtain ⟨a, b, c, d, e, f, g, i⟩ := M
      simp only at e1 e2 e3 e4 e5 e6 e7 e8
      subst e1 e2 e3 e4 e5 e6 e7 e8
      rfl

/-- The models that the constructor accepts have the shape assumed below. -/
theorem mkPCTMC_wf [IsStrictOrderedRing K] [FloorRing K] (matrix : List (List ℕ)) (labelling : List String)
    (exprs : List (Expr K)) (values : List (String × Option K)) (indexes : List (List (ℕ × ℕ))) (names : List String)
    (sync : List (ℕ × String × ℕ × Expr K)) (hsq : ∀ row ∈ matrix, row.length = matrix.length)
    (hdecl : ∀ x ∈ exprs, ∀ p, x.Occurs p → p ∈ names) (M : PCTMC K)
    (h : mkPCTMC matrix labelling exprs values indexes names sync = .ok M) : M.WF := by
  obtain ⟨⟨_, _, h3, h4⟩, e1, e2, e3, _, e5, _, _, e8⟩ := (mkPCTMC_ok_iff _ _ _ _ _ _ _ hsq M).1 h
  refine ⟨?_, ?_, ?_, ?_, ?_⟩
  · rw [e1]; exact hsq
  · rw [e1, e2]; exact h4
  · rw [e1, e8, List.length_map]; exact h4
  · rw [e1, e3]; exact h3
  · rw [e3, e5]; exact hdecl

/-! ### C46: rates, exit rates, probabilities -/

/-- C46: `evaluateTransition(i,j)` (and `transitionValue`) is the value of the expression of the rate, and stays symbolic when
one of its parameters has no value; ids out of range raise IndexError. -/
theorem evaluate_spec (M : PCTMC K) (hM : M.WF) (i j : ℕ) :
    (i < M.matrix.length → j < M.matrix.length →
      ((∀ p, (M.rateExpr i j).Occurs p → Known M.values p) → ∀ ρ, Extends ρ M.values →
        M.evaluate i j = .ok (some ((M.rateExpr i j).den ρ))) ∧
      ((∃ p, (M.rateExpr i j).Occurs p ∧ ¬ Known M.values p) → M.evaluate i j = .ok none)) ∧
    (¬ (i < M.matrix.length ∧ j < M.matrix.length) → M.evaluate i j = .error .indexError) := by
  constructor
  · intro hi hj
    rw [M.evaluate_eq hM hi hj]
    exact ⟨fun h ρ hρ => by rw [Expr.eval_some _ _ h ρ hρ], fun h => by rw [Expr.eval_none _ _ h]⟩
  · intro h
    unfold evaluate evaluateWith
    rw [M.transitionExpression_out hM h]
    rfl

/-- C46: `isInstantiated()` says whether every declared parameter has a value. -/
theorem isInstantiated_spec (M : PCTMC K) : M.isInstantiated = true ↔ M.Full := M.isInstantiated_iff

/-- C46: the exit rate is the sum of the values of the rates when the state is instantiated, and a ValueError otherwise. -/
theorem e_spec (M : PCTMC K) (hM : M.WF) (s : Fin M.matrix.length) (ρ : String → K) (hρ : Extends ρ M.values) :
    ((∀ j : Fin M.matrix.length, ∀ p, (M.rateExpr s j).Occurs p → Known M.values p) → M.e s = .ok ((M.chain ρ).e s)) ∧
    ((∃ j : Fin M.matrix.length, ∃ p, (M.rateExpr s j).Occurs p ∧ ¬ Known M.values p) → M.e s = .error .valueError) := by
  constructor
  · intro h
    exact (M.e_eq hM s.2).1 (fun j hj p hp => h ⟨j, hj⟩ p hp) ρ hρ
  · rintro ⟨j, p, hp, hk⟩
    exact (M.e_eq hM s.2).2 (fun h => hk (h j j.2 p hp))

/-- C46: in a fully instantiated model the methods `e`, `l`, `tau` and `expected_time` give the values of the CTMC of the
evaluated rates, for the states that have a positive exit rate. -/
theorem methods_spec_partial (M : PCTMC K) (hM : M.WF) (hF : M.Full) (ρ : String → K) (hρ : Extends ρ M.values)
    (s s' : Fin M.matrix.length) (o : String) :
    M.e s = .ok ((M.chain ρ).e s) ∧
    M.l s s' o = .ok (some ((M.chain ρ).l s s' o)) ∧
    ((M.chain ρ).e s ≠ 0 → M.tau s s' o = .ok (.fin ((M.chain ρ).tau s s' o)) ∧
      M.expectedTime s = .ok (.fin ((M.chain ρ).expectedTime s))) := by
  have hs := M.stateFull_of_full hM hF s.2
  have he : M.e s = .ok ((M.chain ρ).e s) := (M.e_eq hM s.2).1 hs ρ hρ
  have hl : M.l s s' o = .ok (some ((M.chain ρ).l s s' o)) := by
    rw [M.l_eq hM s.2 s'.2, Expr.eval_some _ _ (hs s' s'.2) ρ hρ]
    unfold CTMC.l
    show Except.ok (if M.labelling.getD s "" ≠ o then some 0 else some ((M.rateExpr s s').den ρ)) =
      Except.ok (some (if M.labelling.getD s "" ≠ o then 0 else (M.rateExpr s s').den ρ))
    by_cases h : M.labelling.getD s "" ≠ o
    · rw [if_pos h, if_pos h]
    · rw [if_neg h, if_neg h]
  refine ⟨he, hl, fun h0 => ⟨?_, ?_⟩⟩
  · unfold tau
    rw [he]
    simp only [orNothing]
    rw [if_neg h0, hl]
    rfl
  · unfold expectedTime
    rw [he]
    simp only [orNothing]
    rw [if_neg h0]
    rfl

/-- C46: `lkl` agrees with the one of the CTMC, for every state and time. -/
theorem lkl_spec (M : PCTMC ℝ) (hM : M.WF) (hF : M.Full) (ρ : String → ℝ) (hρ : Extends ρ M.values)
    (s : Fin M.matrix.length) (t : ℝ) : M.lkl s t = .ok (.fin ((M.chain ρ).lkl s t)) := by
  have he : M.e s = .ok ((M.chain ρ).e s) := (M.e_eq hM s.2).1 (M.stateFull_of_full hM hF s.2) ρ hρ
  unfold lkl CTMC.lkl
  by_cases ht : t < 0
  · rw [if_pos ht, if_pos ht]
  · rw [if_neg ht, if_neg ht, he]
    rfl

/-- C46, what happens without values: `tau`, `expected_time` and `lkl` return nothing instead of raising. -/
theorem methods_symbolic (M : PCTMC K) (hM : M.WF) (s : Fin M.matrix.length)
    (h : ∃ j : Fin M.matrix.length, ∃ p, (M.rateExpr s j).Occurs p ∧ ¬ Known M.values p) (s' : ℕ) (o : String) :
    M.e s = .error .valueError ∧ M.tau s s' o = .ok .nothing ∧ M.expectedTime s = .ok .nothing := by
  have he := (M.e_spec hM s _ (valOf_extends M.values)).2 h
  refine ⟨he, ?_, ?_⟩
  · unfold tau; rw [he]; rfl
  · unfold expectedTime; rw [he]; rfl

/-- C46: the conversion to a CTMC gives the CTMC of the evaluated rates, and a ValueError if a parameter has no value. -/
theorem toCTMC_spec [IsStrictOrderedRing K] [FloorRing K] (M : PCTMC K) (hM : M.WF)
    (hi : "init" ∈ M.labelling ∧
      M.initialState = M.labelling.map (fun i => if i = "init" then 1 / (M.labelling.count "init" : K) else 0))
    (ρ : String → K) (hρ : Extends ρ M.values) :
    (M.Full → M.toCTMC = .ok (M.chain ρ)) ∧ (¬ M.Full → M.toCTMC = .error .valueError) := by
  constructor
  · intro hF
    unfold toCTMC
    rw [if_neg (by rw [M.isInstantiated_iff.2 hF]; simp)]
    rw [mapM_range _ (fun s => (List.range M.nb).map (fun ss => some ((M.rateExpr s ss).den ρ)))]
    · simp only [bind, Except.bind]
      rw [if_pos]
      · unfold mkCTMC
        rw [baseMCInit_ok M.nb M.labelling hi.1 hM.labels]
        simp only [bind, Except.bind, pure, Except.pure]
        refine congrArg Except.ok ?_
        unfold chain
        refine (CTMC.mk.injEq ..).mpr ⟨?_, ?_, ?_⟩
        · funext i j
          simp only [List.getD_eq_getElem?_getD, List.getElem?_map, List.getElem?_range i.2, Option.map_some, Option.getD_some,
            List.getElem?_range j.2]
        · funext s
          have hs : (s : ℕ) < M.labelling.length := by rw [hM.labels]; exact s.2
          rw [List.getD_eq_getElem?_getD, List.getElem?_eq_getElem hs]
          rfl
        · funext s
          rw [hi.2]
          rfl
      · simp
    · intro s hs
      exact mapM_range _ _ (fun ss hss => by
        rw [M.evaluate_eq hM hs hss, Expr.eval_some _ _ (M.stateFull_of_full hM hF hs ss hss) ρ hρ])
  · intro h
    unfold toCTMC
    rw [if_pos]
    have := mt M.isInstantiated_iff.1 h
    simpa using this

/-! ### C46: likelihood of timed traces -/

/-- C46, one timed trace: the number whose logarithm is taken is the density of the trace in the CTMC of the evaluated
rates. -/
theorem timedSum_spec (M : PCTMC ℝ) (hM : M.WF) (hF : M.Full) (ρ : String → ℝ) (hρ : Extends ρ M.values)
    (w : List (Sym String)) (hw : IsTimed w) : M.timedSum w = .ok ((M.chain ρ).density w) := by
  rw [M.timedSum_eq hM hF ρ hρ, CTMC.timedSum_spec _ w hw]

/-- C46, a timed set all of whose traces are possible: `logLikelihood` is the average log-density in the CTMC of the evaluated
rates. What is missing: traces with density 0 (`logLikelihood_impossible`) and untimed traces (`logLikelihood_untimed`). -/
theorem logLikelihood_spec_partial (M : PCTMC ℝ) (hM : M.WF) (hF : M.Full) (ρ : String → ℝ) (hρ : Extends ρ M.values)
    (cpus : ℕ) (hc : 2 ≤ cpus) (S : TSet (Sym String)) (hS : ∀ w ∈ S.sequences, IsTimed w) (hne : S.times.sum ≠ 0)
    (hpos : ∀ w ∈ S.sequences, 0 < (M.chain ρ).density w) :
    M.logLikelihood cpus (.timed S) = .ok (avgLogLik (M.chain ρ).density S) := by
  classical
  unfold logLikelihood
  dsimp only
  rw [if_neg (by rw [M.isInstantiated_iff.2 hF]; simp), if_neg (by omega)]
  rw [List.mapM_ok _ (fun p => Real.log ((M.chain ρ).density p.1) * p.2)]
  · simp only [bind, Except.bind, pure, Except.pure]
    rw [if_neg hne]
    unfold avgLogLik
    have key : ∀ l : List (List (Sym String) × ℕ), (∀ p ∈ l, 0 < (M.chain ρ).density p.1) →
        ((l.map (fun p => Real.log ((M.chain ρ).density p.1) * p.2)).filter (fun x => decide (x ≠ 0))).sum =
        ((l.filter (fun p => 0 < (M.chain ρ).density p.1)).map (fun p => p.2 * Real.log ((M.chain ρ).density p.1))).sum := by
      intro l hl
      induction l with
      | nil => rfl
      | cons p l ih =>
        have ih := ih (fun q hq => hl q (List.mem_cons_of_mem _ hq))
        have h0 := hl p List.mem_cons_self
        rw [List.filter_cons, if_pos (by simpa using h0), List.map_cons, List.map_cons, List.filter_cons, List.sum_cons, ← ih]
        by_cases h : Real.log ((M.chain ρ).density p.1) * p.2 = 0
        · rw [if_neg (by rw [decide_eq_true_eq]; exact not_not.2 h), mul_comm (p.2 : ℝ), h, zero_add]
        · rw [if_pos (by rw [decide_eq_true_eq]; exact h), List.sum_cons, mul_comm (p.2 : ℝ)]
    rw [key _ (fun p hp => hpos _ (List.of_mem_zip hp).1)]
  · intro p hp
    unfold computeAlphasTimed
    have hw := (List.of_mem_zip hp).1
    rw [M.timedSum_spec hM hF ρ hρ _ (hS _ hw)]
    simp only [bind, Except.bind]
    rw [if_pos (hpos _ hw)]
    rfl

/-- C46, disagreement: a single impossible trace makes `logLikelihood` raise ValueError, although the CTMC of the same rates
reports a number. -/
theorem logLikelihood_impossible (M : PCTMC ℝ) (hM : M.WF) (hF : M.Full) (ρ : String → ℝ) (hρ : Extends ρ M.values)
    (cpus : ℕ) (S : TSet (Sym String)) (hlen : S.times.length = S.sequences.length) (hS : ∀ w ∈ S.sequences, IsTimed w)
    (hno : ∃ w ∈ S.sequences, (M.chain ρ).density w ≤ 0) : M.logLikelihood cpus (.timed S) = .error .valueError := by
  classical
  unfold logLikelihood
  dsimp only
  rw [if_neg (by rw [M.isInstantiated_iff.2 hF]; simp)]
  by_cases hc : cpus < 2
  · rw [if_pos hc]
  rw [if_neg hc]
  have hcomp : ∀ w ∈ S.sequences, ∀ t, M.computeAlphasTimed w t =
      if 0 < (M.chain ρ).density w then .ok (Real.log ((M.chain ρ).density w) * t) else .error .valueError := by
    intro w hw t
    unfold computeAlphasTimed
    rw [M.timedSum_spec hM hF ρ hρ _ (hS _ hw)]
    rfl
  have : (S.sequences.zip S.times).mapM (fun p => M.computeAlphasTimed p.1 p.2) = .error .valueError := by
    obtain ⟨w, hw, h0⟩ := hno
    obtain ⟨t, htm⟩ := mem_zip_of_mem S hlen w hw
    have hall : ∀ p ∈ S.sequences.zip S.times, p.1 ∈ S.sequences := fun p hp => (List.of_mem_zip hp).1
    generalize S.sequences.zip S.times = l at htm hall
    induction l with
    | nil => simp at htm
    | cons p l ih =>
      rw [List.mapM_cons, hcomp _ (hall p List.mem_cons_self)]
      by_cases hp : 0 < (M.chain ρ).density p.1
      · rw [if_pos hp]
        have hm : (w, t) ∈ l := by
          rcases List.mem_cons.1 htm with h | h
          · rw [← h] at hp; exact absurd hp (not_lt.2 h0)
          · exact h
        simp only [bind, Except.bind]
        rw [ih hm (fun q hq => hall q (List.mem_cons_of_mem _ hq))]
      · rw [if_neg hp]; rfl
  rw [this]
  rfl

/-- C46, disagreement: the log-likelihood of untimed traces is never computed. The class has no method `b`, which the
inherited computation calls: AttributeError for every set with at least one trace. -/
theorem logLikelihood_untimed (M : PCTMC ℝ) (hF : M.Full) (cpus : ℕ) (hc : 2 ≤ cpus) (S : TSet String)
    (hlen : S.times.length = S.sequences.length) (hne : S.sequences ≠ []) :
    M.logLikelihood cpus (.untimed S) = .error .attributeError := by
  unfold logLikelihood
  dsimp only
  rw [if_neg (by rw [M.isInstantiated_iff.2 hF]; simp), if_neg (by omega), if_neg]
  intro h
  rw [List.zip_eq_nil_iff] at h
  rcases h with h | h
  · exact hne h
  · rw [h] at hlen; exact hne (List.length_eq_zero_iff.1 hlen.symm)

/-- A model that is not fully instantiated refuses to compute a log-likelihood. -/
theorem logLikelihood_refused (M : PCTMC ℝ) (hF : ¬ M.Full) (cpus : ℕ) (S : Traces) :
    M.logLikelihood cpus S = .error .valueError := by
  have : M.isInstantiated = false := by simpa using mt M.isInstantiated_iff.1 hF
  cases S <;> simp [logLikelihood, this]

/-! ### Examples -/

/-- A model with two parameters: a -> b with rate 2x, b -> a with rate y², and the initial state. -/
def exModel (K : Type) [Field K] (values : Valuation K) : PCTMC K where
  matrix := [[0, 1, 0], [2, 0, 0], [3, 0, 0]]
  labelling := ["a", "b", "init"]
  exprs := [.num 0, .mul (.num 2) (.sym "x"), .pow (.sym "y") 2, .num 1]
  values := values
  indexes := [[(0, 1)], [(1, 0)]]
  names := ["x", "y"]
  initialState := [0, 0, 1]
  sync := []

theorem exModel_wf (v : Valuation K) : (exModel K v).WF := by
  refine ⟨?_, rfl, rfl, ?_, ?_⟩
  · show ∀ row ∈ [[0, 1, 0], [2, 0, 0], [3, 0, 0]], row.length = 3
    decide
  · show ∀ row ∈ [[0, 1, 0], [2, 0, 0], [3, 0, 0]], ∀ t ∈ row, t < 4
    decide
  · intro x hx p hp
    rw [← Expr.mem_free] at hp
    simp only [exModel, List.mem_cons, List.not_mem_nil, or_false] at hx
    rcases hx with rfl | rfl | rfl | rfl <;> simp_all [Expr.free, exModel]

theorem exModel_full (x y : K) : (exModel K [("x", x), ("y", y)]).Full := by
  intro p hp
  simp only [exModel, List.mem_cons, List.not_mem_nil, or_false] at hp
  rcases hp with rfl | rfl
  · exact ⟨x, by simp [exModel]⟩
  · exact ⟨y, by simp [exModel]⟩

/-- Non-vacuity of `mkPCTMC_ok_iff`: the constructor accepts the data of the example. -/
example : (match mkPCTMC (K := ℚ) [[0, 1, 0], [2, 0, 0], [3, 0, 0]] ["a", "b", "init"]
    [.num 0, .mul (.num 2) (.sym "x"), .pow (.sym "y") 2, .num 1] [("x", some (1/2)), ("y", none)] [[(0, 1)], [(1, 0)]] ["x", "y"] [] with
    | .ok M => decide (M.initialState = [0, 0, 1] ∧ M.values = [("x", 1/2)]) | .error _ => false) = true := by decide +kernel

/-- Non-vacuity of `methods_spec_partial`: the exit rate of b is 9, the probability to move to a is 1. -/
example : (exModel ℚ [("x", 1/2), ("y", 3)]).e 1 = .ok 9 ∧ (exModel ℚ [("x", 1/2), ("y", 3)]).tau 1 0 "b" = .ok (.fin 1) ∧
    (exModel ℚ [("x", 1/2), ("y", 3)]).expectedTime 1 = .ok (.fin (1/9)) ∧ (exModel ℚ [("x", 1/2)]).tau 1 0 "b" = .ok .nothing := by
  decide +kernel

/-- C46, disagreement of `tau` with a probability: in an absorbing state `tau` is infinite, whatever the observation. -/
theorem tau_absorbing (M : PCTMC K) (hM : M.WF) (hF : M.Full) (ρ : String → K) (hρ : Extends ρ M.values)
    (s s' : Fin M.matrix.length) (o : String) (h0 : (M.chain ρ).e s = 0) : M.tau s s' o = .ok .inf := by
  have he : M.e s = .ok ((M.chain ρ).e s) := (M.e_eq hM s.2).1 (M.stateFull_of_full hM hF s.2) ρ hρ
  unfold tau
  rw [he, h0]
  unfold orNothing
  dsimp only
  rw [if_pos rfl]

/-- The hypotheses of `tau_absorbing` are met: in the example with x = 0 the state a is absorbing, and `tau` is infinite even
for an observation that the state never emits. -/
example : (exModel ℚ [("x", 0), ("y", 3)]).tau 0 1 "nothing like that" = .ok .inf := by decide +kernel

theorem density_three (M : CTMC ℝ String 3) (h0 : M.labelling 0 = "a") (h1 : M.labelling 1 = "b") (h2 : M.labelling 2 = "init")
    (i0 : M.initialState 0 = 0) (i1 : M.initialState 1 = 0) (i2 : M.initialState 2 = 1) (m20 : M.matrix 2 0 = 1)
    (m01 : M.matrix 0 1 = 1) : 0 < M.density (timed [("init", 0), ("a", 1)] "b") := by
  unfold CTMC.density
  rw [totalWeight_eq, timedSteps_timed]
  simp only [beta0, betas, bwd, List.headD, Fin.sum_univ_three, CTMC.rateStep, CTMC.lastMask, observations_timed]
  simp [h0, h1, h2, i0, i1, i2, m20, m01, Real.exp_pos]

/-- Non-vacuity of `timedSum_spec` and `logLikelihood_spec_partial`: the trace init, 0, a, 1, b has a positive density. -/
theorem exModel_density : 0 < ((exModel ℝ [("x", 1/2), ("y", 3)]).chain (valOf [("x", 1/2), ("y", 3)])).density
    (timed [("init", 0), ("a", 1)] "b") := by
  refine density_three _ rfl rfl rfl rfl rfl rfl rfl ?_
  show (2 : ℝ) * valOf [("x", 1/2), ("y", 3)] "x" = 1
  norm_num [valOf, List.lookup]

example : ∃ S : TSet (Sym String), (∀ w ∈ S.sequences, IsTimed w) ∧ S.times.sum ≠ 0 ∧ S.times.length = S.sequences.length ∧
    ∀ w ∈ S.sequences, 0 < ((exModel ℝ [("x", 1/2), ("y", 3)]).chain (valOf [("x", 1/2), ("y", 3)])).density w :=
  ⟨⟨[timed [("init", 0), ("a", 1)] "b"], [2], false, some 1⟩, by simpa using isTimed_timed _ _, by simp, rfl, by simpa using exModel_density⟩

/-! ### C45: instantiation -/

theorem lookup_map_set (v : Valuation K) (p : String) (x : K) (q : String) :
    (v.map (fun r => if r.1 = p then (p, x) else r)).lookup q =
      if q = p ∧ (v.lookup p).isSome then some x else v.lookup q := by
  induction v with
  | nil => simp [List.lookup]
  | cons r v ih =>
    rw [List.map_cons, List.lookup_cons, List.lookup_cons, List.lookup_cons, ih]
    by_cases hr : r.1 = p
    · rw [if_pos hr]
      subst hr
      by_cases hq : q = r.1
      · subst hq; simp
      · have hb : (q == r.1) = false := by simpa using hq
        simp [hb, hq]
    · rw [if_neg hr]
      have hb : (p == r.1) = false := by simpa using fun h : p = r.1 => hr h.symm
      rw [hb]
      by_cases hq : q = r.1
      · subst hq; simp [hr]
      · have hb' : (q == r.1) = false := by simpa using hq
        simp [hb']

theorem lookup_dictSet (v : Valuation K) (p : String) (x : K) (q : String) :
    (dictSet v p x).lookup q = if q = p then some x else v.lookup q := by
  unfold dictSet
  by_cases h : (v.lookup p).isSome
  · rw [if_pos h, lookup_map_set]
    by_cases hq : q = p <;> simp [hq, h]
  · rw [if_neg h, List.lookup_append]
    by_cases hq : q = p
    · subst hq
      have : v.lookup q = none := by rwa [Bool.not_eq_true, Option.isSome_eq_false_iff, Option.isNone_iff_eq_none] at h
      simp [this, List.lookup]
    · have hb : (q == p) = false := by simpa using hq
      simp [List.lookup, hb, hq]

/-- The new dictionary gives to each parameter the last of the values given for it, and keeps the other ones. -/
theorem newValues_spec (M : PCTMC K) (ps : List String) (xs : List K) (p : String) :
    (M.newValues ps xs).lookup p = assign (fun q => M.values.lookup q) (ps.zip xs) p := by
  unfold newValues
  generalize ps.zip xs = l
  generalize M.values = v
  induction l generalizing v with
  | nil => rfl
  | cons q l ih =>
    have hf : (fun r => (dictSet v q.1 q.2).lookup r) = fun r => if r = q.1 then some q.2 else v.lookup r := by
      funext r
      rw [lookup_dictSet]
    rw [List.foldl_cons, ih, hf]
    rfl

theorem checkRates_eq (M : PCTMC K) (hM : M.WF) (v : Valuation K) :
    ∃ b, M.checkRates v = .ok b ∧ (b = true ↔ M.RatesOK M.values) := by
  unfold checkRates
  simp only
  rw [List.mapM_ok _ (fun p => (M.rateExpr p.1 p.2).eval M.values)]
  swap
  · intro p hp
    rw [List.mem_filter, List.mem_flatMap] at hp
    obtain ⟨⟨x, hx, hp⟩, _⟩ := hp
    obtain ⟨y, hy, rfl⟩ := List.mem_map.1 hp
    exact M.evaluate_eq hM (List.mem_range.1 hx) (List.mem_range.1 hy)
  refine ⟨_, rfl, ?_⟩
  rw [List.all_eq_true]
  constructor
  · intro h i j hi hj hne hk ρ hρ
    have := h ((M.rateExpr i j).eval M.values) (List.mem_map.2 ⟨(i, j), ?_, rfl⟩)
    · rw [Expr.eval_some _ _ hk ρ hρ] at this
      simpa using this
    · rw [List.mem_filter, List.mem_flatMap]
      exact ⟨⟨i, List.mem_range.2 hi, List.mem_map.2 ⟨j, List.mem_range.2 hj, rfl⟩⟩, by simpa using hne⟩
  · intro h x hx
    obtain ⟨p, hp, rfl⟩ := List.mem_map.1 hx
    rw [List.mem_filter, List.mem_flatMap] at hp
    obtain ⟨⟨i, hi, hp⟩, hne⟩ := hp
    obtain ⟨j, hj, rfl⟩ := List.mem_map.1 hp
    simp only [decide_eq_true_eq] at hne
    by_cases hk : ∀ p, (M.rateExpr i j).Occurs p → Known M.values p
    · have := h i j (List.mem_range.1 hi) (List.mem_range.1 hj) hne hk _ (valOf_extends M.values)
      rw [Expr.eval_some _ _ hk _ (valOf_extends M.values)]
      simpa using this
    · push Not at hk
      rw [Expr.eval_none _ _ hk]

/-- C45, what the code does: `instantiate` accepts the new values exactly when the rates are non-negative under the OLD
values. When it accepts, each given parameter gets its value and nothing else changes; otherwise nothing changes. -/
theorem instantiate_spec (M : PCTMC K) (hM : M.WF) (ps : List String) (xs : List K) :
    (M.RatesOK M.values → ∃ M', M.instantiate ps xs = .ok (true, M') ∧ M' = { M with values := M'.values } ∧
      ∀ p, M'.values.lookup p = assign (fun q => M.values.lookup q) (ps.zip xs) p) ∧
    (¬ M.RatesOK M.values → M.instantiate ps xs = .ok (false, M)) := by
  obtain ⟨b, hb, hbr⟩ := M.checkRates_eq hM (M.newValues ps xs)
  unfold instantiate
  simp only
  rw [hb]
  constructor
  · intro h
    rw [hbr.2 h]
    exact ⟨_, rfl, rfl, fun p => M.newValues_spec ps xs p⟩
  · intro h
    have : b = false := by
      cases b
      · rfl
      · exact absurd (hbr.1 rfl) h
    rw [this]
    rfl

/-- C45 as it is stated, for the calls where the rates are valid under the new values if and only if they are under the old
ones. What is missing: the other calls, see the next theorems. -/
theorem instantiate_partial (M : PCTMC K) (hM : M.WF) (ps : List String) (xs : List K)
    (h : ∀ v : Valuation K, (∀ p, v.lookup p = assign (fun q => M.values.lookup q) (ps.zip xs) p) →
      (M.RatesOK M.values ↔ M.RatesOK v)) :
    ∃ ok M', M.instantiate ps xs = .ok (ok, M') ∧
      (ok = true → (∀ p, M'.values.lookup p = assign (fun q => M.values.lookup q) (ps.zip xs) p) ∧ M'.RatesOK M'.values) ∧
      (ok = false → M' = M ∧ ∀ v : Valuation K, (∀ p, v.lookup p = assign (fun q => M.values.lookup q) (ps.zip xs) p) →
        ¬ M.RatesOK v) := by
  by_cases hr : M.RatesOK M.values
  · obtain ⟨M', h1, h2, h3⟩ := (M.instantiate_spec hM ps xs).1 hr
    refine ⟨true, M', h1, fun _ => ⟨h3, ?_⟩, by simp⟩
    have := (h _ h3).1 hr
    rw [h2]
    exact this
  · exact ⟨false, M, (M.instantiate_spec hM ps xs).2 hr, by simp, fun _ => ⟨rfl, fun v hv hv' => hr ((h v hv).2 hv')⟩⟩

/-- C45, disagreement: a model without values accepts a value that makes a rate negative; then it refuses every value, even
good ones. (x is given the value -1: the rate 2x is -2.) -/
theorem instantiate_accepts_negative :
    (match (exModel ℚ []).instantiate ["x", "y"] [-1, 1] with
      | .ok (ok, M) => ok && decide (M.evaluate 0 1 = .ok (some (-2))) &&
        (match M.instantiate ["x"] [1] with | .ok (ok', M') => !ok' && decide (M'.evaluate 0 1 = .ok (some (-2))) | .error _ => false)
      | .error _ => false) = true := by decide +kernel

/-- C45, histories: once a rate of the model is negative, every later call of `instantiate`, whatever its arguments, returns
False and leaves the model unchanged: no sequence of calls repairs it. -/
theorem instantiate_stuck (M : PCTMC K) (hM : M.WF) (h : ¬ M.RatesOK M.values) (calls : List (List String × List K)) :
    calls.foldlM (fun M c => (M.instantiate c.1 c.2).map (·.2)) M = .ok M ∧
    ∀ c ∈ calls, M.instantiate c.1 c.2 = .ok (false, M) := by
  refine ⟨?_, fun c _ => (M.instantiate_spec hM _ _).2 h⟩
  induction calls with
  | nil => rfl
  | cons c calls ih =>
    rw [List.foldlM_cons, (M.instantiate_spec hM _ _).2 h]
    exact ih

/-- The hypotheses of `instantiate_stuck` are met. -/
example : ¬ (exModel ℚ [("x", -1)]).RatesOK [("x", -1)] := by
  intro h
  have := h 0 1 (by decide) (by decide) (by decide) (by
    intro p hp
    rw [← Expr.mem_free] at hp
    have : p = "x" := by simpa [rateExpr, exModel, Expr.free] using hp
    exact ⟨-1, by simp [this]⟩) (valOf [("x", -1)]) (valOf_extends _)
  revert this
  decide +kernel

/-! ### C45: random instantiation -/

theorem assign_not_mem (ρ : String → Option K) (l : List (String × K)) (p : String) (h : p ∉ l.map (·.1)) :
    assign ρ l p = ρ p := by
  induction l generalizing ρ with
  | nil => rfl
  | cons q l ih =>
    simp only [List.map_cons, List.mem_cons, not_or] at h
    unfold assign
    rw [ih _ h.2, if_neg h.1]

theorem assign_mem (ρ : String → Option K) (l : List (String × K)) (p : String) (h : p ∈ l.map (·.1)) :
    ∃ x, (p, x) ∈ l ∧ assign ρ l p = some x := by
  induction l generalizing ρ with
  | nil => simp at h
  | cons q l ih =>
    unfold assign
    by_cases hp : p ∈ l.map (·.1)
    · obtain ⟨x, h1, h2⟩ := ih (fun p => if p = q.1 then some q.2 else ρ p) hp
      exact ⟨x, List.mem_cons_of_mem _ h1, h2⟩
    · rw [assign_not_mem _ _ _ hp]
      simp only [List.map_cons, List.mem_cons] at h
      rcases h with h | h
      · rw [if_pos h]
        exact ⟨q.2, by rw [h]; exact List.mem_cons_self, rfl⟩
      · exact absurd h hp

/-- A random instantiation of a model without negative rate ends at the first round: each of the chosen parameters (by
default those that have no value) gets a value between the bounds, the other ones keep theirs. -/
theorem randomInstantiation_spec [IsStrictOrderedRing K] (M : PCTMC K) (hM : M.WF) (hr : M.RatesOK M.values)
    (parameters : Option (List String)) (lo hi : K) (hlh : lo ≤ hi) (r : List K) (rounds : List (List K))
    (hlen : r.length = (parameters.getD (M.names.filter (fun p => !M.hasValue p))).length) (hd : ∀ u ∈ r, 0 ≤ u ∧ u ≤ 1) :
    ∃ M', M.randomInstantiation parameters (some lo) (some hi) (r :: rounds) = .ok (some M') ∧
      M' = { M with values := M'.values } ∧
      (∀ p ∈ parameters.getD (M.names.filter (fun p => !M.hasValue p)), ∃ x, M'.values.lookup p = some x ∧ lo ≤ x ∧ x ≤ hi) ∧
      (∀ p, p ∉ parameters.getD (M.names.filter (fun p => !M.hasValue p)) → M'.values.lookup p = M.values.lookup p) ∧
      (parameters = none → M'.Full) := by
  set ps := parameters.getD (M.names.filter (fun p => !M.hasValue p)) with hps
  obtain ⟨M', h1, h2, h3⟩ := (M.instantiate_spec hM ps (r.map (fun u => u * (hi - lo) + lo))).1 hr
  have hfst : (ps.zip (r.map (fun u => u * (hi - lo) + lo))).map (·.1) = ps := by
    rw [List.map_fst_zip]
    simp [hlen]
  have hmem : ∀ p ∈ ps, ∃ x, M'.values.lookup p = some x ∧ lo ≤ x ∧ x ≤ hi := by
    intro p hp
    obtain ⟨x, hx, hxe⟩ := assign_mem (fun q => M.values.lookup q) (ps.zip (r.map (fun u => u * (hi - lo) + lo))) p
      (by rw [hfst]; exact hp)
    refine ⟨x, by rw [h3, hxe], ?_⟩
    obtain ⟨u, hu, rfl⟩ := List.mem_map.1 (List.of_mem_zip hx).2
    obtain ⟨hu0, hu1⟩ := hd u hu
    have h0 : 0 ≤ hi - lo := sub_nonneg.2 hlh
    have h4 := mul_nonneg hu0 h0
    have h5 := mul_le_mul_of_nonneg_right hu1 h0
    constructor <;> linarith
  have hother : ∀ p, p ∉ ps → M'.values.lookup p = M.values.lookup p := by
    intro p hp
    rw [h3, assign_not_mem]
    rw [hfst]
    exact hp
  refine ⟨M', ?_, h2, hmem, hother, ?_⟩
  · unfold randomInstantiation instantiateLoop
    have : parameters.getD M.defaultParameters = ps := rfl
    simp only [this, Option.getD_some]
    rw [h1]
    rfl
  · intro hn p hp
    have hp' : p ∈ M.names := by rw [h2] at hp; exact hp
    rw [← lookup_known]
    by_cases hk : p ∈ ps
    · obtain ⟨x, hx, _⟩ := hmem p hk
      exact ⟨x, hx⟩
    · rw [hother p hk]
      have : M.hasValue p = true := by
        by_contra hc
        apply hk
        rw [hps, hn]
        simp only [Option.getD_none, List.mem_filter]
        exact ⟨hp', by simpa using hc⟩
      exact Option.isSome_iff_exists.1 this

/-- C45, disagreement: on a model that has a negative rate, a random instantiation never ends: after any number of rounds,
whatever the draws and the bounds, the loop is still running. -/
theorem randomInstantiation_diverges (M : PCTMC K) (hM : M.WF) (h : ¬ M.RatesOK M.values) (parameters : Option (List String))
    (lo hi : Option K) (rounds : List (List K)) : M.randomInstantiation parameters lo hi rounds = .ok none := by
  unfold randomInstantiation
  induction rounds with
  | nil => rfl
  | cons r rounds ih =>
    unfold instantiateLoop
    rw [(M.instantiate_spec hM _ _).2 h]
    exact ih

/-- Non-vacuity of `randomInstantiation_spec`: x gets 1/4 (the draw 1/4 between 0 and 1), y keeps 3. -/
example : (match (exModel ℚ [("y", 3)]).randomInstantiation none (some 0) (some 1) [[1/4]] with
    | .ok (some M) => decide (M.values = [("y", 3), ("x", 1/4)]) | _ => false) = true := by decide +kernel

/-! ### Simulation -/

theorem waits_eq (rates : List K) (hnn : ∀ x ∈ rates, 0 ≤ x) (draws : ℕ → K) :
    waits rates draws = .ok (rates.zipIdx.map (fun p => if p.1 = 0 then ⊤ else ((1 / p.1 * draws p.2 : K) : WithTop K))) := by
  unfold waits
  apply List.mapM_ok
  intro p hp
  have h0 := hnn p.1 (List.fst_mem_of_mem_zipIdx hp)
  by_cases h : p.1 = 0
  · rw [if_pos h, if_pos h]
  · rw [if_neg h, if_neg h, if_neg (not_lt.2 h0)]

/-- A step of the simulation of an instantiated state whose rates are not negative, at least one being positive: the
observation is the label of the state, the time spent is the smallest of the times `draw / rate` of the transitions with a positive
rate, and the next state is the first one with a positive rate that has this time. -/
theorem next_spec [IsStrictOrderedRing K] (M : PCTMC K) (hM : M.WF) (hF : M.Full) (ρ : String → K) (hρ : Extends ρ M.values)
    (s : Fin M.matrix.length) (hnn : ∀ j, 0 ≤ (M.chain ρ).matrix s j) (hpos : ∃ j, 0 < (M.chain ρ).matrix s j) (draws : ℕ → K) :
    ∃ j : Fin M.matrix.length, M.next s draws = .ok (M.labelling.getD s "", j,
        ((1 / (M.chain ρ).matrix s j * draws j : K) : WithTop K)) ∧ 0 < (M.chain ρ).matrix s j ∧
      (∀ j' : Fin M.matrix.length, 0 < (M.chain ρ).matrix s j' →
        1 / (M.chain ρ).matrix s j * draws j ≤ 1 / (M.chain ρ).matrix s j' * draws j') ∧
      ∀ j' < j, 0 < (M.chain ρ).matrix s j' →
        1 / (M.chain ρ).matrix s j * draws j < 1 / (M.chain ρ).matrix s j' * draws j' := by
  have hsf := M.stateFull_of_full hM hF s.2
  obtain ⟨b, hb, hbs⟩ := M.isInstantiatedState_eq hM s.2
  set rates : List K := (List.range M.nb).map (fun j => (M.rateExpr s j).den ρ) with hrates
  have hlen : rates.length = M.matrix.length := by simp [hrates, nb]
  have hget : ∀ (j : ℕ) (h : j < rates.length), rates[j] = (M.rateExpr s j).den ρ := by
    intro j h; simp [hrates]
  have hw : waits rates draws = .ok (rates.zipIdx.map (fun p => if p.1 = 0 then ⊤ else ((1 / p.1 * draws p.2 : K) : WithTop K))) := by
    apply waits_eq
    intro x hx
    obtain ⟨j, hj, rfl⟩ := List.mem_iff_getElem.1 hx
    rw [hget]
    exact hnn ⟨j, by rw [← hlen]; exact hj⟩
  set ts : List (WithTop K) := rates.zipIdx.map (fun p => if p.1 = 0 then ⊤ else ((1 / p.1 * draws p.2 : K) : WithTop K)) with hts
  have htl : ts.length = M.matrix.length := by simp [hts, hlen]
  have htg : ∀ j : Fin M.matrix.length, ∀ h : (j : ℕ) < ts.length,
      ts[(j : ℕ)] = if (M.chain ρ).matrix s j = 0 then ⊤ else ((1 / (M.chain ρ).matrix s j * draws j : K) : WithTop K) := by
    intro j h
    simp only [hts, List.getElem_map, List.getElem_zipIdx, zero_add]
    rw [hget]
    rfl
  cases hmin : ts.min? with
  | none =>
    rw [List.min?_eq_none_iff] at hmin
    rw [hmin] at htl
    have := s.2
    simp at htl
    omega
  | some m =>
    have hm := List.min?_eq_some_iff.1 hmin
    have hidx : ts.idxOf m < ts.length := List.idxOf_lt_length_of_mem hm.1
    have hg : ts[ts.idxOf m] = m := List.getElem_idxOf hidx
    set j : Fin M.matrix.length := ⟨ts.idxOf m, by rw [← htl]; exact hidx⟩ with hj
    have hall : ∀ j' : Fin M.matrix.length, 0 < (M.chain ρ).matrix s j' → m ≤ ((1 / (M.chain ρ).matrix s j' * draws j' : K) : WithTop K) := by
      intro j' h'
      have hj' : (j' : ℕ) < ts.length := by rw [htl]; exact j'.2
      have := hm.2 _ (List.getElem_mem hj')
      rwa [htg, if_neg h'.ne'] at this
    have hjv := htg j hidx
    have hne : (M.chain ρ).matrix s j ≠ 0 := by
      intro h0
      rw [if_pos h0] at hjv
      have hmt : m = ⊤ := by rw [← hg]; exact hjv
      obtain ⟨j', h'⟩ := hpos
      have := hall j' h'
      rw [hmt, top_le_iff] at this
      exact WithTop.coe_ne_top this
    rw [if_neg hne] at hjv
    have hmd : m = ((1 / (M.chain ρ).matrix s j * draws j : K) : WithTop K) := by rw [← hg]; exact hjv
    refine ⟨j, ?_, lt_of_le_of_ne (hnn j) (Ne.symm hne), ?_, ?_⟩
    · unfold next
      rw [hb, hbs.2 hsf, mapM_range _ (fun j => some ((M.rateExpr s j).den ρ)) (fun j hj => by
        rw [M.evaluate_eq hM s.2 hj, Expr.eval_some _ _ (hsf j hj) ρ hρ])]
      simp only [bind, Except.bind, if_true, List.map_map]
      have : (fun x : Option K => x.getD 0) ∘ (fun j => some ((M.rateExpr s j).den ρ)) = fun j => (M.rateExpr s j).den ρ := rfl
      rw [this, ← hrates, hw]
      simp only [argmin, hmin, pure, Except.pure]
      rw [← hmd]
    · intro j' h'
      have := hall j' h'
      rw [hmd] at this
      exact WithTop.coe_le_coe.1 this
    · intro j' hlt h'
      have hle := hall j' h'
      rw [hmd] at hle
      refine lt_of_le_of_ne (WithTop.coe_le_coe.1 hle) (fun heq => ?_)
      have hj' : (j' : ℕ) < ts.length := by rw [htl]; exact j'.2
      have h1 := htg j' hj'
      rw [if_neg h'.ne', ← heq, ← hmd] at h1
      have hlt' : (j' : ℕ) < ts.findIdx (· == m) := hlt
      have := List.not_of_lt_findIdx hlt'
      rw [h1] at this
      simp at this

/-- Non-vacuity of `next_spec`: the rate from "b" to "a" is 9. -/
example : (exModel ℚ [("x", 1/2), ("y", 3)]).next 1 (fun _ => 5) = .ok ("b", 0, ((5/9 : ℚ) : WithTop ℚ)) := by decide +kernel

end PCTMC
end
end Jajapy
