import Verif.Model.PFit
import Verif.Props.FitParametersEx

/-!
Lemmas about `fit` on a PCTMC.
-/

set_option linter.unusedSectionVars false

namespace Jajapy

open Spec BW Finset

/-! ### Exceptions in loops -/

/-- A loop that ends has run its body on the initial hypothesis, if there is at least one iteration. -/
theorem BW.fit_first {H : Type} (step : H → Py (H × ℝ)) (epsilon : ℝ) (maxIt : ℕ) (h : H) (st : LoopState H) (hm : 1 ≤ maxIt)
    (hf : BW.fit step epsilon maxIt h = .ok st) : ∃ r, step h = .ok r := by
  obtain ⟨k, rfl⟩ : ∃ k, maxIt = k + 1 := ⟨maxIt - 1, by omega⟩
  unfold BW.fit loop at hf
  obtain ⟨r, hr, _⟩ := (Except.bind_eq_ok _ _ _).1 hf
  exact ⟨r, hr⟩

namespace PCTMC

variable {n : ℕ}

/-! ### The tables -/

theorem tauMatrix_sum (H : CTMC ℝ String n) (s : Fin n) : ∑ ss, tauMatrix H s ss = 1 := by
  unfold tauMatrix
  by_cases h : H.e s = 0
  · simp [h]
  · simp only [ne_eq, h, not_false_eq_true, if_true]
    rw [← Finset.sum_div]
    exact div_self h

theorem phi_tau (H : CTMC ℝ String n) (hH : ∀ s ss, 0 ≤ H.matrix s ss) (p : Sym String × ℝ) (s ss : Fin n) :
    phiTimed H p s * tauMatrix H s ss = H.tauTimed s ss p := by
  unfold phiTimed tauMatrix CTMC.tauTimed
  by_cases h : H.e s = 0
  · have h0 : H.matrix s ss = 0 := by
      have := (Finset.sum_eq_zero_iff_of_nonneg (fun j _ => hH s j)).1 (show ∑ j, H.matrix s j = 0 from h)
      exact this ss (Finset.mem_univ _)
    rw [h, h0]
    simp
  · simp only [ne_eq, h, not_false_eq_true, if_true]
    by_cases hl : Sym.obs (H.labelling s) = p.1
    · simp only [hl, if_true, not_true_eq_false, if_false]
      field_simp
    · simp [hl]

theorem lastSum_alphas {K O : Type} [Field K] (tau : Fin n → Fin n → O → K) (os : List O) : ∀ v : Fin n → K,
    lastSum (alphas tau v os) = ∑ s, (os.foldl (fwd tau) v) s := by
  induction os with
  | nil => intro v; simp [lastSum, alphas]
  | cons o os ih =>
    intro v
    rw [List.foldl_cons, ← ih]
    unfold lastSum
    rw [alphas, List.getLast?_cons]
    cases h : (alphas tau (fwd tau v o) os).getLast? with
    | none => exact absurd (List.getLast?_eq_none_iff.1 h) (alphas_ne_nil _ _ _)
    | some x => simp

/-- The table of `_computeAlphas_timed_matrix` gives the density of the trace. -/
theorem lastSum_alphasMatrix (H : CTMC ℝ String n) (hH : ∀ s ss, 0 ≤ H.matrix s ss) (ps : List (String × ℝ)) (last : String) :
    lastSum (alphasMatrix H (ps.map symStep) (.obs last)) = H.density (timed ps last) := by
  have hd : H.timedSum (timed ps last) = .ok (H.density (timed ps last)) := H.timedSum_eq _ (isTimed_timed _ _)
  unfold CTMC.timedSum at hd
  rw [splitTimed_timed] at hd
  simp only [bind, Except.bind, pure, Except.pure, Except.ok.injEq] at hd
  rw [← hd]
  unfold alphasMatrix phiRows
  rw [lastSum_alphas, List.foldl_append, List.foldl_map]
  have hf : (fun v p => fwd (fun s ss (φ : Fin n → ℝ) => φ s * tauMatrix H s ss) v (phiTimed H p))
      = (fun (v : Fin n → ℝ) p => fun s => ∑ ss, v ss * H.tauTimed ss s p) := by
    funext v p s
    unfold fwd
    exact Finset.sum_congr rfl (fun ss _ => congrArg (v ss * ·) (phi_tau H hH p ss s))
  rw [hf]
  generalize (ps.map symStep).foldl (fun (v : Fin n → ℝ) p => fun s => ∑ ss, v ss * H.tauTimed ss s p) H.initialState = v
  simp only [List.foldl_cons, List.foldl_nil, fwd]
  rw [Finset.sum_comm]
  refine Finset.sum_congr rfl (fun ss _ => ?_)
  rw [← Finset.mul_sum, ← Finset.mul_sum, tauMatrix_sum, mul_one]

theorem alphasMatrix_length (H : CTMC ℝ String n) (steps : List (Sym String × ℝ)) (last : Sym String) :
    (alphasMatrix H steps last).length = steps.length + 2 := by
  unfold alphasMatrix phiRows
  rw [alphas_length]; simp

theorem betasMatrix_length (H : CTMC ℝ String n) (steps : List (Sym String × ℝ)) (last : Sym String) :
    (betasMatrix H steps last).length = steps.length + 1 := by
  unfold betasMatrix phiRows
  rw [List.length_dropLast, betas_length]; simp

theorem bmul_error {a b : List ℝ} (h : a.length ≠ b.length) (ha : a.length ≠ 1) (hb : b.length ≠ 1) : bmul a b = .error .valueError := by
  unfold bmul
  rw [if_neg h, if_neg ha, if_neg hb]

theorem splitTimes_timed (p : String × ℝ) (ps : List (String × ℝ)) (last : String) :
    splitTimes (timed (p :: ps) last) = .ok (((p :: ps).map Prod.fst ++ [last]).map Sym.obs, (p :: ps).map Prod.snd) := by
  have h1 : splitTimes (timed (p :: ps) last) = (do return (TSet.evens (timed (p :: ps) last), ← (TSet.odds (timed (p :: ps) last)).mapM Sym.val)) := rfl
  rw [h1, evens_timed, odds_timed]
  rw [List.mapM_ok Sym.val (fun x => match x with | .time t => t | .obs _ => 0) _ (by
      intro x hx
      obtain ⟨t, _, rfl⟩ := List.mem_map.mp hx
      rfl)]
  simp [List.map_map, Function.comp_def, bind, Except.bind, pure, Except.pure]

theorem zip_symStep (ps : List (String × ℝ)) (last : String) :
    (((ps.map Prod.fst ++ [last]).map Sym.obs).dropLast).zip (ps.map Prod.snd) = ps.map symStep := by
  rw [List.map_append]
  simp only [List.map_cons, List.map_nil, List.dropLast_concat]
  induction ps with
  | nil => rfl
  | cons p ps ih => simp only [List.map_cons, List.zip_cons_cons, ih]; rfl

theorem zip_symStep' (ps : List (String × ℝ)) (last : String) :
    ((ps.map Prod.fst ++ [last]).map Sym.obs).zip (ps.map Prod.snd) = ps.map symStep := by
  induction ps with
  | nil => rfl
  | cons p ps ih => simp only [List.map_cons, List.cons_append, List.zip_cons_cons, ih]; rfl

open Classical in
/-- The tables of a timed trace. -/
theorem fitTables_timed (H : CTMC ℝ String n) (p : String × ℝ) (ps : List (String × ℝ)) (last : String) (k : ℕ) :
    fitTables H (timed (p :: ps) last) k =
      let al := alphasMatrix H ((p :: ps).map symStep) (.obs last)
      let be := betasMatrix H ((p :: ps).map symStep) (.obs last)
      .ok (if lastSum al = 0 then none else some {
        visits := visitsMatrix al be ((p :: ps).map Prod.snd) (k / lastSum al),
        uses := fun s ss => usesMatrix al be (((p :: ps).map symStep).map (H.tauTimed s ss)) (k / lastSum al) s ss,
        seen := fun s ss => 0 < (((p :: ps).map symStep).map (H.tauTimed s ss)).sum, proba := lastSum al, times := k }) := by
  unfold fitTables
  rw [splitTimes_timed]
  simp only [bind, Except.bind, pure, Except.pure]
  rw [zip_symStep, zip_symStep']
  have : (((p :: ps).map Prod.fst ++ [last]).map Sym.obs).getLast?.getD (Sym.time 0) = .obs last := by
    rw [List.map_append, List.map_singleton, List.getLast?_concat]; rfl
  rw [this]

/-- With at least two dwell times no sum can be computed. -/
theorem visitsMatrix_error (H : CTMC ℝ String n) (steps : List (Sym String × ℝ)) (last : Sym String) (h : 2 ≤ steps.length)
    (ts : List ℝ) (c : ℝ) (s : Fin n) :
    visitsMatrix (alphasMatrix H steps last) (betasMatrix H steps last) ts c s = .error .valueError := by
  unfold visitsMatrix
  rw [bmul_error]
  · rfl
  all_goals simp only [List.length_dropLast, List.length_map, alphasMatrix_length, betasMatrix_length]; omega

/-! ### Traces with one dwell time -/

/-- No transition leads from a state with the label `o` to a state with the label `o`. -/
def NoRepeat (H : CTMC ℝ String n) (o : String) : Prop := ∀ s ss, H.labelling s = o → H.labelling ss = o → H.matrix s ss = 0

theorem beta_last (H : CTMC ℝ String n) (f : Fin n → ℝ) : bwd (fun s ss (φ : Fin n → ℝ) => φ s * tauMatrix H s ss) (fun _ => 1) f = f := by
  funext s
  unfold bwd
  simp only [one_mul]
  rw [← Finset.mul_sum, tauMatrix_sum, mul_one]

theorem beta_first (H : CTMC ℝ String n) (hH : ∀ s ss, 0 ≤ H.matrix s ss) (f : Fin n → ℝ) (p : String × ℝ) :
    bwd (fun s ss (φ : Fin n → ℝ) => φ s * tauMatrix H s ss) f (phiTimed H (symStep p)) = bwd H.rateStep f p := by
  funext s
  unfold bwd
  refine Finset.sum_congr rfl (fun ss _ => ?_)
  show f ss * (phiTimed H (symStep p) s * tauMatrix H s ss) = _
  rw [phi_tau H hH, H.tauTimed_symStep]

theorem alpha_first (H : CTMC ℝ String n) (hH : ∀ s ss, 0 ≤ H.matrix s ss) (v : Fin n → ℝ) (p : String × ℝ) :
    fwd (fun s ss (φ : Fin n → ℝ) => φ s * tauMatrix H s ss) v (phiTimed H (symStep p)) = fwd H.rateStep v p := by
  funext s
  unfold fwd
  refine Finset.sum_congr rfl (fun ss _ => ?_)
  show v ss * (phiTimed H (symStep p) ss * tauMatrix H ss s) = _
  rw [phi_tau H hH, H.tauTimed_symStep]

theorem tables_short (H : CTMC ℝ String n) (hH : ∀ s ss, 0 ≤ H.matrix s ss) (p : String × ℝ) (last : String) :
    (∃ v2, alphasMatrix H [symStep p] (.obs last) = [H.initialState, fwd H.rateStep H.initialState p, v2]) ∧
    betasMatrix H [symStep p] (.obs last) = [bwd H.rateStep (H.maskTimed (.obs last)) p, H.maskTimed (.obs last)] := by
  constructor
  · unfold alphasMatrix phiRows
    simp only [List.map_cons, List.map_nil, List.cons_append, List.nil_append, alphas]
    rw [alpha_first H hH]
    exact ⟨_, rfl⟩
  · unfold betasMatrix phiRows
    simp only [List.map_cons, List.map_nil, List.cons_append, List.nil_append, betas, List.headD_cons, List.dropLast]
    rw [beta_last, beta_first H hH]

/-- The sums for a trace with one dwell time: the first row of the forward table is used, and also the second one. -/
theorem sums_short (H : CTMC ℝ String n) (hH : ∀ s ss, 0 ≤ H.matrix s ss) (p : String × ℝ) (last : String) (c : ℝ) (s ss : Fin n) :
    visitsMatrix (alphasMatrix H [symStep p] (.obs last)) (betasMatrix H [symStep p] (.obs last)) [p.2] c s =
      .ok ((H.initialState s + fwd H.rateStep H.initialState p s) * bwd H.rateStep (H.maskTimed (.obs last)) p s * p.2 * c) ∧
    usesMatrix (alphasMatrix H [symStep p] (.obs last)) (betasMatrix H [symStep p] (.obs last)) [H.rateStep s ss p] c s ss =
      .ok ((H.initialState s + fwd H.rateStep H.initialState p s) * H.rateStep s ss p * H.maskTimed (.obs last) ss * c) := by
  obtain ⟨⟨v2, h1⟩, h2⟩ := tables_short H hH p last
  rw [h1, h2]
  constructor
  · simp [visitsMatrix, bmul, bind, Except.bind, pure, Except.pure]
    ring
  · simp [usesMatrix, bmul, bind, Except.bind, pure, Except.pure]
    ring

theorem noRepeat_zero (H : CTMC ℝ String n) (p : String × ℝ) (h : NoRepeat H p.1) (v : Fin n → ℝ) (s ss : Fin n) :
    fwd H.rateStep v p s * H.rateStep s ss p = 0 := by
  by_cases hl : H.labelling s = p.1
  · have : fwd H.rateStep v p s = 0 := by
      unfold fwd
      refine Finset.sum_eq_zero (fun s' _ => ?_)
      unfold CTMC.rateStep
      by_cases hl' : H.labelling s' = p.1
      · rw [h s' s hl' hl]; simp
      · simp [hl']
    rw [this, zero_mul]
  · unfold CTMC.rateStep
    simp [hl]

end PCTMC
end Jajapy
