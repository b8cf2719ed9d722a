import Verif.Spec.PCTMC
import Verif.Lemmas.Create
import Verif.Lemmas.CTMC

set_option linter.unusedSectionVars false

namespace Jajapy

open Finset Spec Tools

section
variable {K : Type} [Field K]

theorem lookup_known (v : Valuation K) (p : String) : (∃ x, v.lookup p = some x) ↔ Known v p := by
  unfold Known
  induction v with
  | nil => simp [List.lookup]
  | cons q v ih =>
    rw [List.lookup_cons]
    by_cases h : p = q.1
    · subst h
      simp only [beq_self_eq_true, List.mem_cons]
      exact ⟨fun _ => ⟨q.2, Or.inl rfl⟩, fun _ => ⟨q.2, rfl⟩⟩
    · have hb : (p == q.1) = false := by simpa using h
      simp only [hb, List.mem_cons]
      rw [ih]
      constructor
      · rintro ⟨x, hx⟩; exact ⟨x, Or.inr hx⟩
      · rintro ⟨x, hx | hx⟩
        · exact absurd (by rw [← hx]) h
        · exact ⟨x, hx⟩

theorem isSome_known (v : Valuation K) (p : String) : (v.lookup p).isSome = true ↔ Known v p := by
  rw [← lookup_known, Option.isSome_iff_exists]

namespace Expr

theorem mem_free (x : Expr K) (p : String) : p ∈ x.free ↔ x.Occurs p := by
  induction x with
  | num c => simp only [free, List.not_mem_nil, false_iff]; intro h; cases h
  | sym q =>
    simp only [free, List.mem_singleton]
    constructor
    · rintro rfl; exact .sym
    · intro h; cases h; rfl
  | add a b iha ihb =>
    simp only [free, List.mem_union_iff, iha, ihb]
    constructor
    · rintro (h | h); exacts [.addL _ _ h, .addR _ _ h]
    · intro h; cases h; exacts [Or.inl ‹_›, Or.inr ‹_›]
  | mul a b iha ihb =>
    simp only [free, List.mem_union_iff, iha, ihb]
    constructor
    · rintro (h | h); exacts [.mulL _ _ h, .mulR _ _ h]
    · intro h; cases h; exacts [Or.inl ‹_›, Or.inr ‹_›]
  | pow a k iha =>
    simp only [free, iha]
    exact ⟨fun h => .pow _ _ h, fun h => by cases h; assumption⟩

theorem eval_some (x : Expr K) (v : Valuation K) (h : ∀ p, x.Occurs p → Known v p) (ρ : String → K) (hρ : Extends ρ v) :
    x.eval v = some (x.den ρ) := by
  induction x with
  | num c => rfl
  | sym q =>
    obtain ⟨y, hy⟩ := (lookup_known v q).2 (h q .sym)
    simp only [eval, den, hy, hρ q y hy]
  | add a b iha ihb =>
    simp only [eval, den, iha (fun p hp => h p (.addL _ _ hp)), ihb (fun p hp => h p (.addR _ _ hp))]
    rfl
  | mul a b iha ihb =>
    simp only [eval, den, iha (fun p hp => h p (.mulL _ _ hp)), ihb (fun p hp => h p (.mulR _ _ hp))]
    rfl
  | pow a k iha =>
    simp only [eval, den, iha (fun p hp => h p (.pow _ _ hp))]
    rfl

theorem eval_none (x : Expr K) (v : Valuation K) (h : ∃ p, x.Occurs p ∧ ¬ Known v p) : x.eval v = none := by
  obtain ⟨p, hp, hk⟩ := h
  have hn : v.lookup p = none := by
    rw [Option.eq_none_iff_forall_ne_some]
    intro y hy
    exact hk ((lookup_known v p).1 ⟨y, hy⟩)
  induction hp with
  | sym => exact hn
  | addL a b _ ih => simp only [eval, ih]; rfl
  | addR a b _ ih => simp only [eval, ih]; cases a.eval v <;> rfl
  | mulL a b _ ih => simp only [eval, ih]; rfl
  | mulR a b _ ih => simp only [eval, ih]; cases a.eval v <;> rfl
  | pow a k _ ih => simp only [eval, ih]; rfl

end Expr

/-- The assignment given by a dictionary, 0 for the other names. -/
def valOf (v : Valuation K) (p : String) : K := (v.lookup p).getD 0

theorem valOf_extends (v : Valuation K) : Extends (valOf v) v := by
  intro p x h
  simp only [valOf, h, Option.getD_some]

namespace PCTMC
variable [LinearOrder K]

theorem transitionExpression_eq (M : PCTMC K) (hM : M.WF) {i j : ℕ} (hi : i < M.nb) (hj : j < M.nb) :
    M.transitionExpression i j = .ok (M.rateExpr i j) := by
  have hi' : i < M.matrix.length := hi
  have hj' : j < (M.matrix[i]).length := by rw [hM.square _ (List.getElem_mem hi')]; exact hj
  have ht : M.matrix[i][j] < M.exprs.length := hM.bound _ (List.getElem_mem hi') _ (List.getElem_mem hj')
  unfold transitionExpression rateExpr
  simp only [List.getD_eq_getElem?_getD, List.getElem?_eq_getElem hi', Option.getD_some, List.getElem?_eq_getElem hj',
    List.getElem?_eq_getElem ht]

theorem rateExpr_mem (M : PCTMC K) (hM : M.WF) {i j : ℕ} (hi : i < M.nb) (hj : j < M.nb) : M.rateExpr i j ∈ M.exprs := by
  have hi' : i < M.matrix.length := hi
  have hj' : j < (M.matrix[i]).length := by rw [hM.square _ (List.getElem_mem hi')]; exact hj
  have ht : M.matrix[i][j] < M.exprs.length := hM.bound _ (List.getElem_mem hi') _ (List.getElem_mem hj')
  unfold rateExpr
  simp only [List.getD_eq_getElem?_getD, List.getElem?_eq_getElem hi', Option.getD_some, List.getElem?_eq_getElem hj',
    List.getElem?_eq_getElem ht]
  exact List.getElem_mem _

theorem transitionExpression_out (M : PCTMC K) (hM : M.WF) {i j : ℕ} (h : ¬ (i < M.nb ∧ j < M.nb)) :
    M.transitionExpression i j = .error .indexError := by
  unfold transitionExpression
  by_cases hi : i < M.matrix.length
  · have hj : ¬ j < M.nb := fun hj => h ⟨hi, hj⟩
    have hj' : (M.matrix[i])[j]? = none := by
      rw [List.getElem?_eq_none_iff, hM.square _ (List.getElem_mem hi)]
      exact not_lt.1 hj
    simp only [List.getElem?_eq_getElem hi, hj']
  · simp only [List.getElem?_eq_none (not_lt.1 hi)]

theorem evaluate_eq (M : PCTMC K) (hM : M.WF) {i j : ℕ} (hi : i < M.nb) (hj : j < M.nb) :
    M.evaluate i j = .ok ((M.rateExpr i j).eval M.values) := by
  unfold evaluate evaluateWith
  rw [M.transitionExpression_eq hM hi hj]
  rfl

theorem involved_eq (M : PCTMC K) (hM : M.WF) {i j : ℕ} (hi : i < M.nb) (hj : j < M.nb) :
    M.involved i j = .ok (M.rateExpr i j).free := by
  unfold involved
  rw [M.transitionExpression_eq hM hi hj]
  rfl

theorem mem_foldl_union (ls : List (List String)) (acc : List String) (p : String) :
    p ∈ ls.foldl (· ∪ ·) acc ↔ p ∈ acc ∨ ∃ l ∈ ls, p ∈ l := by
  induction ls generalizing acc with
  | nil => simp
  | cons l ls ih =>
    rw [List.foldl_cons, ih]
    simp only [List.mem_union_iff, List.mem_cons, exists_eq_or_imp, or_assoc]

theorem mapM_range {α : Type} {n : ℕ} (f : ℕ → Py α) (g : ℕ → α) (h : ∀ i < n, f i = .ok (g i)) :
    (List.range n).mapM f = .ok ((List.range n).map g) := by
  apply List.mapM_ok
  intro i hi
  exact h i (List.mem_range.1 hi)

theorem involvedState_eq (M : PCTMC K) (hM : M.WF) {i : ℕ} (hi : i < M.nb) :
    M.involvedState i = .ok (((List.range M.nb).map (fun j => (M.rateExpr i j).free)).foldl (· ∪ ·) []) := by
  unfold involvedState
  rw [mapM_range _ (fun j => (M.rateExpr i j).free) (fun j hj => M.involved_eq hM hi hj)]
  rfl

/-- Whether all the parameters of the transitions that leave `s` have a value. -/
def StateFull (M : PCTMC K) (s : ℕ) : Prop := ∀ j < M.matrix.length, ∀ p, (M.rateExpr s j).Occurs p → Known M.values p

theorem isInstantiatedState_eq (M : PCTMC K) (hM : M.WF) {s : ℕ} (hs : s < M.nb) :
    ∃ b, M.isInstantiatedState s = .ok b ∧ (b = true ↔ M.StateFull s) := by
  unfold isInstantiatedState checkState
  rw [if_neg (by omega), M.involvedState_eq hM hs]
  refine ⟨_, rfl, ?_⟩
  rw [List.all_eq_true]
  constructor
  · intro h j hj p hp
    rw [← isSome_known]
    refine h p ?_
    rw [mem_foldl_union]
    exact Or.inr ⟨_, List.mem_map.2 ⟨j, List.mem_range.2 hj, rfl⟩, (Expr.mem_free _ _).2 hp⟩
  · intro h p hp
    rw [mem_foldl_union] at hp
    rcases hp with hp | ⟨l, hl, hp⟩
    · simp at hp
    · obtain ⟨j, hj, rfl⟩ := List.mem_map.1 hl
      exact (isSome_known _ _).2 (h j (List.mem_range.1 hj) p ((Expr.mem_free _ _).1 hp))

theorem sum_range_map {A : Type} [AddCommMonoid A] (n : ℕ) (f : ℕ → A) : ((List.range n).map f).sum = ∑ i : Fin n, f i := by
  induction n with
  | zero => rfl
  | succ n ih => rw [List.range_succ, List.map_append, List.sum_append, ih, Fin.sum_univ_castSucc]; simp

theorem e_eq (M : PCTMC K) (hM : M.WF) {s : ℕ} (hs : s < M.nb) :
    (M.StateFull s → ∀ ρ, Extends ρ M.values → M.e s = .ok (∑ j : Fin M.matrix.length, (M.rateExpr s j).den ρ)) ∧
    (¬ M.StateFull s → M.e s = .error .valueError) := by
  obtain ⟨b, hb, hbs⟩ := M.isInstantiatedState_eq hM hs
  unfold e
  rw [hb]
  constructor
  · intro h ρ hρ
    rw [hbs.2 h, mapM_range _ (fun j => some ((M.rateExpr s j).den ρ))]
    · simp only [bind, Except.bind, pure, Except.pure, if_true, List.map_map]
      rw [← sum_range_map M.matrix.length (fun j => (M.rateExpr s j).den ρ)]
      rfl
    · intro j hj
      rw [M.evaluate_eq hM hs hj, Expr.eval_some _ _ (h j hj) ρ hρ]
  · intro h
    have : b = false := by
      cases b
      · rfl
      · exact absurd (hbs.1 rfl) h
    rw [this]
    rfl

theorem stateFull_of_full (M : PCTMC K) (hM : M.WF) (h : M.Full) {s : ℕ} (hs : s < M.nb) : M.StateFull s :=
  fun j hj p hp => h p (hM.declared _ (M.rateExpr_mem hM hs hj) p hp)

theorem isInstantiated_iff (M : PCTMC K) : M.isInstantiated = true ↔ M.Full := by
  unfold isInstantiated Full
  rw [List.all_eq_true]
  exact forall₂_congr (fun p _ => isSome_known _ _)

theorem l_eq (M : PCTMC K) (hM : M.WF) {s s' : ℕ} (hs : s < M.nb) (hs' : s' < M.nb) (o : String) :
    M.l s s' o = .ok (if M.labelling.getD s "" ≠ o then some 0 else (M.rateExpr s s').eval M.values) := by
  unfold l checkState
  rw [if_neg (by omega), if_neg (by omega)]
  simp only [bind, Except.bind, pure, Except.pure]
  by_cases h : M.labelling.getD s "" = o
  · simp only [h, ne_eq, not_true_eq_false, if_false]
    exact M.evaluate_eq hM hs hs'
  · rw [if_pos h, if_pos h]

theorem chain_e (M : PCTMC K) (ρ : String → K) (s : Fin M.matrix.length) :
    (M.chain ρ).e s = ∑ j : Fin M.matrix.length, (M.rateExpr s j).den ρ := rfl

end PCTMC

namespace PCTMC

/-- The list of the values of a function on the states. -/
def listOf (n : ℕ) (v : Fin n → ℝ) : List ℝ := List.ofFn v

theorem zipWith_ofFn_sum {n : ℕ} (v w : Fin n → ℝ) :
    (List.zipWith (· * ·) (List.ofFn v) (List.ofFn w)).sum = ∑ s, v s * w s := by
  have : List.zipWith (· * ·) (List.ofFn v) (List.ofFn w) = List.ofFn (fun s => v s * w s) := by
    apply List.ext_getElem
    · simp
    · intro i h1 h2; simp
  rw [this, List.sum_ofFn]

theorem range_map_ofFn {n : ℕ} (f : ℕ → ℝ) : (List.range n).map f = List.ofFn (fun s : Fin n => f s) := by
  apply List.ext_getElem
  · simp
  · intro i h1 h2; simp

theorem stepEntry_eq (M : PCTMC ℝ) (hM : M.WF) (h : M.Full) (ρ : String → ℝ) (hρ : Extends ρ M.values) (p : Sym String × ℝ)
    (ss s : Fin M.matrix.length) : M.stepEntry p ss s = .ok ((M.chain ρ).tauTimed ss s p) := by
  obtain ⟨o, t⟩ := p
  have he := (M.e_eq hM ss.2).1 (M.stateFull_of_full hM h ss.2) ρ hρ
  have hx : M.lSym ss s o =
      Except.ok (some (if Sym.obs ((M.chain ρ).labelling ss) ≠ o then 0 else (M.chain ρ).matrix ss s)) := by
    cases o with
    | time x => simp [lSym]
    | obs o =>
      show M.l ss s o = _
      rw [M.l_eq hM ss.2 s.2]
      have hc : (M.chain ρ).labelling ss = M.labelling.getD ss "" := rfl
      rw [hc]
      by_cases hl : M.labelling.getD ss "" = o
      · rw [if_neg (by simpa using hl), if_neg (by rw [hl]; simp), Expr.eval_some _ _ (M.stateFull_of_full hM h ss.2 s s.2) ρ hρ]
        rfl
      · rw [if_pos hl, if_pos (by simpa using hl)]
  unfold stepEntry
  simp only
  rw [hx, he]
  rfl

theorem stepTimed_eq (M : PCTMC ℝ) (hM : M.WF) (h : M.Full) (ρ : String → ℝ) (hρ : Extends ρ M.values) (p : Sym String × ℝ)
    (v : Fin M.matrix.length → ℝ) :
    M.stepTimed (List.ofFn v) p = .ok (List.ofFn (fun s => ∑ ss, v ss * (M.chain ρ).tauTimed ss s p)) := by
  unfold stepTimed
  have hcell : ∀ s < M.nb, M.stepCell (List.ofFn v) p s =
      .ok (if hs : s < M.matrix.length then ∑ ss, v ss * (M.chain ρ).tauTimed ss ⟨s, hs⟩ p else 0) := by
    intro s hs
    have hs' : s < M.matrix.length := hs
    unfold stepCell
    rw [mapM_range _ (fun ss => if hss : ss < M.matrix.length then (M.chain ρ).tauTimed ⟨ss, hss⟩ ⟨s, hs'⟩ p else 0)]
    · simp only [bind, Except.bind, pure, Except.pure]
      rw [range_map_ofFn, dif_pos hs']
      simp only [nb, Fin.is_lt, dite_true, Fin.eta]
      rw [zipWith_ofFn_sum]
    · intro ss hss
      have hss' : ss < M.matrix.length := hss
      rw [dif_pos hss', ← M.stepEntry_eq hM h ρ hρ]
  rw [mapM_range _ _ hcell, range_map_ofFn]
  simp only [nb, Fin.is_lt, dite_true, Fin.eta]

theorem timedSum_eq (M : PCTMC ℝ) (hM : M.WF) (h : M.Full) (ρ : String → ℝ) (hρ : Extends ρ M.values)
    (w : List (Sym String)) : M.timedSum w = (M.chain ρ).timedSum w := by
  unfold timedSum CTMC.timedSum
  cases hsp : splitTimed w with
  | error e => rfl
  | ok r =>
    obtain ⟨steps, last⟩ := r
    simp only [bind, Except.bind, pure, Except.pure]
    have hinit : M.initialState = List.ofFn (M.chain ρ).initialState := by
      apply List.ext_getElem
      · simp [hM.init]
      · intro i h1 h2; simp [chain, List.getD_eq_getElem?_getD, List.getElem?_eq_getElem h1]
    have hfold : ∀ v : Fin M.matrix.length → ℝ, steps.foldlM (fun v p => M.stepTimed v p) (List.ofFn v) =
        Except.ok (List.ofFn (steps.foldl (fun v p => fun s => ∑ ss, v ss * (M.chain ρ).tauTimed ss s p) v)) := by
      clear hsp
      induction steps with
      | nil => intro v; rfl
      | cons p steps ih =>
        intro v
        rw [List.foldlM_cons, M.stepTimed_eq hM h ρ hρ]
        simp only [bind, Except.bind]
        rw [ih]
        rfl
    rw [hinit, hfold]
    simp only
    have hmask : M.mask last = List.ofFn ((M.chain ρ).maskTimed last) := by
      apply List.ext_getElem
      · simp [mask, hM.labels]
      · intro i h1 h2
        have h3 : i < M.labelling.length := by simpa [mask] using h1
        simp [mask, CTMC.maskTimed, chain, List.getD_eq_getElem?_getD, List.getElem?_eq_getElem h3]
    rw [hmask, zipWith_ofFn_sum]

end PCTMC
end
end Jajapy
