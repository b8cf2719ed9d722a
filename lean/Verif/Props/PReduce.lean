import Verif.Lemmas.PReduce
import Verif.Props.PCTMC

/-!
Property theorems for the removal of states and expressions by `fit_parameters` and by the composition (C47).
-/

set_option linter.unusedSectionVars false

namespace Jajapy.PCTMC

open Spec

variable {K : Type} [Field K] [LinearOrder K]

/-- C47, `fit_parameters`: the model that is trained is the given one restricted to the states whose label occurs in the
traces, in the same order; every pair of remaining states keeps its rate expression, its labels, and the list of the
transitions of each parameter is the old one with the new ids. Every expression that is left (apart from the first one, "no
transition") is used. -/
theorem reduceForTraces_spec (M : PCTMC K) (hM : M.WF) (hI : M.IndexesInRange) (alphabet : List String) :
    ∃ keep, Restricts (M.reduceForTraces alphabet) M keep ∧
      (∀ k < M.matrix.length, k ∈ keep ↔ M.labelling.getD k "" ∈ alphabet) ∧
      (∀ x, 1 ≤ x → x < (M.reduceForTraces alphabet).exprs.length →
        ∃ i j, i < keep.length ∧ j < keep.length ∧ ((M.reduceForTraces alphabet).matrix.getD i []).getD j 0 = x) := by
  obtain ⟨keep, h1, h2, h3, h4⟩ := removeLoop_spec (K := K) (fun M s => decide (M.labelling.getD s "" ∉ alphabet))
    (fun M s => M.labelling.getD s "" ∈ alphabet)
    (by intro M _ s _ hb hR; simp only [decide_eq_true_eq] at hb; exact hb hR)
    (by
      intro M _ s _ _ a hR
      show (M.labelling.eraseIdx s).getD a "" ∈ alphabet
      rw [getD_eraseIdx]; exact hR)
    M 0 hM.shape hI (by omega)
  obtain ⟨d1, d2, d3⟩ := dropUnused_eq (M.removeUnseen alphabet) 1 le_rfl h4.square (by omega)
  have hR : Restricts (M.reduceForTraces alphabet) M keep := h1.renumber d1 d2
  refine ⟨keep, hR, ?_, ?_⟩
  · intro k hk
    refine ⟨?_, h3 k hk⟩
    intro hmem
    obtain ⟨a, ha, rfl⟩ := List.mem_iff_getElem.1 hmem
    have := h2 a (by rw [h1.size]; exact ha)
    rw [h1.labels] at this
    simp only [decide_eq_false_iff_not, not_not] at this
    rw [List.getD_eq_getElem?_getD, List.getElem?_eq_getElem (by simpa using ha)] at this
    simpa using this
  · intro x hx hxl
    obtain ⟨i, j, hi, hj, he⟩ := (uses_iff _ hR.square x).1 (d3 x hx hxl)
    have hi' : i < (M.reduceForTraces alphabet).matrix.length := hi
    have hj' : j < (M.reduceForTraces alphabet).matrix.length := hj
    rw [hR.size] at hi' hj'
    exact ⟨i, j, hi', hj', he⟩

/-- C47, the composition: the removal of the states without incoming transition keeps every state that can be reached from
an initial state, and every pair of remaining states keeps its rate expression; each remaining state is labelled 'init' or
has an incoming transition. -/
theorem removeUnreachable_spec (M : PCTMC K) (hM : M.WF) (hI : M.IndexesInRange) :
    ∃ keep, Restricts M.removeUnreachable M keep ∧ (∀ k, M.Reachable k → k ∈ keep) ∧
      (∀ j < keep.length, M.removeUnreachable.labelling.getD j "" = "init" ∨ ∃ i, M.removeUnreachable.Edge i j) := by
  have hbadEdge : ∀ M : PCTMC K, M.Shape → ∀ s, (M.matrix.all (fun row => row.getD s 0 == 0)) = true → ∀ i, ¬ M.Edge i s := by
    intro M hM s hb i hE
    rw [List.all_eq_true] at hb
    have hi := hE.1
    have := hb M.matrix[i] (List.getElem_mem hi)
    have h2 := hE.2.2
    rw [List.getD_eq_getElem?_getD (l := M.matrix), List.getElem?_eq_getElem hi, Option.getD_some] at h2
    exact h2 (by simpa using this)
  have hbad : ∀ M : PCTMC K, M.Shape → ∀ s < M.matrix.length,
      (M.matrix.all (fun row => row.getD s 0 == 0) && decide (M.labelling.getD s "" ≠ "init")) = true → ¬ M.Reachable s := by
    intro M hM s _ hb hR
    rw [Bool.and_eq_true] at hb
    obtain ⟨i, hi, hl, hp⟩ := hR
    rcases Relation.ReflTransGen.cases_tail hp with h | ⟨c, _, h⟩
    · subst h
      have := hb.2
      simp only [ne_eq, decide_eq_true_eq] at this
      exact this hl
    · exact hbadEdge M hM s hb.1 c h
  obtain ⟨keep, h1, h2, h3, h4⟩ := removeLoop_spec (K := K)
    (fun M i => M.matrix.all (fun row => row.getD i 0 == 0) && decide (M.labelling.getD i "" ≠ "init"))
    (fun M s => M.Reachable s) hbad
    (by
      intro M hM s hs hb a hR
      have hns := hbad M hM s hs hb
      obtain ⟨i, hi, hl, hp⟩ := hR
      have hreach : ∀ j, Relation.ReflTransGen M.Edge i j → j ≠ s := fun j hj e => hns ⟨i, hi, hl, e ▸ hj⟩
      obtain ⟨i', rfl⟩ := exists_skip (hreach i Relation.ReflTransGen.refl)
      have key : ∀ j, Relation.ReflTransGen M.Edge (skip s i') j → ∀ a, skip s a = j →
          Relation.ReflTransGen (M.removeState s).Edge i' a := by
        intro j hj
        induction hj with
        | refl => intro a ha; rw [skip_injective s ha]
        | tail hab hbc ih =>
          intro a ha
          obtain ⟨b', hb'⟩ := exists_skip (hreach _ hab)
          refine (ih b' hb').tail ?_
          rw [removeState_edge M hs, hb', ha]
          exact hbc
      refine ⟨i', ?_, ?_, key _ hp a rfl⟩
      · rw [removeState_length M hs]; exact (skip_lt_iff hs).1 hi
      · show (M.labelling.eraseIdx s).getD i' "" = "init"
        rw [getD_eraseIdx]; exact hl)
    M 0 hM.shape hI (by omega)
  change Restricts M.removeUnreachable M keep at h1
  change ∀ i < M.removeUnreachable.matrix.length, (M.removeUnreachable.matrix.all (fun row => row.getD i 0 == 0) &&
    decide (M.removeUnreachable.labelling.getD i "" ≠ "init")) = false at h2
  refine ⟨keep, h1, ?_, ?_⟩
  · intro k hk
    refine h3 k ?_ hk
    obtain ⟨i, hi, _, hp⟩ := hk
    rcases Relation.ReflTransGen.cases_tail hp with h | ⟨c, _, h⟩
    · rw [h]; exact hi
    · exact h.2.1
  · intro j hj
    have hj' : j < M.removeUnreachable.matrix.length := by
      rw [show M.removeUnreachable.matrix.length = keep.length from h1.size]; exact hj
    have hb := h2 j hj'
    rw [Bool.and_eq_false_iff] at hb
    rcases hb with hb | hb
    · right
      rw [List.all_eq_false] at hb
      obtain ⟨row, hr, hx⟩ := hb
      obtain ⟨i, hi, rfl⟩ := List.mem_iff_getElem.1 hr
      refine ⟨i, hi, hj', ?_⟩
      rw [List.getD_eq_getElem?_getD (l := M.removeUnreachable.matrix), List.getElem?_eq_getElem hi, Option.getD_some]
      simpa using hx
    · left
      simpa using hb

/-- C47, the composition: the removal of the unused expressions, in whatever order the set of their indexes is enumerated,
keeps the rate expression of every pair of states; afterwards every expression is used; and if the expression number 0 is
used ("no transition") the pairs without transition are the same. -/
theorem removeUnusedTrans_spec (M : PCTMC K) (hM : M.WF) (order : List ℕ) (hn : order.Nodup)
    (ho : ∀ t, t ∈ order ↔ t < M.exprs.length ∧
      ¬ ∃ i j, i < M.matrix.length ∧ j < M.matrix.length ∧ (M.matrix.getD i []).getD j 0 = t) :
    SameRates (dropAll order M) M ∧
    (∀ t < (dropAll order M).exprs.length, ∃ i j, i < M.matrix.length ∧ j < M.matrix.length ∧
      ((dropAll order M).matrix.getD i []).getD j 0 = t) ∧
    ((∃ i j, i < M.matrix.length ∧ j < M.matrix.length ∧ (M.matrix.getD i []).getD j 0 = 0) →
      ∀ i j, i < M.matrix.length → j < M.matrix.length →
        (((dropAll order M).matrix.getD i []).getD j 0 = 0 ↔ (M.matrix.getD i []).getD j 0 = 0)) := by
  have hiff := M.uses_iff hM.square
  have hmem : ∀ t, t ∈ order ↔ t < M.exprs.length ∧ M.uses t = false := by
    intro t
    rw [ho t, ← Bool.not_eq_true, hiff t]
    rfl
  obtain ⟨h1, h2, h3⟩ := dropAll_eq order M hM.square hn (fun t ht => ((hmem t).1 ht).1) (fun t ht => ((hmem t).1 ht).2)
  refine ⟨h1, ?_, ?_⟩
  · intro t ht
    obtain ⟨i, j, hi, hj, he⟩ := (uses_iff _ h1.square t).1 (h3 (fun t ht hu => (hmem t).2 ⟨ht, hu⟩) t ht)
    rw [h1.size] at hi hj
    exact ⟨i, j, hi, hj, he⟩
  · intro h0
    exact h2 (fun hc => ((ho 0).1 hc).2 h0)

/-- C47, consequence for the removal of the states: it cannot be undone by the learner. If the traces do not contain the label
'init', `fit_parameters` removes the initial states: no state of the trained model is labelled 'init'. -/
theorem reduceForTraces_loses_init (M : PCTMC K) (hM : M.WF) (hI : M.IndexesInRange) (alphabet : List String)
    (h : "init" ∉ alphabet) : "init" ∉ (M.reduceForTraces alphabet).labelling := by
  obtain ⟨keep, h1, h2, _⟩ := M.reduceForTraces_spec hM hI alphabet
  rw [h1.labels]
  intro hm
  obtain ⟨k, hk, he⟩ := List.mem_map.1 hm
  have := (h2 k (h1.inRange k hk)).1 hk
  rw [he] at this
  exact h this

/-- A model with a transition to a state that the traces do not show: a -> b and a -> c with the same rate x. -/
def exSplit (K : Type) [Field K] : PCTMC K where
  matrix := [[0, 1, 1, 0], [0, 0, 0, 0], [2, 0, 0, 0], [3, 0, 0, 0]]
  labelling := ["a", "b", "c", "init"]
  exprs := [.num 0, .sym "x", .sym "y", .num 1]
  values := [("x", 1), ("y", 1)]
  indexes := [[(0, 1), (0, 2)], [(2, 0)]]
  names := ["x", "y"]
  initialState := [0, 0, 0, 1]
  sync := []

theorem exSplit_wf : (exSplit K).WF ∧ (exSplit K).IndexesInRange := by
  refine ⟨⟨?_, rfl, rfl, ?_, ?_⟩, ?_⟩
  · show ∀ row ∈ [[0, 1, 1, 0], [0, 0, 0, 0], [2, 0, 0, 0], [3, 0, 0, 0]], row.length = 4
    decide
  · show ∀ row ∈ [[0, 1, 1, 0], [0, 0, 0, 0], [2, 0, 0, 0], [3, 0, 0, 0]], ∀ t ∈ row, t < 4
    decide
  · intro x hx p hp
    rw [← Expr.mem_free] at hp
    simp only [exSplit, List.mem_cons, List.not_mem_nil, or_false] at hx
    rcases hx with rfl | rfl | rfl | rfl <;> simp_all [Expr.free, exSplit]
  · show ∀ l ∈ [[(0, 1), (0, 2)], [(2, 0)]], ∀ p ∈ l, p.1 < 4 ∧ p.2 < 4
    decide

/-- Non-vacuity of `reduceForTraces_spec`, and a remark on the removal: with traces over {init, a, b} the state c is removed
with its expression y, the rate expressions of the remaining pairs are the same, but the exit rate of a goes from 2x to x: the
removal changes the law of the waiting times (and so the likelihood of the traces). -/
theorem removal_changes_exit_rate :
    ((exSplit ℚ).reduceForTraces ["init", "a", "b"]).matrix = [[0, 1, 0], [0, 0, 0], [2, 0, 0]] ∧
    ((exSplit ℚ).reduceForTraces ["init", "a", "b"]).exprs = [.num 0, .sym "x", .num 1] ∧
    ((exSplit ℚ).reduceForTraces ["init", "a", "b"]).indexes = [[(0, 1)], []] ∧
    (exSplit ℚ).e 0 = .ok 2 ∧ ((exSplit ℚ).reduceForTraces ["init", "a", "b"]).e 0 = .ok 1 := by
  have h : (exSplit ℚ).reduceForTraces ["init", "a", "b"] =
      PCTMC.mk [[0, 1, 0], [0, 0, 0], [2, 0, 0]] ["a", "b", "init"] [.num 0, .sym "x", .num 1] [("x", 1), ("y", 1)] [[(0, 1)], []] ["x", "y"] [0, 0, 1] [] := by
    unfold reduceForTraces removeUnseen
    simp [removeLoop, dropUnused, exSplit, removeState, shiftPair, uses, dropExpr, List.eraseIdx]
  rw [h]
  refine ⟨rfl, rfl, rfl, by decide +kernel, by decide +kernel⟩

/-- The hypotheses of `reduceForTraces_loses_init` are met by traces that start with the label of the first real state; the
trained model then gives probability 0 to every start. -/
example : ((exSplit ℚ).reduceForTraces ["a", "b"]).initialState = [0, 0] := by
  have h : ((exSplit ℚ).reduceForTraces ["a", "b"]).initialState = [0, 0] := by
    unfold reduceForTraces removeUnseen
    simp [removeLoop, dropUnused, exSplit, removeState, shiftPair, uses, dropExpr, List.eraseIdx]
  exact h

end Jajapy.PCTMC
