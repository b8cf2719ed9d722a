import Verif.Model.PrintPCTMC
import Verif.Lemmas.Print
import Verif.Lemmas.PCTMC
import Verif.Props.Print

/-!
Lemmas about printed PCTMCs: the lines of the text.
-/

namespace Jajapy
namespace Print

open Files Spec PCTMC

/-! ### A text made of first lines and of the blocks of the states -/

section
variable {n : ℕ} {state head : Fin n → List Char} {body : Fin n → List (List Char)} {pre : List (List Char)}

/-- First lines, then the blocks of the states. -/
def blocksText (pre : List (List Char)) (state : Fin n → List Char) : List Char :=
  lines pre ++ (List.finRange n).flatMap (fun i => state i ++ ['\n']) ++ ['\n']

theorem textLines_blocks (hpre : ∀ l ∈ pre, '\n' ∉ l) (B : Block state head body) :
    textLines (blocksText pre state) = pre ++ ((List.finRange n).flatMap (fun i => head i :: body i ++ [[]]) ++ [[], []]) := by
  have e : blocksText pre state = lines (pre ++ (List.finRange n).flatMap (fun i => head i :: body i ++ [[]]) ++ [[]]) := by
    unfold blocksText
    rw [lines_append, lines_append, lines_flatMap]
    have e : (fun i => state i ++ ['\n']) = (fun i => lines (head i :: body i ++ [[]])) := by
      funext i
      rw [B.text, lines_append]
      rfl
    rw [e]
    rfl
  rw [e, textLines_lines]
  · simp
  · intro l hl
    simp only [List.mem_append, List.mem_flatMap, List.mem_cons, List.not_mem_nil, or_false] at hl
    rcases hl with (hl | ⟨i, _, (rfl | hl) | rfl⟩) | rfl
    · exact hpre l hl
    · exact (B.head_ok i).1
    · exact (B.body_ok i l hl).1
    · simp
    · simp

theorem section_blocks (hpre : ∀ l ∈ pre, '\n' ∉ l ∧ l.head? ≠ some '-') (B : Block state head body) (i : Fin n) :
    sectionOf (blocksText pre state) (head i) = body i := by
  unfold sectionOf
  rw [textLines_blocks (fun l h => (hpre l h).1) B]
  obtain ⟨l1, l2, hl⟩ := List.append_of_mem (List.mem_finRange i)
  have hnd : (l1 ++ i :: l2).Nodup := hl ▸ List.nodup_finRange n
  have hi : i ∉ l1 := fun h => (List.nodup_append.1 hnd).2.2 i h i (by simp) rfl
  have e : pre ++ ((List.finRange n).flatMap (fun i => head i :: body i ++ [[]]) ++ [[], []]) =
      (pre ++ l1.flatMap (fun i => head i :: body i ++ [[]])) ++
        (head i :: (body i ++ [] :: (l2.flatMap (fun i => head i :: body i ++ [[]]) ++ [[], []]))) := by
    rw [hl]; simp
  rw [e, List.dropWhile_append_of_pos, List.dropWhile_cons_of_neg (by simp), List.tail_cons,
    List.takeWhile_append_of_pos (fun l h => by simpa using (B.body_ok i l h).2.1), List.takeWhile_cons_of_neg (by simp), List.append_nil]
  intro l hl'
  simp only [decide_eq_true_eq]
  rintro rfl
  simp only [List.mem_append, List.mem_flatMap, List.mem_cons, List.not_mem_nil, or_false] at hl'
  have h0 := (B.head_ok i).2
  rcases hl' with h | ⟨j, hj, (h | h) | h⟩
  · exact (hpre _ h).2 h0
  · exact hi (B.inj h ▸ hj)
  · exact (B.body_ok j _ h).2.2 h0
  · rw [h] at h0; cases h0

theorem head_blocks (hpre : ∀ l ∈ pre, '\n' ∉ l ∧ l.head? ≠ some '-') (B : Block state head body) {l : List Char} (hl : l.head? = some '-') :
    l ∈ textLines (blocksText pre state) ↔ ∃ i, l = head i := by
  rw [textLines_blocks (fun l h => (hpre l h).1) B]
  simp only [List.mem_append, List.mem_flatMap, List.mem_cons, List.not_mem_nil, or_false, List.mem_finRange, true_and]
  constructor
  · rintro (h | ⟨j, (h | h) | h⟩ | h | h)
    · exact absurd hl (hpre l h).2
    · exact ⟨j, h⟩
    · exact absurd hl (B.body_ok j _ h).2.2
    all_goals (rw [h] at hl; cases hl)
  · rintro ⟨i, rfl⟩
    exact .inr (.inl ⟨i, .inl (.inl rfl)⟩)

end

/-! ### The lines of a PCTMC -/

variable {K : Type} [Field K] [LinearOrder K] (IO : RoundIO K) (SIO : SymIO K)

/-- The first lines. -/
def preLines (M : PCTMC K) (name : List Char) : List (List Char) :=
  ("Name: ".toList ++ name) :: (M.values.map (fun p => valueLine p.1 (IO.repr (IO.round 5 p.2))) ++
    [[], initialLine IO (n := M.nb) (fun i => M.initialState.getD i 0)])

open Classical in
/-- What follows `lambda = `. -/
noncomputable def rateText (M : PCTMC K) (ρ : String → K) (i j : ℕ) : List Char :=
  (SIO.str (M.rateExpr i j)).toList ++
    if (∃ p, (M.rateExpr i j).Occurs p) ∧ ∀ p, (M.rateExpr i j).Occurs p → Known M.values p then
      " (=".toList ++ SIO.number ((M.rateExpr i j).den ρ) ++ ")".toList else []

open Classical in
/-- The line of the expected waiting time. -/
noncomputable def waitLines (M : PCTMC K) (ρ : String → K) (i : ℕ) : List (List Char) :=
  if ∀ j < M.nb, ∀ p, (M.rateExpr i j).Occurs p → Known M.values p then
    ["Exepected waiting time: ".toList ++
      if ∑ j : Fin M.nb, (M.rateExpr i j).den ρ = 0 then "inf".toList else IO.repr (IO.round 5 (1 / ∑ j : Fin M.nb, (M.rateExpr i j).den ρ))]
  else []

/-- The lines of a state. -/
noncomputable def pctmcLines (M : PCTMC K) (ρ : String → K) (i : Fin M.nb) : List (List Char) :=
  waitLines IO M ρ i ++ ((List.finRange M.nb).filter (fun j : Fin M.nb => decide ((M.matrix.getD i []).getD j 0 ≠ 0))).map
    (fun j : Fin M.nb => arrowLine i j ("lambda = ".toList ++ rateText SIO M ρ i j))

theorem isInstantiatedPair_eq (M : PCTMC K) (hM : M.WF) {i j : ℕ} (hi : i < M.nb) (hj : j < M.nb) :
    ∃ b, M.isInstantiatedPair i j = .ok b ∧ (b = true ↔ ∀ p, (M.rateExpr i j).Occurs p → Known M.values p) := by
  unfold isInstantiatedPair checkState
  rw [if_neg (by omega), M.involved_eq hM hi hj]
  refine ⟨_, rfl, ?_⟩
  rw [List.all_eq_true]
  exact ⟨fun h p hp => (isSome_known _ _).1 (h p ((Expr.mem_free _ _).2 hp)),
    fun h p hp => (isSome_known _ _).2 (h p ((Expr.mem_free _ _).1 hp))⟩

variable {M : PCTMC K} {ρ : String → K}

theorem linePCTMC_eq (hM : M.WF) (hρ : Extends ρ M.values) {i j : ℕ} (hi : i < M.nb) (hj : j < M.nb) :
    linePCTMC SIO M i j = .ok (if (M.matrix.getD i []).getD j 0 ≠ 0 then transition i j ("lambda = ".toList ++ rateText SIO M ρ i j) else []) := by
  unfold linePCTMC
  by_cases h0 : (M.matrix.getD i []).getD j 0 ≠ 0
  · rw [if_pos h0, if_pos h0, M.transitionExpression_eq hM hi hj, M.involved_eq hM hi hj]
    obtain ⟨b, hb, hbs⟩ := isInstantiatedPair_eq M hM hi hj
    rw [hb]
    have hl : (M.rateExpr i j).free.length > 0 ↔ ∃ p, (M.rateExpr i j).Occurs p := by
      rw [gt_iff_lt, List.length_pos_iff_exists_mem]
      exact exists_congr fun p => Expr.mem_free _ _
    unfold rateText
    by_cases hc : (∃ p, (M.rateExpr i j).Occurs p) ∧ ∀ p, (M.rateExpr i j).Occurs p → Known M.values p
    · rw [if_pos hc, M.evaluate_eq hM hi hj, Expr.eval_some _ _ hc.2 ρ hρ, hbs.2 hc.2]
      have := hl.2 hc.1
      simp [Bind.bind, Except.bind, this, pure, Except.pure]
    · rw [if_neg hc, List.append_nil]
      have : (b && decide ((M.rateExpr i j).free.length > 0)) = false := by
        rw [Bool.eq_false_iff]
        intro h
        rw [Bool.and_eq_true, decide_eq_true_eq] at h
        exact hc ⟨hl.1 h.2, hbs.1 h.1⟩
      simp only [Bind.bind, Except.bind, this]
      rfl
  · rw [if_neg h0, if_neg h0]

theorem waitingPCTMC_eq (hM : M.WF) (hρ : Extends ρ M.values) {i : ℕ} (hi : i < M.nb) :
    waitingPCTMC IO M i = .ok (lines (waitLines IO M ρ i)) := by
  unfold waitingPCTMC waitLines
  obtain ⟨b, hb, hbs⟩ := M.isInstantiatedState_eq hM hi
  rw [hb]
  by_cases h : M.StateFull i
  · rw [if_pos (show ∀ j < M.nb, _ from h), hbs.2 h]
    unfold expectedTime
    rw [(M.e_eq hM hi).1 h ρ hρ]
    by_cases h0 : ∑ j : Fin M.matrix.length, (M.rateExpr i j).den ρ = 0
    · rw [if_pos (show ∑ j : Fin M.nb, (M.rateExpr i j).den ρ = 0 from h0)]
      simp only [Bind.bind, Except.bind, orNothing, h0, if_true]
      simp [outText, lines, pure, Except.pure]
    · rw [if_neg (show ¬ ∑ j : Fin M.nb, (M.rateExpr i j).den ρ = 0 from h0)]
      simp only [Bind.bind, Except.bind, orNothing, h0, if_true, if_false]
      simp [outText, lines, pure, Except.pure, nb]
      rfl
  · rw [if_neg (show ¬ ∀ j < M.nb, _ from h)]
    have : b = false := by
      cases b
      · rfl
      · exact absurd (hbs.1 rfl) h
    rw [this]
    rfl

theorem statePCTMC_eq (hM : M.WF) (hρ : Extends ρ M.values) (i : Fin M.nb) :
    statePCTMC IO SIO M i = .ok (lines (headerLine i (M.labelling.getD i "") :: pctmcLines IO SIO M ρ i)) := by
  unfold statePCTMC
  have hw : (M.matrix.getD i []).length = M.nb := by
    rw [List.getD_eq_getElem?_getD, List.getElem?_eq_getElem (show i.val < _ from i.2)]
    exact hM.square _ (List.getElem_mem _)
  rw [waitingPCTMC_eq IO hM hρ i.2, hw, mapM_range _ _ (fun j hj => linePCTMC_eq SIO hM hρ i.2 hj)]
  simp only [Bind.bind, Except.bind, pure, Except.pure]
  rw [lines_header, List.append_assoc]
  congr 2
  unfold pctmcLines
  rw [lines_append]
  congr 1
  rw [← flatMap_if, lines_flatMap, ← List.flatMap_def, ← List.map_coe_finRange_eq_range, List.flatMap_map]
  congr 1
  funext j
  rw [lines_if]
  split_ifs
  · simp [arrowLine, transition]
  · rfl

theorem initialText_eq {n : ℕ} (res : List Char) (init : Fin n → K) : initialText IO res init = res ++ lines [initialLine IO init] := by
  unfold initialText initialLine
  cases (List.finRange n).find? (fun i => decide (init i = 1)) with
  | some i => simp [lines]
  | none =>
    simp only
    rw [List.append_assoc res, dropLast_append_two _ _ (by simp)]
    simp [lines]

/-- The text is the first lines and the blocks of the states. -/
theorem printPCTMC_eq (hM : M.WF) (hρ : Extends ρ M.values) (name : List Char) :
    printPCTMC IO SIO M name = .ok (blocksText (preLines IO M name)
      (fun i : Fin M.nb => lines (headerLine i (M.labelling.getD i "") :: pctmcLines IO SIO M ρ i))) := by
  unfold printPCTMC
  have hs : (List.range M.nb).mapM (statePCTMC IO SIO M) =
      .ok ((List.finRange M.nb).map (fun i : Fin M.nb => lines (headerLine i (M.labelling.getD i "") :: pctmcLines IO SIO M ρ i))) := by
    rw [← List.map_coe_finRange_eq_range, List.mapM_map]
    apply List.mapM_ok
    intro i _
    exact statePCTMC_eq IO SIO hM hρ i
  rw [hs]
  simp only [Bind.bind, Except.bind, pure, Except.pure]
  rw [initialText_eq]
  unfold blocksText preLines
  congr 2
  rw [List.map_map, ← List.flatMap_def]
  congr 1
  have hv : valueLines IO M.values = lines (M.values.map (fun p => valueLine p.1 (IO.repr (IO.round 5 p.2)))) := by
    unfold valueLines lines valueLine
    rw [List.flatMap_map]
  rw [hv]
  simp [lines]

/-- The texts of the model fit on their lines. -/
structure Printable (M : PCTMC K) (name : List Char) : Prop where
  name : '\n' ∉ name
  labels : ∀ l ∈ M.labelling, '\n' ∉ l.toList
  params : ∀ p ∈ M.values, '\n' ∉ p.1.toList ∧ p.1.toList.head? ≠ some '-'
  values : ∀ p ∈ M.values, IO.dom p.2
  init : ∀ x ∈ M.initialState, IO.dom x
  exprs : ∀ e ∈ M.exprs, SIO.dom e
  waiting : ∀ ρ, Extends ρ M.values → ∀ i < M.nb, (∀ j < M.nb, ∀ p, (M.rateExpr i j).Occurs p → Known M.values p) →
    ∑ j : Fin M.nb, (M.rateExpr i j).den ρ = 0 ∨ IO.dom (1 / ∑ j : Fin M.nb, (M.rateExpr i j).den ρ)

theorem Printable.initDom {name : List Char} (h : Printable IO SIO M name) (hM : M.WF) (i : Fin M.nb) : IO.dom (M.initialState.getD i 0) := by
  rw [List.getD_eq_getElem?_getD, List.getElem?_eq_getElem (show i.val < _ by rw [hM.init]; exact i.2)]
  exact h.init _ (List.getElem_mem _)

theorem valueLine_ok {p : String} {x : List Char} (hp : '\n' ∉ p.toList ∧ p.toList.head? ≠ some '-') (hx : '\n' ∉ x) :
    '\n' ∉ valueLine p x ∧ (valueLine p x).head? ≠ some '-' ∧ valueLine p x ≠ [] := by
  unfold valueLine
  refine ⟨notMem_append (notMem_append hp.1 (by decide)) hx, ?_, by simp⟩
  cases h : p.toList with
  | nil => simp
  | cons c l =>
    have := hp.2
    rw [h] at this
    simpa using this

theorem pre_ok {name : List Char} (h : Printable IO SIO M name) (hM : M.WF) (l : List Char) (hl : l ∈ preLines IO M name) :
    '\n' ∉ l ∧ l.head? ≠ some '-' := by
  unfold preLines at hl
  simp only [List.mem_cons, List.mem_append, List.mem_map, List.not_mem_nil, or_false] at hl
  rcases hl with rfl | ⟨p, hp, rfl⟩ | rfl | rfl
  · exact ⟨notMem_append (by decide) h.name, by simp⟩
  · have := valueLine_ok (h.params p hp) (repr_notMem IO (c := '\n') (by decide) (IO.round_dom 5 _ (h.values p hp)))
    exact ⟨this.1, this.2.1⟩
  · simp
  · exact ⟨initialLine_chars IO _ (h.initDom IO SIO hM), by rw [initialLine_head]; decide⟩

theorem rateText_ok {name : List Char} (h : Printable IO SIO M name) (hM : M.WF) {i j : ℕ} (hi : i < M.nb) (hj : j < M.nb) :
    '\n' ∉ rateText SIO M ρ i j := by
  unfold rateText
  refine notMem_append (SIO.str_chars _ (h.exprs _ (M.rateExpr_mem hM hi hj))).1 ?_
  split_ifs
  · exact notMem_append (notMem_append (by decide) (SIO.number_chars _)) (by decide)
  · simp

theorem blockPCTMC {name : List Char} (h : Printable IO SIO M name) (hM : M.WF) (hρ : Extends ρ M.values) :
    Block (fun i : Fin M.nb => lines (headerLine i (M.labelling.getD i "") :: pctmcLines IO SIO M ρ i))
      (fun i => headerLine i (M.labelling.getD i "")) (pctmcLines IO SIO M ρ) where
  text i := rfl
  head_ok i := headerLine_ok (by
    rw [List.getD_eq_getElem?_getD, List.getElem?_eq_getElem (show i.val < _ by rw [hM.labels]; exact i.2)]
    exact h.labels _ (List.getElem_mem _))
  body_ok i l hl := by
    unfold pctmcLines at hl
    rcases List.mem_append.1 hl with hl | hl
    · unfold waitLines at hl
      split_ifs at hl with h1 h2
      · rw [List.mem_singleton.1 hl]
        exact ⟨by decide, by decide, by decide⟩
      · rw [List.mem_singleton.1 hl]
        refine ⟨notMem_append (by decide) (repr_notMem IO (by decide) (IO.round_dom _ _ ?_)), by simp, by simp⟩
        exact (h.waiting ρ hρ i i.2 h1).resolve_left h2
      · cases hl
    · obtain ⟨j, _, rfl⟩ := List.mem_map.1 hl
      exact arrowLine_ok (notMem_append (by decide) (rateText_ok IO SIO h hM i.2 j.2))
  inj i j h := Fin.ext (headerLine_inj h).1

end Print
end Jajapy
