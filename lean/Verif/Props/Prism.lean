import Verif.Lemmas.PrismProgram
import Verif.Lemmas.FilesDec

/-!
C76: the Prism file that `savePrism` writes is a Prism program, and this program is the model.
-/

namespace Jajapy.Prism

open Spec.Prism Files

variable {K : Type} [Field K] [LinearOrder K] (IO : FloatIO K) {n : ℕ}

/-- The file of a model whose state `i` has the choices `g i`. -/
theorem save_describes (hIO : ∀ x, IO.dom x → 0 < x → Decimal (IO.repr x)) (k : ModelType) {name : List Char} (hname : IsName name)
    (g : Fin n → List (List Char × (Fin n → K))) (hg : ∀ i, ∀ q ∈ g i, (q.1 = [] ∨ IsName q.1) ∧ ∀ j, 0 ≤ q.2 j ∧ IO.dom (q.2 j))
    (init : Fin n → K) (hi : ∃ s, init s = 1) (label : Fin n → String) (hl : ∀ s, label s ≠ "init" → IsName (label s).toList)
    (commands : List Char) (hc : commands = (rowsOf g).flatMap (fun c => rowText IO c.1 c.2.1 c.2.2)) :
    ∃ text P start, savePrismText (kindWord k) name (List.ofFn init) commands (List.ofFn label) = .ok text ∧
      readPrism IO.parse (literal IO.parse) text = some P ∧ P.name = name ∧ init start = 1 ∧ Describes P k start (choicesOf g) label := by
  obtain ⟨i, hidx⟩ := initialIndex_ok init hi
  obtain ⟨s, rfl, hs⟩ := initialIndex_eq init hidx
  have hl' : ∀ l ∈ List.ofFn label, l ≠ "init" → IsName l.toList := by
    intro l h
    obtain ⟨s, rfl⟩ := List.mem_ofFn.1 h
    exact hl s
  have hread := read_text (real := IO.parse) k hname ((List.ofFn label).length - 1) s.val (Or.inl rfl) _ (rows_ok IO hIO g hg) (List.ofFn label) hl'
  have hpos : 0 < n := s.pos
  refine ⟨_, _, s, ?_, hread, rfl, hs, ⟨rfl, rfl, rfl, ?_, rfl, ?_, ?_, ?_, labelTable_distinct _⟩⟩
  · unfold savePrismText
    rw [hidx, hc, rows_text]
    rfl
  · simp only [List.length_ofFn]; omega
  · intro s'
    exact enabled_rows IO hIO g hg _ rfl s'
  · intro c hc
    obtain ⟨c', hc', rfl⟩ := List.mem_map.1 hc
    obtain ⟨r, hr, rfl⟩ := List.mem_map.1 hc'
    obtain ⟨j, _, hj⟩ := List.mem_flatMap.1 (List.mem_filter.1 hr).1
    obtain ⟨q, _, rfl⟩ := List.mem_map.1 hj
    exact j.2
  · intro s' l
    unfold holds
    rw [labelTable_holds]
    constructor
    · rintro ⟨a, ha, h1, h2⟩
      rw [List.getElem?_ofFn] at ha
      split_ifs at ha with h
      · simp only [Option.some.injEq] at ha
        exact ⟨h, by rw [ha]; exact ⟨h1, h2⟩⟩
    · rintro ⟨h, h1, h2⟩
      exact ⟨label ⟨s', h⟩, by rw [List.getElem?_ofFn, dif_pos h], h1, h2⟩

theorem matrixText_rows (m : Fin n → Fin n → K) :
    matrixText IO (rows m) = (rowsOf (fun i => [([], m i)])).flatMap (fun c => rowText IO c.1 c.2.1 c.2.2) := by
  unfold matrixText rows rowsOf
  rw [zipIdx_ofFn, List.flatMap_map, List.flatMap_assoc]
  apply List.flatMap_congr
  intro i _
  simp

theorem choicesOf_chain (m : Fin n → Fin n → K) : choicesOf (fun i => [([], m i)]) = chainChoices m := by
  funext s
  unfold choicesOf chainChoices
  by_cases h : ∃ j, m s j ≠ 0
  · rw [if_pos h, List.filterMap_cons, if_pos h]; rfl
  · rw [if_neg h, List.filterMap_cons, if_neg h]; rfl

/-- C76, MC: if some state has the initial probability 1 and the names are Prism names, `savePrism` writes a Prism program, and the
program is the chain: its states, where it starts, the probabilities of its transitions and its labels. -/
theorem saveMC_describes (hIO : ∀ x, IO.dom x → 0 < x → Decimal (IO.repr x)) (M : MC K String n) {name : List Char} (hname : IsName name)
    (hl : ∀ s, M.labelling s ≠ "init" → IsName (M.labelling s).toList) (hm : ∀ i j, 0 ≤ M.matrix i j ∧ IO.dom (M.matrix i j))
    (hi : ∃ s, M.initialState s = 1) : ∃ text P start, saveMC IO M name = .ok text ∧ readPrism IO.parse (literal IO.parse) text = some P ∧
      P.name = name ∧ M.initialState start = 1 ∧ Describes P .dtmc start (chainChoices M.matrix) M.labelling := by
  have h := save_describes IO hIO .dtmc hname (fun i => [([], M.matrix i)])
    (by intro i q hq; simp at hq; subst hq; exact ⟨Or.inl rfl, hm i⟩) M.initialState hi M.labelling hl _ (matrixText_rows IO M.matrix)
  rwa [choicesOf_chain] at h

/-- C76, CTMC. -/
theorem saveCTMC_describes (hIO : ∀ x, IO.dom x → 0 < x → Decimal (IO.repr x)) (M : CTMC K String n) {name : List Char} (hname : IsName name)
    (hl : ∀ s, M.labelling s ≠ "init" → IsName (M.labelling s).toList) (hm : ∀ i j, 0 ≤ M.matrix i j ∧ IO.dom (M.matrix i j))
    (hi : ∃ s, M.initialState s = 1) : ∃ text P start, saveCTMC IO M name = .ok text ∧ readPrism IO.parse (literal IO.parse) text = some P ∧
      P.name = name ∧ M.initialState start = 1 ∧ Describes P .ctmc start (chainChoices M.matrix) M.labelling := by
  have h := save_describes IO hIO .ctmc hname (fun i => [([], M.matrix i)])
    (by intro i q hq; simp at hq; subst hq; exact ⟨Or.inl rfl, hm i⟩) M.initialState hi M.labelling hl _ (matrixText_rows IO M.matrix)
  rwa [choicesOf_chain] at h

theorem zip_ofFn {α β : Type} (l : List α) (f : Fin l.length → β) : l.zip (List.ofFn f) = (List.finRange l.length).map (fun a => (l[a], f a)) := by
  apply List.ext_getElem
  · simp
  · intro i h1 h2
    simp

theorem cubeText_rows (M : MDP K String n) : cubeText IO M.actions (List.ofFn (fun i => rows (M.matrix i))) =
    (rowsOf (fun i => (List.finRange M.actions.length).map (fun a => ((M.actions[a]).toList, M.matrix i a)))).flatMap
      (fun c => rowText IO c.1 c.2.1 c.2.2) := by
  unfold cubeText rowsOf
  rw [zipIdx_ofFn, List.flatMap_map, List.flatMap_assoc]
  apply List.flatMap_congr
  intro i _
  dsimp only
  unfold rows
  rw [zip_ofFn, List.flatMap_map, List.map_map, List.flatMap_map]
  rfl

theorem choicesOf_mdp (M : MDP K String n) (ha : ∀ a ∈ M.actions, IsName a.toList) :
    choicesOf (fun i => (List.finRange M.actions.length).map (fun a => ((M.actions[a]).toList, M.matrix i a))) = mdpChoices M := by
  funext s
  unfold choicesOf mdpChoices
  rw [List.filterMap_map]
  apply List.filterMap_congr
  intro a _
  simp only [Function.comp]
  have : (M.actions[a]).toList ≠ [] := by
    intro e
    have := ha _ (List.getElem_mem a.2)
    rw [show M.actions[a.val] = M.actions[a] from rfl, e] at this
    exact absurd this (by decide)
  rw [if_neg this]

/-- C76, MDP: the choices of a state are those of its actions, each under its name. -/
theorem saveMDP_describes (hIO : ∀ x, IO.dom x → 0 < x → Decimal (IO.repr x)) (M : MDP K String n) {name : List Char} (hname : IsName name)
    (ha : ∀ a ∈ M.actions, IsName a.toList) (hl : ∀ s, M.labelling s ≠ "init" → IsName (M.labelling s).toList)
    (hm : ∀ i a j, 0 ≤ M.matrix i a j ∧ IO.dom (M.matrix i a j)) (hi : ∃ s, M.initialState s = 1) :
    ∃ text P start, saveMDP IO M name = .ok text ∧ readPrism IO.parse (literal IO.parse) text = some P ∧
      P.name = name ∧ M.initialState start = 1 ∧ Describes P .mdp start (mdpChoices M) M.labelling := by
  have h := save_describes IO hIO .mdp hname (fun i => (List.finRange M.actions.length).map (fun (a : Fin M.actions.length) => ((M.actions[a]).toList, M.matrix i a)))
    (by
      intro i q hq
      obtain ⟨a, _, rfl⟩ := List.mem_map.1 hq
      exact ⟨Or.inr (ha (M.actions[a]) (List.getElem_mem a.2)), hm i a⟩) M.initialState hi M.labelling hl _ (cubeText_rows IO M)
  rwa [choicesOf_mdp M ha] at h

/-- C76: a model without a state of initial probability 1 is refused with an IndexError. -/
theorem save_no_initial (M : MC K String n) (h : ∀ s, M.initialState s ≠ 1) (name : List Char) : saveMC IO M name = .error .indexError := by
  unfold saveMC savePrismText
  rw [initialIndex_error _ h]
  rfl

theorem save_no_initial_CTMC (M : CTMC K String n) (h : ∀ s, M.initialState s ≠ 1) (name : List Char) : saveCTMC IO M name = .error .indexError := by
  unfold saveCTMC savePrismText
  rw [initialIndex_error _ h]
  rfl

theorem save_no_initial_MDP (M : MDP K String n) (h : ∀ s, M.initialState s ≠ 1) (name : List Char) : saveMDP IO M name = .error .indexError := by
  unfold saveMDP savePrismText
  rw [initialIndex_error _ h]
  rfl

end Jajapy.Prism
