import Verif.Props.PrismRound

/-!
C76, C77: examples and counterexamples, with decimal fractions for the floats.
-/

namespace Jajapy.Prism

open Spec.Prism Spec.Storm Files

/-- The texts of the floats meet the hypothesis of the theorems of C76 and C77. -/
theorem dec_decimal : ∀ x, decIO.dom x → 0 < x → Decimal (decIO.repr x) := by
  intro x _ hx
  obtain ⟨a, b, ha, hb, ha', hb', _, _, e⟩ := decRepr_shape x
  rw [if_neg (not_lt.2 hx.le)] at e
  exact ⟨a, '.' :: b, [], by rw [List.append_nil]; exact e, ha, ha', Or.inr ⟨b, hb, hb', rfl⟩, Or.inl rfl, by simp⟩

/-- A chain with three states. -/
def threeMC : MC ℚ String 3 where
  matrix i j := if i = 0 then (if j = 0 then 1/4 else if j = 1 then 3/4 else 0) else if j = 2 then 1 else 0
  labelling s := if s = 0 then "init" else if s = 1 then "a" else "b_2"
  initialState s := if s = 0 then 1 else 0

/-- Hypotheses of `saveMC_describes` and `mc_prism_round_trip_partial`. -/
example : IsName "model".toList ∧ (∀ s, threeMC.labelling s ≠ "init" → IsName (threeMC.labelling s).toList) ∧
    (∀ i j, 0 ≤ threeMC.matrix i j ∧ decIO.dom (threeMC.matrix i j)) ∧ (∀ s, threeMC.initialState s = if s = 0 then 1 else 0) ∧
    (∀ s, threeMC.labelling s = "init" ↔ s = 0) ∧ (∀ s, threeMC.labelling s ≠ "deadlock") ∧ ∀ s, ∑ j, threeMC.matrix s j = 1 := by
  refine ⟨by decide, by decide +kernel, ?_, fun _ => rfl, by decide +kernel, by decide +kernel, by decide +kernel⟩
  intro i j
  refine ⟨?_, 2, ?_⟩ <;> revert i j <;> decide +kernel

example : ∃ text P, saveMC decIO threeMC "model".toList = .ok text ∧ readPrism decIO.parse (literal decIO.parse) text = some P ∧ (∃ S e, Built P S e) ∧
    ∀ S e, Built P S e → ∃ n', ∃ M' : MC ℚ String n', Storm.toMC S = .ok ⟨n', M'⟩ ∧ ∀ w, M'.lik w = threeMC.lik w :=
  mc_prism_round_trip_partial decIO dec_decimal threeMC (by decide) (by decide +kernel)
    (by intro i j; refine ⟨?_, 2, ?_⟩ <;> revert i j <;> decide +kernel) (start := 0) (fun _ => rfl) (by decide +kernel) (by decide +kernel) (by decide +kernel)

/-- The file of the example. -/
example : (saveMC decIO threeMC "model".toList).map String.ofList = .ok ("dtmc\n\nmodule model\n\ts: [0..2] init 0;\n\n\t[] s=0 -> 0.25:(s'=0) + 0.75:(s'=1);\n" ++
    "\t[] s=1 -> 1.0:(s'=2);\n\t[] s=2 -> 1.0:(s'=2);\nendmodule\n\nlabel \"a\" = s=1 ;\nlabel \"b_2\" = s=2 ;\n") := by decide +kernel

/-- The same states as a CTMC, where the last state is never left. -/
def threeCTMC : CTMC ℚ String 3 where
  matrix i j := if i = 0 then (if j = 1 then 3/4 else 0) else if i = 1 then (if j = 2 then 5 else 0) else 0
  labelling s := if s = 0 then "init" else if s = 1 then "a" else "b_2"
  initialState s := if s = 0 then 1 else 0

/-- Hypotheses of `saveCTMC_describes` and `ctmc_prism_round_trip_partial`. -/
example : (∀ s, threeCTMC.labelling s ≠ "init" → IsName (threeCTMC.labelling s).toList) ∧
    (∀ i j, 0 ≤ threeCTMC.matrix i j ∧ decIO.dom (threeCTMC.matrix i j)) ∧ (∀ s, threeCTMC.initialState s = if s = 0 then 1 else 0) ∧
    (∀ s, threeCTMC.labelling s = "init" ↔ s = 0) ∧ ∀ s, threeCTMC.labelling s ≠ "deadlock" := by
  refine ⟨by decide +kernel, ?_, fun _ => rfl, by decide +kernel, by decide +kernel⟩
  intro i j
  refine ⟨?_, 2, ?_⟩ <;> revert i j <;> decide +kernel

/-- An MDP where the action 'right' is available in the first state only. -/
def twoMDP : MDP ℚ String 2 where
  actions := ["left", "right"]
  matrix i a j := if i = 0 then (if a = 0 then (if j = 0 then 1 else 0) else 1/2) else if a = 0 then (if j = 1 then 1 else 0) else 0
  labelling s := if s = 0 then "init" else "x"
  initialState s := if s = 0 then 1 else 0

/-- Hypotheses of `saveMDP_describes`. -/
example : (∀ a ∈ twoMDP.actions, IsName a.toList) ∧ (∀ s, twoMDP.labelling s ≠ "init" → IsName (twoMDP.labelling s).toList) ∧
    (∀ i a j, 0 ≤ twoMDP.matrix i a j ∧ decIO.dom (twoMDP.matrix i a j)) ∧ ∃ s, twoMDP.initialState s = 1 := by
  refine ⟨by decide +kernel, by decide +kernel, ?_, 0, rfl⟩
  intro i a j
  refine ⟨?_, 1, ?_⟩ <;> revert i a j <;> decide +kernel

/-! ### Violations of C76 -/

/-- C76, violation: a name with a space (here the one of the model) is written as it is, and the file cannot be read. -/
theorem name_with_space : ∃ text, saveMC decIO threeMC "my model".toList = .ok text ∧ readPrism decIO.parse (literal decIO.parse) text = none :=
  ⟨_, rfl, by decide +kernel⟩

/-- C76, violation: a label that is not a Prism name, for example a number. -/
theorem label_number : ∃ M : MC ℚ String 2, (∀ s, ∑ j, M.matrix s j = 1) ∧ M.initialState 0 = 1 ∧ ∃ text, saveMC decIO M "m".toList = .ok text ∧
    readPrism decIO.parse (literal decIO.parse) text = none :=
  ⟨⟨fun _ j => if j = 1 then 1 else 0, fun s => if s = 0 then "init" else "1", fun s => if s = 0 then 1 else 0⟩, by decide +kernel, rfl, _, rfl, by decide +kernel⟩

/-- C76, violation: a chain with two initial states is refused. -/
theorem two_initial : ∃ M : MC ℚ String 2, (∀ s, ∑ j, M.matrix s j = 1) ∧ ∑ s, M.initialState s = 1 ∧ saveMC decIO M "m".toList = .error .indexError :=
  ⟨⟨fun _ j => if j = 1 then 1 else 0, fun _ => "init", fun _ => 1/2⟩, by decide +kernel, by decide +kernel, save_no_initial _ _ (by intro s; show (1/2 : ℚ) ≠ 1; norm_num) _⟩

/-! ### Violations of C77 -/

/-- Hypotheses of `mc_prism_dead`. -/
example : decIO.dom 0 ∧ decIO.dom 1 := ⟨⟨0, by decide +kernel⟩, ⟨0, by decide +kernel⟩⟩

/-- An MDP where the first state has the actions 'left' (to the second state) and 'right', and the second one 'right' only. -/
def mixedMDP : MDP ℚ String 2 where
  actions := ["left", "right"]
  matrix i a j := if a = 0 then (if i = 0 ∧ j = 1 then 1 else 0) else if i = j then 1 else 0
  labelling s := if s = 0 then "init" else "x"
  initialState s := if s = 0 then 1 else 0

/-- C77, violation: the names of the actions are lost, and in the loaded MDP the same action is 'left' in the first state and 'right' in the second. (`left` is not
available in the second state.) -/
theorem mdp_prism_mixed : (∀ j, mixedMDP.matrix 1 (0 : Fin 2) j = 0) ∧
    ∃ text P, saveMDP decIO mixedMDP "m".toList = .ok text ∧ readPrism decIO.parse (literal decIO.parse) text = some P ∧ (∃ S e, BuiltMDP P S e) ∧
      ∀ S e, BuiltMDP P S e → ∀ order, SetOrder order (Storm.allNames S []) → ∃ n', ∃ M' : MDP ℚ String n', Storm.toMDP S order = .ok ⟨n', M'⟩ ∧
        "left" ∉ M'.actions ∧ "right" ∉ M'.actions ∧
        ∃ s t a, M'.labelling s = "init" ∧ M'.labelling t = "x" ∧ M'.matrix s a t = 1 ∧ M'.matrix t a t = 1 := by
  refine ⟨by decide +kernel, ?_⟩
  obtain ⟨text, P, h1, h2, h3, h⟩ := mdp_prism_round_trip_partial decIO dec_decimal mixedMDP (name := "m".toList) (by decide) (by decide +kernel) (by decide +kernel)
    (by intro i a j; refine ⟨?_, 0, ?_⟩ <;> revert i a j <;> decide +kernel) (start := 0) (fun _ => rfl) (by decide +kernel) (by decide +kernel) (by decide +kernel)
  refine ⟨text, P, h1, h2, h3, fun S e hB order ho => ?_⟩
  obtain ⟨n', M', f, hM', hact, hnames, hp⟩ := h S e hB order ho
  have hne : ∀ x : String, x.toList.head? ≠ some 'a' → x ∉ M'.actions := by
    intro x hx hmem
    obtain ⟨a, rfl⟩ := hnames x (hact ▸ hmem)
    exact hx (by rw [String.toList_append]; rfl)
  refine ⟨n', M', hM', hne _ (by decide), hne _ (by decide), ?_⟩
  have c0 : mdpChoices mixedMDP 0 = [(some "left".toList, mixedMDP.matrix 0 (0 : Fin 2)), (some "right".toList, mixedMDP.matrix 0 (1 : Fin 2))] := by
    rfl
  have c1 : mdpChoices mixedMDP 1 = [(some "right".toList, mixedMDP.matrix 1 (1 : Fin 2))] := by rfl
  obtain ⟨s, hs⟩ := hp.initial 0 (by decide +kernel)
  obtain ⟨t, ht⟩ := hp.closed s (some "left".toList, mixedMDP.matrix 0 (0 : Fin 2)) (by rw [hs, c0]; simp) 1 (by decide +kernel)
  have hA : 0 < M'.actions.length := by
    have := hp.number s
    rw [hs, c0] at this
    simp only [List.length_cons, List.length_nil] at this
    omega
  refine ⟨s, t, ⟨0, hA⟩, ?_, ?_, ?_, ?_⟩
  · rw [hp.labels, hs]; rfl
  · rw [hp.labels, ht]; rfl
  · rw [hp.matrix, hs, c0, ht]; rfl
  · rw [hp.matrix, ht, c1]; rfl

end Jajapy.Prism
