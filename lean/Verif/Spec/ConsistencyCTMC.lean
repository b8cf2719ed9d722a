import Verif.Spec.CTMCSim

/-!
Specification vocabulary for learning a CTMC from generated timed traces.
-/

namespace Jajapy.CTMC

variable {L : Type} {n : ℕ}

/-- `k` transitions of positive rate lead from `c` to `s`. -/
def Walk (G : CTMC ℝ L n) : ℕ → Fin n → Fin n → Prop
  | 0, c, s => c = s
  | k + 1, c, s => ∃ c', 0 < G.matrix c c' ∧ Walk G k c' s

/-- The rate from `s` to `s'` that shows in the generated traces: the rate of the model, but for the first state towards which the rate is 0,
for which it is `q exp(-1024 q) / (1 - exp(-1024 q))`, with `q` the sum of the rates. -/
noncomputable def shownRate (G : CTMC ℝ L n) (s s' : Fin n) : ℝ :=
  if 0 < G.matrix s s' then G.matrix s s'
  else if ∀ j < s', 0 < G.matrix s j then
    (∑ j, G.matrix s j) * Real.exp (-(∑ j, G.matrix s j) * 1024) / (1 - Real.exp (-(∑ j, G.matrix s j) * 1024))
  else 0

end Jajapy.CTMC
