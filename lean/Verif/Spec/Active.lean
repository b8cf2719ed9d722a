import Verif.Model.Active
import Verif.Spec.MDP
import Verif.Spec.Counts

/-!
What the theorems about the active learning talk about: the distribution of the hidden state of the hypothesis given what has been
observed so far.
-/

namespace Jajapy.Spec.Active

open Finset

variable {K L : Type} {n : ℕ} [Field K] [DecidableEq L]

/-- The probability, given the actions of the steps `ps = [(o0, a0), …, (ok, ak)]`, that the model shows the labels `o0, …, ok` and
is in the state `s` after the last action: the sum over the paths of states that end in `s`. -/
def reach (M : MDP K L n) (ps : List (L × L)) (s : Fin n) : K :=
  totalWeight M.initialState M.step (fun s' => if s' = s then 1 else 0) ps

/-- The probability of being in `s` after the steps `ps`, given the labels and the actions of these steps (0 if they are impossible). -/
def posterior (M : MDP K L n) (ps : List (L × L)) (s : Fin n) : K := reach M ps s / ∑ s', reach M ps s'

/-- The expected number of times the action `x` is done in `s` during the steps `ps`, each time given the steps before. -/
def expected (M : MDP K L n) (ps : List (L × L)) (s : Fin n) (x : L) : K :=
  ∑ k : Fin ps.length, if (ps.get k).2 = x then posterior M (ps.take k) s else 0

/-- `Sampled sul h steps eps mat rounds ws`: the traces `ws` of the system `sul` come from one run per round. In a round whose coin is above
`eps` the actions are proposed by the uniform scheduler; otherwise by the active scheduler of the hypothesis `h` with a count table, `mat` in the first such
round, to which the expected counts of every trace made with this scheduler are added afterwards. -/
inductive Sampled [LinearOrder K] {n' : ℕ} (sul : MDP K L n') (h : MDP K L n) (steps : ℕ) (eps : K) :
    (Fin n → Fin h.actions.length → K) → List (Active.Round K) → List (List L) → Prop
  | nil (mat) : Sampled sul h steps eps mat [] []
  | explore (mat) {c cs w ws} : eps < c.coin → sul.run (uniformScheduler h.actions) steps c.draws () = some (.ok (w, ())) →
      Sampled sul h steps eps mat cs ws → Sampled sul h steps eps mat (c :: cs) (w :: ws)
  | exploit (mat) {c cs w ws st'} (last : Option (Fin h.actions.length)) (alpha : Fin n → K) (states : ℕ → K) : c.coin ≤ eps →
      sul.run (Active.sched h) steps c.draws (⟨mat, last, alpha⟩, states) = some (.ok (w, st')) →
      Sampled sul h steps eps (fun s i => mat s i + expected h (mdpSteps w) s h.actions[i]) cs ws →
      Sampled sul h steps eps mat (c :: cs) (w :: ws)

end Jajapy.Spec.Active
