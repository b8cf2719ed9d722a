import Verif.Lemmas.Product
import Verif.Props.MDPSimEx
import Verif.Props.GenerateLaw

/-!
Property C115: under a scheduler with a finite memory, an MDP is a Markov chain: the observations of its traces have the law of
the traces of that chain.
-/

set_option autoImplicit false

namespace Jajapy

open MeasureTheory Spec Finset Tools BW

namespace MDP
variable {L : Type} {n N : ℕ} [DecidableEq L]

/-- C115: the probability that the observations of `run(steps, scheduler)` with a finite-memory scheduler are `os` is the
likelihood that the product chain gives to `os`. -/
theorem fm_observations (M : MDP ℝ L n) (hn : M.actions.Nodup) (hS : M.Stochastic) (F : FMScheduler ℝ L) (hF : FMValid F N)
    (steps st : ℕ) (os : List L) (ho : os.length = steps + 1) :
    ∃ p, (M.under (fmPolicy F) (fun m : Fin N => m.1)).iface.seqProb os = .ok p ∧
      drawsLaw {d | ∃ w, M.Returns F.sched steps st w d ∧ mdpObservations w = os} = ENNReal.ofReal p := by
  have hne : os ≠ [] := by rintro rfl; simp at ho
  obtain ⟨os', last, rfl⟩ : ∃ os' last, os = os' ++ [last] := ⟨_, _, (List.dropLast_append_getLast hne).symm⟩
  have hl : steps = os'.length := by simpa using ho.symm
  subst hl
  exact ⟨_, MC.seqProb_eq_paths _ _ hne, M.observed_listProb (fmScheduler_behaves F N hF) hn hS (fun m : Fin N => m.1)
    Fin.val_injective (fun m => ⟨fun h => ⟨⟨m, h⟩, rfl⟩, fun ⟨i, hi⟩ => hi ▸ i.2⟩) os' last st⟩

/-- C115: if each memory state proposes a possible action of each state with positive probability, the product is a Markov
chain. -/
theorem fm_chain (M : MDP ℝ L n) (hn : M.actions.Nodup) (hS : M.Stochastic) (F : FMScheduler ℝ L) (hF : FMValid F N)
    (ha : ∀ s, ∀ m < N, ∃ x, M.Allowed s x ∧ 0 < (fmPolicy F).propose m x) :
    (M.under (fmPolicy F) (fun m : Fin N => m.1)).Stochastic := by
  refine M.under_stochastic (fmScheduler_behaves F N hF) hn hS _ Fin.val_injective
    (fun m => ⟨fun h => ⟨⟨m, h⟩, rfl⟩, fun ⟨i, hi⟩ => hi ▸ i.2⟩) (fun s m hm => ?_)
  obtain ⟨x, hal, hp⟩ := ha s m hm
  have hxa : x ∈ M.actions := by
    by_contra hna
    obtain ⟨s', hs'⟩ := hal
    rw [M.prob_not_mem s x s' hna] at hs'
    exact lt_irrefl _ hs'
  unfold acceptProb
  exact Finset.sum_pos' (fun y _ => (fmScheduler_behaves F N hF).nonneg m hm y) ⟨x, by simp [hxa, hal], hp⟩

/-- C115: the observations of the traces of the MDP under the scheduler and the traces of the chain have the same law. -/
theorem fm_same_law (M : MDP ℝ L n) (hn : M.actions.Nodup) (hS : M.Stochastic) (F : FMScheduler ℝ L) (hF : FMValid F N)
    (ha : ∀ s, ∀ m < N, ∃ x, M.Allowed s x ∧ 0 < (fmPolicy F).propose m x) (steps st : ℕ) (os : List L) :
    drawsLaw {d | ∃ w, M.Returns F.sched steps st w d ∧ mdpObservations w = os}
      = drawsLaw {d | (M.under (fmPolicy F) (fun m : Fin N => m.1)).run steps d = .ok os} := by
  by_cases ho : os.length = steps + 1
  · obtain ⟨p, h1, h2⟩ := M.fm_observations hn hS F hF steps st os ho
    obtain ⟨c1, c2, c3, c4⟩ := M.fm_chain hn hS F hF ha
    obtain ⟨q, h3, h4⟩ := MC.run_law _ c1 c2 c3 c4 steps os ho
    rw [h1] at h3
    injection h3 with h3
    rw [h2, h4, h3]
  · have e1 : {d | ∃ w, M.Returns F.sched steps st w d ∧ mdpObservations w = os} = ∅ := by
      ext d
      simp only [Set.mem_ofPred_eq, Set.mem_empty_iff_false, iff_false]
      rintro ⟨w, hw, rfl⟩
      obtain ⟨ps, last, rfl, h2, _⟩ := M.returns_actions _ _ _ _ _ hw
      rw [mdpObservations_alternate] at ho
      simp [h2] at ho
    have e2 : {d : ℕ → ℝ | (M.under (fmPolicy F) (fun m : Fin N => m.1)).run steps d = .ok os} = ∅ := by
      ext d
      simp only [Set.mem_ofPred_eq, Set.mem_empty_iff_false, iff_false]
      intro h
      exact ho (MC.run_shape _ _ _ _ h).1
    rw [e1, e2]

/-- C115, the uniform scheduler: no memory, the chain has as many states as the MDP. -/
theorem uniform_observations (M : MDP ℝ L n) (hn : M.actions.Nodup) (hS : M.Stochastic) (acts : List L) (hne : acts ≠ [])
    (steps : ℕ) (os : List L) (ho : os.length = steps + 1) :
    ∃ p, (M.under (uniformPolicy acts) (fun _ : Fin 1 => ())).iface.seqProb os = .ok p ∧
      drawsLaw {d | ∃ w, M.Returns (uniformScheduler acts) steps () w d ∧ mdpObservations w = os} = ENNReal.ofReal p := by
  have hos : os ≠ [] := by rintro rfl; simp at ho
  obtain ⟨os', last, rfl⟩ : ∃ os' last, os = os' ++ [last] := ⟨_, _, (List.dropLast_append_getLast hos).symm⟩
  have hl : steps = os'.length := by simpa using ho.symm
  subst hl
  exact ⟨_, MC.seqProb_eq_paths _ _ hos, M.observed_listProb (uniformScheduler_behaves acts hne) hn hS (fun _ : Fin 1 => ())
    (fun a b _ => Subsingleton.elim a b) (fun m => ⟨fun _ => ⟨0, rfl⟩, fun _ => trivial⟩) os' last ()⟩

/-- C115: the entries of the chain of a model under the uniform scheduler, when every action is possible in every state: the
average of the rows of the actions. -/
theorem uniform_average (M : MDP ℝ L n) (hn : M.actions.Nodup) (hS : M.Stochastic) (hall : ∀ s i, ∑ s', M.matrix s i s' = 1) (s s' : Fin n) :
    (M.under (uniformPolicy M.actions) (fun _ : Fin 1 => ())).matrix (finProdFinEquiv (s, 0)) (finProdFinEquiv (s', 0))
      = (∑ k : Fin M.actions.length, M.matrix s k s') / M.actions.length := by
  classical
  by_cases hz : M.actions.length = 0
  · rw [M.under_matrix, if_pos rfl]
    have : IsEmpty (Fin M.actions.length) := by rw [hz]; infer_instance
    simp
  have hz' : (M.actions.length : ℝ) ≠ 0 := by exact_mod_cast hz
  have hal : ∀ x ∈ M.actions, M.Allowed s x := by
    intro x hx
    obtain ⟨k, hk, rfl⟩ := List.mem_iff_getElem.1 hx
    by_contra hc
    have : ∑ s', M.matrix s ⟨k, hk⟩ s' = 0 := by
      refine Finset.sum_eq_zero (fun s' _ => ?_)
      by_contra h
      refine hc ⟨s', ?_⟩
      rw [show M.prob s M.actions[k] s' = M.matrix s ⟨k, hk⟩ s' from M.prob_getElem hn s ⟨k, hk⟩ s']
      exact lt_of_le_of_ne (hS.2.2.1 _ _ _) (Ne.symm h)
    rw [hall] at this
    exact one_ne_zero this
  have hacc : M.acceptProb (uniformPolicy M.actions) s () = 1 := by
    unfold acceptProb
    rw [Finset.filter_true_of_mem (fun x hx => hal x (List.mem_toFinset.1 hx))]
    simp only [uniformPolicy]
    rw [Finset.sum_congr rfl (fun x hx => by rw [List.count_eq_one_of_mem hn (List.mem_toFinset.1 hx)]), Finset.sum_const,
      List.toFinset_card_of_nodup hn, nsmul_eq_mul]
    push_cast
    field_simp
  rw [M.under_matrix, if_pos rfl, Finset.sum_div]
  refine Finset.sum_congr rfl (fun k _ => ?_)
  have hk : M.actions[k] ∈ M.actions := List.getElem_mem _
  simp only [choiceProb, if_pos (hal _ hk), hacc]
  simp only [uniformPolicy]
  rw [List.count_eq_one_of_mem hn hk]
  push_cast
  field_simp

/-- The example model under the example scheduler meets the hypotheses. -/
example (steps : ℕ) (os : List ℕ) :
    drawsLaw {d | ∃ w, (exMDP ℝ).Returns (exFM ℝ).sched steps 0 w d ∧ mdpObservations w = os}
      = drawsLaw {d | ((exMDP ℝ).under (fmPolicy (exFM ℝ)) (fun m : Fin 2 => m.1)).run steps d = .ok os} :=
  (exMDP ℝ).fm_same_law exMDP_stochastic_real.2 exMDP_stochastic_real.1 (exFM ℝ) exFM_valid exFM_allowed steps 0 os

/-- In a state where the second action is impossible the chain moves as the first action does: the scheduler is asked again. -/
example : ((exMDP ℝ).under (uniformPolicy [10, 11]) (fun _ : Fin 1 => ())).matrix (finProdFinEquiv (1, 0)) (finProdFinEquiv (1, 0)) = 3 / 4 := by
  classical
  obtain ⟨_, c2⟩ := exMDP_choice
  obtain ⟨_, _, _, h4, _⟩ := exMDP_allowed
  have c3 : (exMDP ℝ).choiceProb (uniformPolicy [10, 11]) 1 () 11 = 0 := by
    simp only [choiceProb, if_neg h4]
  rw [(exMDP ℝ).under_matrix, if_pos rfl]
  have e : ∀ f : Fin (exMDP ℝ).actions.length → ℝ, ∑ k, f k = f (0 : Fin 2) + f (1 : Fin 2) := fun f => Fin.sum_univ_two (f := f)
  rw [e]
  have a0 : (exMDP ℝ).actions[(0 : Fin 2)] = 10 := rfl
  have a1 : (exMDP ℝ).actions[(1 : Fin 2)] = 11 := rfl
  show (exMDP ℝ).choiceProb (uniformPolicy [10, 11]) 1 () 10 * (exMDP ℝ).matrix 1 (0 : Fin 2) 1
    + (exMDP ℝ).choiceProb (uniformPolicy [10, 11]) 1 () 11 * (exMDP ℝ).matrix 1 (1 : Fin 2) 1 = 3 / 4
  rw [c2, c3]
  simp [exMDP]

end MDP
end Jajapy
