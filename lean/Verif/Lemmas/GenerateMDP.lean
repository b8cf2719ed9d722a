import Verif.Props.MDPSim
import Verif.Lemmas.OneStream
import Verif.Props.GenerateLaw

set_option linter.unusedSectionVars false

namespace Jajapy

open MeasureTheory ProbabilityTheory Spec Filter Topology Tools

namespace MDP
variable {σ L : Type} [DecidableEq L] {n : ℕ} {sch : Sched ℝ L σ} {P : Policy σ L} {dom : σ → Prop}

theorem chooseAction_append (M : MDP ℝ L n) (sch : Sched ℝ L σ) (s : Fin n) (l l' : List ℝ) (st : σ) (a : L) (st' : σ) (rs : List ℝ)
    (h : M.chooseAction sch s l st = some (.ok (a, st', rs))) :
    M.chooseAction sch s (l ++ l') st = some (.ok (a, st', rs ++ l')) := by
  induction l generalizing st with
  | nil => simp [chooseAction] at h
  | cons r l ih =>
    rw [List.cons_append, chooseAction]
    rw [chooseAction] at h
    split at h
    · cases h
    · rename_i action st'' hg
      split_ifs at h with hm
      · cases h
        simp only [if_pos hm]
      · simp only [if_neg hm]
        exact ih _ h

theorem chooseAction_mem (M : MDP ℝ L n) (sch : Sched ℝ L σ) (s : Fin n) (l : List ℝ) (st : σ) (a : L) (st' : σ) (rs : List ℝ)
    (h : M.chooseAction sch s l st = some (.ok (a, st', rs))) : a ∈ M.getActions s := by
  induction l generalizing st with
  | nil => simp [chooseAction] at h
  | cons r l ih =>
    rw [chooseAction] at h
    split at h
    · cases h
    · split_ifs at h with hm
      · cases h
        exact hm
      · exact ih _ h

theorem runLoop_append (M : MDP ℝ L n) (sch : Sched ℝ L σ) (steps : ℕ) (l l' : List ℝ) (s : Fin n) (st : σ) (w : List L) (st' : σ)
    (h : M.runLoop sch steps l s st = some (.ok (w, st'))) : M.runLoop sch steps (l ++ l') s st = some (.ok (w, st')) := by
  induction steps generalizing l s st w st' with
  | zero =>
    rw [runLoop] at h ⊢
    exact h
  | succ steps ih =>
    rw [runLoop] at h
    split at h
    · cases h
    · cases h
    · cases h
    · rename_i action st1 r rs hc
      rw [runLoop, chooseAction_append M sch s l l' st _ _ _ hc]
      simp only [List.cons_append]
      split at h
      · cases h
      · split at h
        · cases h
        · split at h
          · cases h
          · cases h
          · rename_i hr
            rw [ih _ _ _ _ _ hr]
            exact h

theorem run_append (M : MDP ℝ L n) (sch : Sched ℝ L σ) (steps : ℕ) (l l' : List ℝ) (st : σ) (w : List L) (st' : σ)
    (h : M.run sch steps l st = some (.ok (w, st'))) : M.run sch steps (l ++ l') st = some (.ok (w, st')) := by
  cases l with
  | nil => simp [run] at h
  | cons r l =>
    rw [List.cons_append, run]
    rw [run] at h
    split at h
    · cases h
    · exact M.runLoop_append sch steps l l' _ _ w st' h

theorem ofFn_append (d : ℕ → ℝ) (N N' : ℕ) (h : N ≤ N') :
    ∃ l', List.ofFn (fun i : Fin N' => d i) = List.ofFn (fun i : Fin N => d i) ++ l' := by
  obtain ⟨k, rfl⟩ := Nat.exists_eq_add_of_le h
  exact ⟨List.ofFn (fun i : Fin k => d (N + i)), by rw [← List.ofFn_fin_append]; congr 1; funext i; refine Fin.addCases (fun i => ?_) (fun i => ?_) i <;> simp⟩

/-- A call of `run` returns at most one trace. -/
theorem returns_unique (M : MDP ℝ L n) (steps : ℕ) (st : σ) (w w' : List L) (d : ℕ → ℝ) (h : M.Returns sch steps st w d)
    (h' : M.Returns sch steps st w' d) : w = w' := by
  obtain ⟨N, s1, h1⟩ := h
  obtain ⟨N', s2, h2⟩ := h'
  obtain ⟨l, hl⟩ := ofFn_append d N (max N N') (le_max_left _ _)
  obtain ⟨l', hl'⟩ := ofFn_append d N' (max N N') (le_max_right _ _)
  have h3 := M.run_append sch steps _ l st w s1 h1
  have h4 := M.run_append sch steps _ l' st w' s2 h2
  rw [← hl] at h3
  rw [← hl', h3] at h4
  cases h4
  rfl

theorem returns_symbols (M : MDP ℝ L n) (steps : ℕ) (st : σ) (w : List L) (d : ℕ → ℝ) (h : M.Returns sch steps st w d) :
    ∀ o ∈ w, o ∈ Set.range M.labelling ∪ {a | a ∈ M.actions} := by
  obtain ⟨N, st', h⟩ := h
  have key : ∀ (steps : ℕ) (draws : List ℝ) (s : Fin n) (st : σ) (w : List L) (st' : σ),
      M.runLoop sch steps draws s st = some (.ok (w, st')) → ∀ o ∈ w, o ∈ Set.range M.labelling ∪ {a | a ∈ M.actions} := by
    intro steps
    induction steps with
    | zero =>
      intro draws s st w st' h
      simp only [runLoop, Option.some.injEq, Except.ok.injEq, Prod.mk.injEq] at h
      rw [← h.1]
      simp
    | succ steps ih =>
      intro draws s st w st' h
      rw [runLoop] at h
      split at h
      · cases h
      · cases h
      · cases h
      · rename_i hc
        split at h
        · cases h
        · rename_i hx
          split at h
          · cases h
          · split at h
            · cases h
            · cases h
            · rename_i hr
              simp only [Option.some.injEq, Except.ok.injEq, Prod.mk.injEq] at h
              rw [← h.1]
              intro o ho
              rcases List.mem_cons.1 ho with rfl | ho
              · left
                rw [M.next_obs _ _ _ _ _ hx]
                exact ⟨_, rfl⟩
              · rcases List.mem_cons.1 ho with rfl | ho
                · right
                  have := M.chooseAction_mem sch _ _ _ _ _ _ hc
                  unfold getActions at this
                  obtain ⟨i, -, rfl⟩ := List.mem_map.1 this
                  exact List.getElem_mem _
                · exact ih _ _ _ _ _ hr o ho
  unfold run at h
  split at h
  · cases h
  · split at h
    · cases h
    · exact key _ _ _ _ _ _ h

open Classical in
/-- The trace returned by `run`, if it returns. -/
noncomputable def outcome (M : MDP ℝ L n) (sch : Sched ℝ L σ) (steps : ℕ) (st : σ) (d : ℕ → ℝ) : Py (List L) :=
  if h : ∃ w, M.Returns sch steps st w d then .ok h.choose else .error .valueError

theorem outcome_ok (M : MDP ℝ L n) (steps : ℕ) (st : σ) (d : ℕ → ℝ) (w : List L) :
    M.outcome sch steps st d = .ok w ↔ M.Returns sch steps st w d := by
  unfold outcome
  by_cases h : ∃ w, M.Returns sch steps st w d
  · rw [dif_pos h]
    constructor
    · intro hw
      injection hw with hw
      rw [← hw]
      exact h.choose_spec
    · intro hw
      rw [M.returns_unique steps st _ _ d h.choose_spec hw]
  · rw [dif_neg h]
    constructor
    · intro hw; cases hw
    · intro hw; exact absurd ⟨w, hw⟩ h

theorem simulates (M : MDP ℝ L n) (hn : M.actions.Nodup) (hS : M.Stochastic) (hB : Behaves sch P dom)
    (steps : ℕ) (st : σ) (ht : drawsLaw {d | ∃ w, M.Returns sch steps st w d} = 1) :
    Simulates drawsLaw (M.outcome sch steps st)
      {w | w.length = 2 * steps + 1 ∧ ∀ o ∈ w, o ∈ Set.range M.labelling ∪ {a | a ∈ M.actions}} where
  countable := (countable_lists ((Set.countable_range M.labelling).union (List.finite_toSet _).countable)).mono (fun _ hw => hw.2)
  mem := by
    intro d w h
    rw [outcome_ok] at h
    refine ⟨?_, M.returns_symbols steps st w d h⟩
    by_contra hl
    exact M.run_length sch steps st w hl d h
  meas := by
    intro w
    simp only [outcome_ok]
    rw [M.returns_eq hB]
    exact measurable_bind _ _ (fun i => M.measurable_fullSet hn hS.2.2.1 hB steps i _ hB.start w)
  total := by
    simp only [outcome_ok]
    exact ht

theorem run_state (M : MDP ℝ L n) (hB : Behaves sch P dom) (steps : ℕ) (l : List ℝ) (st st' : σ) :
    M.run sch steps l st = M.run sch steps l st' := by
  cases l with
  | nil => rfl
  | cons r l => rw [run, run, hB.reset, hB.reset]

end MDP
end Jajapy
