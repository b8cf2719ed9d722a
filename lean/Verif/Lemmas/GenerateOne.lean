import Verif.Lemmas.StopStream
import Verif.Lemmas.GenerateMDP
import Verif.Spec.GenerateOne
import Verif.Props.GenerateMDP

set_option linter.unusedSectionVars false

namespace Jajapy

open MeasureTheory ProbabilityTheory Spec Filter Topology Tools

namespace MDP
variable {σ L : Type} [DecidableEq L] {n : ℕ} {sch : Sched ℝ L σ} {P : Policy σ L} {dom : σ → Prop}

/-- The first `k` numbers. -/
abbrev firstK (d : ℕ → ℝ) (k : ℕ) : List ℝ := List.ofFn (fun i : Fin k => d i)

theorem slice_eq (d : ℕ → ℝ) (a b : ℕ) : slice d a b = firstK (dropDraws a d) (b - a) := rfl

theorem firstK_congr (d d' : ℕ → ℝ) (k : ℕ) (h : ∀ i < k, d i = d' i) : firstK d k = firstK d' k := by
  unfold firstK
  congr 1
  funext i
  exact h i i.2

/-- `run` with the first `k` numbers returns. -/
def Within (M : MDP ℝ L n) (sch : Sched ℝ L σ) (steps : ℕ) (st : σ) (d : ℕ → ℝ) (k : ℕ) : Prop :=
  ∃ w st', M.run sch steps (firstK d k) st = some (.ok (w, st'))

open Classical in
/-- The number of numbers that `run` reads (0 if it does not return). -/
noncomputable def reads (M : MDP ℝ L n) (sch : Sched ℝ L σ) (steps : ℕ) (st : σ) (d : ℕ → ℝ) : ℕ :=
  if h : ∃ k, M.Within sch steps st d k then Nat.find h else 0

theorem returns_iff_within (M : MDP ℝ L n) (steps : ℕ) (st : σ) (d : ℕ → ℝ) :
    (∃ w, M.Returns sch steps st w d) ↔ ∃ k, M.Within sch steps st d k :=
  ⟨fun ⟨w, k, st', h⟩ => ⟨k, w, st', h⟩, fun ⟨k, w, st', h⟩ => ⟨w, k, st', h⟩⟩

theorem outcome_ok_iff (M : MDP ℝ L n) (steps : ℕ) (st : σ) (d : ℕ → ℝ) :
    (∃ w, M.outcome sch steps st d = .ok w) ↔ ∃ k, M.Within sch steps st d k := by
  rw [← returns_iff_within]
  exact exists_congr (fun w => M.outcome_ok steps st d w)

open Classical in
theorem reads_spec (M : MDP ℝ L n) (steps : ℕ) (st : σ) (d : ℕ → ℝ) (h : ∃ k, M.Within sch steps st d k) :
    M.Within sch steps st d (M.reads sch steps st d) ∧ ∀ k < M.reads sch steps st d, ¬ M.Within sch steps st d k := by
  unfold reads
  rw [dif_pos h]
  exact ⟨Nat.find_spec h, fun k hk => Nat.find_min h hk⟩

theorem reads_eq (M : MDP ℝ L n) (steps : ℕ) (st : σ) (d : ℕ → ℝ) (k : ℕ) (h1 : M.Within sch steps st d k)
    (h2 : ∀ j < k, ¬ M.Within sch steps st d j) : M.reads sch steps st d = k := by
  obtain ⟨h3, h4⟩ := M.reads_spec (sch := sch) steps st d ⟨k, h1⟩
  rcases lt_trichotomy (M.reads sch steps st d) k with h | h | h
  · exact absurd h3 (h2 _ h)
  · exact h
  · exact absurd h1 (h4 _ h)

theorem within_congr (M : MDP ℝ L n) (steps : ℕ) (st : σ) (d d' : ℕ → ℝ) (k : ℕ) (h : ∀ i < k, d i = d' i) :
    M.Within sch steps st d k ↔ M.Within sch steps st d' k := by
  unfold Within
  rw [firstK_congr d d' k h]

theorem measurable_within (M : MDP ℝ L n) (hn : M.actions.Nodup) (hS : M.Stochastic) (hB : Behaves sch P dom) (steps : ℕ) (st : σ)
    (k : ℕ) : MeasurableSet {d | M.Within sch steps st d k} := by
  have e : {d | M.Within sch steps st d k}
      = ⋃ w ∈ {w : List L | ∀ o ∈ w, o ∈ Set.range M.labelling ∪ {a | a ∈ M.actions}},
          {d | ∃ st', M.run sch steps (firstK d k) st = some (.ok (w, st'))} := by
    ext d
    simp only [Set.mem_ofPred_eq, Set.mem_iUnion, exists_prop, Within]
    constructor
    · rintro ⟨w, st', h⟩
      exact ⟨w, M.returns_symbols steps st w d ⟨k, st', h⟩, st', h⟩
    · rintro ⟨w, _, st', h⟩
      exact ⟨w, st', h⟩
  rw [e]
  refine MeasurableSet.biUnion (countable_lists ((Set.countable_range M.labelling).union (List.finite_toSet _).countable)) (fun w _ => ?_)
  cases k with
  | zero =>
    convert MeasurableSet.empty
    ext d
    simp [firstK, run]
  | succ k =>
    have e2 : {d : ℕ → ℝ | ∃ st', M.run sch steps (firstK d (k+1)) st = some (.ok (w, st'))}
        = {d : ℕ → ℝ | ∃ i, pick M.initialState (d 0) = .ok i ∧ (fun k => d (k+1)) ∈ M.loopSet sch steps k i P.start w} := by
      ext d
      simp only [Set.mem_ofPred_eq, firstK, ofFn_shift d k, run, loopSet, hB.reset]
      cases hp : pick M.initialState (d 0) with
      | error e => simp
      | ok i => simp
    rw [e2]
    exact measurable_bind _ _ (fun i => M.measurable_loopSet hn hS.2.2.1 hB steps k i _ hB.start w)

/-- `run` reads a number of draws that depends on the draws read only. -/
theorem stops (M : MDP ℝ L n) (hn : M.actions.Nodup) (hS : M.Stochastic) (hB : Behaves sch P dom) (steps : ℕ) (st : σ) :
    Stops (M.outcome sch steps st) (M.reads sch steps st) where
  meas := by
    classical
    have hp : ∀ d : ℕ → ℝ, ∃ k, M.Within sch steps st d k ∨ ¬ ∃ k, M.Within sch steps st d k := by
      intro d
      by_cases h : ∃ k, M.Within sch steps st d k
      · exact ⟨h.choose, Or.inl h.choose_spec⟩
      · exact ⟨0, Or.inr h⟩
    have hm := measurable_find hp (fun k => by
      have e : {d | M.Within sch steps st d k ∨ ¬ ∃ k, M.Within sch steps st d k}
          = {d | M.Within sch steps st d k} ∪ (⋃ k, {d | M.Within sch steps st d k})ᶜ := by
        ext d
        simp
      rw [e]
      exact (M.measurable_within hn hS hB steps st k).union
        (MeasurableSet.iUnion (fun k => M.measurable_within hn hS hB steps st k)).compl)
    convert hm using 1
    funext d
    by_cases h : ∃ k, M.Within sch steps st d k
    · obtain ⟨h1, h2⟩ := M.reads_spec (sch := sch) steps st d h
      symm
      rw [Nat.find_eq_iff]
      refine ⟨Or.inl h1, fun k hk => ?_⟩
      rintro (h3 | h3)
      · exact h2 k hk h3
      · exact h3 h
    · unfold reads
      rw [dif_neg h]
      symm
      rw [Nat.find_eq_zero]
      exact Or.inr h
  stable := by
    intro d d' hd hag
    obtain ⟨h1, h2⟩ := M.reads_spec (sch := sch) steps st d ((M.outcome_ok_iff steps st d).1 hd)
    obtain ⟨w, st', hw⟩ := h1
    refine ⟨?_, ?_⟩
    · rw [(M.outcome_ok steps st d w).2 ⟨_, st', hw⟩, M.outcome_ok]
      exact ⟨_, st', by rw [← firstK, ← firstK_congr d d' _ hag]; exact hw⟩
    · refine M.reads_eq steps st d' _ ((M.within_congr steps st d d' _ hag).1 ⟨w, st', hw⟩) (fun j hj hc => h2 j hj ?_)
      exact (M.within_congr steps st d d' j (fun i hi => hag i (by omega))).2 hc

/-- The index of the first number read by the `j`-th call. -/
noncomputable def posOf (M : MDP ℝ L n) (sch : Sched ℝ L σ) (steps : ℕ) (st : σ) (d : ℕ → ℝ) : ℕ → ℕ
  | 0 => 0
  | j + 1 => posOf M sch steps st d j + M.reads sch steps st (dropDraws (posOf M sch steps st d j) d)

theorem dropDraws_dropDraws (a b : ℕ) (d : ℕ → ℝ) : dropDraws b (dropDraws a d) = dropDraws (a + b) d := by
  funext i
  simp [dropDraws, Nat.add_assoc]

theorem laterN_succ (κ : (ℕ → ℝ) → ℕ) (j : ℕ) (d : ℕ → ℝ) : laterN κ (j+1) d = later κ (laterN κ j d) := by
  induction j generalizing d with
  | zero => rfl
  | succ j ih => rw [laterN, ih]; rfl

theorem laterN_pos (M : MDP ℝ L n) (sch : Sched ℝ L σ) (steps : ℕ) (st : σ) (d : ℕ → ℝ) (j : ℕ) :
    laterN (M.reads sch steps st) j d = dropDraws (M.posOf sch steps st d j) d := by
  induction j with
  | zero => funext i; simp [laterN, posOf, dropDraws]
  | succ j ih =>
    rw [laterN_succ, ih, later, posOf, dropDraws_dropDraws]

/-- A prefix with which `run` raises an exception is not a prefix of numbers with which it returns. -/
theorem chooseAction_error (M : MDP ℝ L n) (sch : Sched ℝ L σ) (s : Fin n) (l l' : List ℝ) (st : σ) (e : Err)
    (h : M.chooseAction sch s l st = some (.error e)) : M.chooseAction sch s (l ++ l') st = some (.error e) := by
  induction l generalizing st with
  | nil => simp [chooseAction] at h
  | cons r l ih =>
    rw [List.cons_append, chooseAction]
    rw [chooseAction] at h
    split at h
    · exact h
    · rename_i action st'' hg
      split_ifs at h with hm
      · cases h
      · simp only [if_neg hm]
        exact ih _ h

theorem runLoop_error (M : MDP ℝ L n) (sch : Sched ℝ L σ) (steps : ℕ) (l l' : List ℝ) (s : Fin n) (st : σ) (e : Err)
    (h : M.runLoop sch steps l s st = some (.error e)) : M.runLoop sch steps (l ++ l') s st = some (.error e) := by
  induction steps generalizing l s st with
  | zero => simp [runLoop] at h
  | succ steps ih =>
    rw [runLoop] at h
    split at h
    · cases h
    · rename_i hc
      rw [runLoop, chooseAction_error M sch s l l' st _ hc]
      exact h
    · cases h
    · rename_i action st1 r rs hc
      rw [runLoop, chooseAction_append M sch s l l' st _ _ _ hc]
      simp only [List.cons_append]
      split at h
      · exact h
      · split at h
        · exact h
        · split at h
          · cases h
          · rename_i hr
            cases h
            rw [ih _ _ _ hr]
          · cases h

theorem run_error (M : MDP ℝ L n) (sch : Sched ℝ L σ) (steps : ℕ) (l l' : List ℝ) (st : σ) (e : Err)
    (h : M.run sch steps l st = some (.error e)) : M.run sch steps (l ++ l') st = some (.error e) := by
  cases l with
  | nil => simp [run] at h
  | cons r l =>
    rw [List.cons_append, run]
    rw [run] at h
    split at h
    · exact h
    · exact M.runLoop_error sch steps l l' _ _ e h

/-- Before it returns, `run` asks for more numbers. -/
theorem run_before (M : MDP ℝ L n) (steps : ℕ) (st : σ) (d : ℕ → ℝ) (h : ∃ k, M.Within sch steps st d k) (k : ℕ)
    (hk : k < M.reads sch steps st d) : M.run sch steps (firstK d k) st = none := by
  obtain ⟨⟨w, st', h1⟩, h2⟩ := M.reads_spec (sch := sch) steps st d h
  cases hr : M.run sch steps (firstK d k) st with
  | none => rfl
  | some u =>
    cases u with
    | error e =>
      obtain ⟨l', hl'⟩ := ofFn_append d k _ hk.le
      have := M.run_error sch steps _ l' st e hr
      rw [firstK, ← hl'] at this
      rw [firstK, this] at h1
      cases h1
    | ok u => exact absurd ⟨u.1, u.2, hr⟩ (h2 k hk)

theorem collectsOne_iff (M : MDP ℝ L n) (hB : Behaves sch P dom) (steps : ℕ) (st0 : σ) (d : ℕ → ℝ) (N : ℕ) (tr : ℕ → List L) :
    M.CollectsOne sch steps st0 d N tr ↔ ∀ j < N, M.Returns sch steps st0 (tr j) (laterN (M.reads sch steps st0) j d) := by
  constructor
  · rintro ⟨st, pos, -, h0, h⟩
    have hpos : ∀ j ≤ N, pos j = M.posOf sch steps st0 d j := by
      intro j hj
      induction j with
      | zero => exact h0
      | succ j ih =>
        have ih := ih (by omega)
        obtain ⟨h1, h2, h3⟩ := h j (by omega)
        rw [posOf, ← ih]
        rw [M.reads_eq steps st0 (dropDraws (pos j) d) (pos (j+1) - pos j)]
        · omega
        · exact ⟨tr j, st (j+1), by rw [M.run_state hB steps _ st0 (st j)]; exact h2⟩
        · rintro k hk ⟨w, st', hw⟩
          have := h3 (pos j + k) (by omega)
          rw [slice_eq, show pos j + k - pos j = k by omega, M.run_state hB steps _ (st j) st0, hw] at this
          cases this
    intro j hj
    obtain ⟨h1, h2, h3⟩ := h j hj
    rw [laterN_pos, ← hpos j (by omega)]
    exact ⟨pos (j+1) - pos j, st (j+1), by rw [M.run_state hB steps _ st0 (st j)]; exact h2⟩
  · intro h
    have : ∀ j, ∃ st', j < N → M.run sch steps (firstK (laterN (M.reads sch steps st0) j d)
        (M.reads sch steps st0 (laterN (M.reads sch steps st0) j d))) st0 = some (.ok (tr j, st')) := by
      intro j
      by_cases hj : j < N
      · obtain ⟨k, s1, h1⟩ := h j hj
        obtain ⟨⟨w, s2, h2⟩, -⟩ := M.reads_spec (sch := sch) steps st0 (laterN (M.reads sch steps st0) j d) ⟨k, _, s1, h1⟩
        have hu := M.returns_unique (sch := sch) steps st0 _ _ (laterN (M.reads sch steps st0) j d) ⟨k, s1, h1⟩ ⟨_, s2, h2⟩
        exact ⟨s2, fun _ => by rw [h2, hu]⟩
      · exact ⟨st0, fun hc => absurd hc hj⟩
    choose st' hst' using this
    refine ⟨fun j => match j with | 0 => st0 | j + 1 => st' j, M.posOf sch steps st0 d, rfl, rfl, fun j hj => ⟨?_, ?_, ?_⟩⟩
    · rw [posOf]; omega
    · rw [M.run_state hB steps _ _ st0, slice_eq, posOf, Nat.add_sub_cancel_left, ← laterN_pos]
      exact hst' j hj
    · intro k hk
      rw [M.run_state hB steps _ _ st0, slice_eq, ← laterN_pos]
      obtain ⟨k', s1, h1⟩ := h j hj
      by_cases hk0 : k - M.posOf sch steps st0 d j < M.reads sch steps st0 (laterN (M.reads sch steps st0) j d)
      · exact M.run_before steps st0 _ ⟨k', _, s1, h1⟩ _ hk0
      · exfalso
        rw [posOf, ← laterN_pos] at hk
        have hr : 0 < M.reads sch steps st0 (laterN (M.reads sch steps st0) j d) := by
          obtain ⟨⟨w, s2, h2⟩, -⟩ := M.reads_spec (sch := sch) steps st0 (laterN (M.reads sch steps st0) j d) ⟨k', _, s1, h1⟩
          rcases Nat.eq_zero_or_pos (M.reads sch steps st0 (laterN (M.reads sch steps st0) j d)) with h0 | h0
          · rw [h0] at h2
            simp [firstK, run] at h2
          · exact h0
        omega

end MDP
end Jajapy
