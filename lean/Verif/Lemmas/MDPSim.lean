import Verif.Spec.MDPSim
import Verif.Lemmas.MDP
import Verif.Lemmas.Draws
import Verif.Props.MDP

set_option linter.unusedSectionVars false

namespace Jajapy

open MeasureTheory Spec Finset Tools BW

/-- The scheduler object behaves as the policy, on the memory states of `dom`. -/
structure Behaves {σ L : Type} (sch : Sched ℝ L σ) (P : Policy σ L) (dom : σ → Prop) : Prop where
  reset : ∀ st, sch.reset st = P.start
  start : dom P.start
  same : ∀ st r x st', sch.getAction st r = .ok (x, st') → st' = st
  total : ∀ st, dom st → ∀ r, 0 ≤ r → r < 1 → ∃ x, sch.getAction st r = .ok (x, st)
  meas : ∀ st x, MeasurableSet {r | sch.getAction st r = .ok (x, st)}
  measOk : ∀ st, MeasurableSet {r | ∃ x, sch.getAction st r = .ok (x, st)}
  law : ∀ st, dom st → ∀ x, uniform {r | sch.getAction st r = .ok (x, st)} = ENNReal.ofReal (P.propose st x)
  nonneg : ∀ st, dom st → ∀ x, 0 ≤ P.propose st x
  obs : ∀ st, dom st → ∀ o, sch.addObservation st o = .ok (P.update st o) ∧ dom (P.update st o)

/-- Trying again until a draw is accepted. -/
theorem retry_law (acc rej : Set ℝ) (hd : Disjoint acc rej) (hacc : MeasurableSet acc) (Y E : Set (ℕ → ℝ)) (hY : MeasurableSet Y)
    (hE : E = {d | d 0 ∈ acc ∧ (fun k => d (k+1)) ∈ Y} ∪ {d | d 0 ∈ rej ∧ (fun k => d (k+1)) ∈ E}) (q : ℝ) (hq : 0 < q)
    (hrej : uniform rej = ENNReal.ofReal (1 - q)) (hq1 : q ≤ 1) :
    drawsLaw E = uniform acc * drawsLaw Y / ENNReal.ofReal q := by
  have hA : MeasurableSet {d : ℕ → ℝ | d 0 ∈ acc ∧ (fun k => d (k+1)) ∈ Y} := by
    refine MeasurableSet.inter ((measurable_pi_apply (X := fun _ : ℕ => ℝ) 0) hacc) ?_
    have : Measurable (fun (d : ℕ → ℝ) (k : ℕ) => d (k+1)) := measurable_pi_iff.2 (fun k => measurable_pi_apply (k+1))
    exact this hY
  have h1 : drawsLaw E = uniform acc * drawsLaw Y + ENNReal.ofReal (1 - q) * drawsLaw E := by
    conv_lhs => rw [hE]
    rw [measure_union' _ hA, drawsLaw_cons, drawsLaw_cons, hrej]
    rw [Set.disjoint_left]
    rintro d ⟨h1, -⟩ ⟨h2, -⟩
    exact Set.disjoint_left.1 hd h1 h2
  have hfin : drawsLaw E ≠ ⊤ := measure_ne_top _ _
  have hfa : uniform acc * drawsLaw Y ≠ ⊤ := ENNReal.mul_ne_top
    (ne_top_of_le_ne_top (measure_ne_top _ Set.univ) (measure_mono (Set.subset_univ _))) (measure_ne_top _ _)
  have h2 : (drawsLaw E).toReal = (uniform acc * drawsLaw Y).toReal + (1 - q) * (drawsLaw E).toReal := by
    conv_lhs => rw [h1]
    rw [ENNReal.toReal_add hfa (ENNReal.mul_ne_top ENNReal.ofReal_ne_top hfin), ENNReal.toReal_mul (a := ENNReal.ofReal (1 - q)),
      ENNReal.toReal_ofReal (by linarith)]
  have h3 : (drawsLaw E).toReal = (uniform acc * drawsLaw Y).toReal / q := by
    rw [eq_div_iff hq.ne']; linarith
  rw [← ENNReal.ofReal_toReal hfin, h3, ENNReal.ofReal_div_of_pos hq, ENNReal.ofReal_toReal hfa]

theorem ofFn_shift (d : ℕ → ℝ) (N : ℕ) :
    List.ofFn (fun i : Fin (N+1) => d i) = d 0 :: List.ofFn (fun i : Fin N => (fun k => d (k+1)) i) := by
  rw [List.ofFn_succ]
  rfl

namespace MDP
variable {σ L : Type} {n : ℕ} [DecidableEq L]

/-- The draws with which the loop returns the trace after at most `N` draws. -/
def loopSet (M : MDP ℝ L n) (sch : Sched ℝ L σ) (steps N : ℕ) (s : Fin n) (st : σ) (w : List L) : Set (ℕ → ℝ) :=
  {d | ∃ st3, M.runLoop sch steps (List.ofFn (fun i : Fin N => d i)) s st = some (.ok (w, st3))}

/-- The draws with which the step after the choice of the action succeeds. -/
def afterSet (M : MDP ℝ L n) (sch : Sched ℝ L σ) (steps : ℕ) (s : Fin n) (st : σ) (x : L) (w : List L) : ℕ → Set (ℕ → ℝ)
  | 0 => ∅
  | N + 1 => {d | ∃ i, M.next s x (d 0) = .ok (i, M.labelling s) ∧ ∃ st2, sch.addObservation st (M.labelling s) = .ok st2 ∧
      (fun k => d (k+1)) ∈ M.loopSet sch steps N i st2 w}

theorem next_obs (M : MDP ℝ L n) (s : Fin n) (x : L) (r : ℝ) (i : Fin n) (o : L) (h : M.next s x r = .ok (i, o)) : o = M.labelling s := by
  unfold next at h
  split at h
  · cases h
  · rw [Except.bind_eq_ok] at h
    obtain ⟨c, _, h⟩ := h
    injection h with h
    injection h with _ h
    exact h.symm

theorem loopSet_zero (M : MDP ℝ L n) (sch : Sched ℝ L σ) (N : ℕ) (s : Fin n) (st : σ) (w : List L) :
    M.loopSet sch 0 N s st w = {_d | w = [M.labelling s]} := by
  ext d
  simp only [loopSet, runLoop, Set.mem_ofPred_eq]
  constructor
  · rintro ⟨st3, h⟩
    simp only [Option.some.injEq, Except.ok.injEq, Prod.mk.injEq] at h
    exact h.1.symm
  · rintro rfl
    exact ⟨st, rfl⟩

theorem loopSet_none (M : MDP ℝ L n) (sch : Sched ℝ L σ) (steps : ℕ) (s : Fin n) (st : σ) (w : List L) :
    M.loopSet sch (steps+1) 0 s st w = ∅ := by
  ext d
  simp [loopSet, runLoop, chooseAction]

theorem loopSet_succ (M : MDP ℝ L n) (sch : Sched ℝ L σ) (steps N : ℕ) (s : Fin n) (st : σ) (o x : L) (w : List L) :
    M.loopSet sch (steps+1) (N+1) s st (o :: x :: w)
      = {d | ∃ st', sch.getAction st (d 0) = .ok (x, st') ∧ x ∈ M.getActions s ∧ M.labelling s = o ∧
          (fun k => d (k+1)) ∈ M.afterSet sch steps s st' x w N} ∪
        {d | ∃ y st', sch.getAction st (d 0) = .ok (y, st') ∧ y ∉ M.getActions s ∧
          (fun k => d (k+1)) ∈ M.loopSet sch (steps+1) N s st' (o :: x :: w)} := by
  ext d
  simp only [loopSet, Set.mem_ofPred_eq, Set.mem_union, ofFn_shift d N]
  rw [runLoop, chooseAction]
  cases hg : sch.getAction st (d 0) with
  | error e => simp
  | ok p =>
    obtain ⟨y, st'⟩ := p
    simp only
    by_cases hy : y ∈ M.getActions s
    · rw [if_pos hy]
      have hr : ¬ ∃ y' st'', (Except.ok (y, st') : Py (L × σ)) = .ok (y', st'') ∧ y' ∉ M.getActions s ∧
          ∃ st3, M.runLoop sch (steps+1) (List.ofFn (fun i : Fin N => (fun k => d (k+1)) i)) s st'' = some (.ok (o :: x :: w, st3)) := by
        rintro ⟨y', st'', h, hn, _⟩
        injection h with h
        injection h with h _
        exact hn (h ▸ hy)
      rw [or_iff_left hr]
      cases N with
      | zero =>
        simp [afterSet]
      | succ N =>
        rw [ofFn_shift (fun k => d (k+1)) N]
        simp only [afterSet, Set.mem_ofPred_eq, loopSet]
        constructor
        · rintro ⟨st3, h⟩
          cases hnx : M.next s y (d (0+1)) with
          | error e => rw [hnx] at h; simp at h
          | ok q =>
            obtain ⟨i, o'⟩ := q
            have ho := M.next_obs s y _ i o' hnx
            subst ho
            rw [hnx] at h
            simp only at h
            cases hao : sch.addObservation st' (M.labelling s) with
            | error e => rw [hao] at h; simp at h
            | ok st2 =>
              rw [hao] at h
              simp only at h
              cases hl : M.runLoop sch steps (List.ofFn (fun i : Fin N => d (i + 1 + 1))) i st2 with
              | none => rw [hl] at h; simp at h
              | some u =>
                cases u with
                | error e => rw [hl] at h; simp at h
                | ok u =>
                  obtain ⟨rest, st4⟩ := u
                  rw [hl] at h
                  simp only [Option.some.injEq, Except.ok.injEq, Prod.mk.injEq, List.cons.injEq] at h
                  obtain ⟨⟨h1, h2, h3⟩, h4⟩ := h
                  subst h2 h3 h4
                  exact ⟨st', rfl, hy, h1, i, hnx, st2, hao, st4, hl⟩
        · rintro ⟨st'', h, _, h1, i, hnx, st2, hao, st3, hl⟩
          injection h with h
          injection h with h h'
          subst h h'
          refine ⟨st3, ?_⟩
          rw [hnx]
          simp only [hao]
          rw [hl, h1]
    · rw [if_neg hy]
      have hl : ¬ ∃ st'', (Except.ok (y, st') : Py (L × σ)) = .ok (x, st'') ∧ x ∈ M.getActions s ∧ M.labelling s = o ∧
          (fun k => d (k+1)) ∈ M.afterSet sch steps s st'' x w N := by
        rintro ⟨st'', h, hx, _⟩
        injection h with h
        injection h with h _
        exact hy (h ▸ hx)
      rw [or_iff_right hl]
      constructor
      · rintro ⟨st3, h⟩
        refine ⟨y, st', rfl, hy, st3, ?_⟩
        rw [runLoop]
        exact h
      · rintro ⟨y', st'', h, _, st3, h3⟩
        injection h with h
        injection h with h h'
        subst h h'
        rw [runLoop] at h3
        exact ⟨st3, h3⟩

theorem next_iff (M : MDP ℝ L n) (hn : M.actions.Nodup) (s : Fin n) (k : Fin M.actions.length) (r : ℝ) (i : Fin n) :
    M.next s M.actions[k] r = .ok (i, M.labelling s) ↔ pick (M.matrix s k) r = .ok i := by
  unfold next
  rw [(M.actionIndex_some hn M.actions[k] k).2 rfl]
  simp only
  rw [Except.bind_eq_ok]
  constructor
  · rintro ⟨c, h1, h2⟩
    injection h2 with h2
    injection h2 with h2 _
    rw [h1, h2]
  · intro h
    exact ⟨i, h, rfl⟩

section law
variable {sch : Sched ℝ L σ} {P : Policy σ L} {dom : σ → Prop}

/-- The draws with which the loop returns the trace. -/
def fullSet (M : MDP ℝ L n) (sch : Sched ℝ L σ) (steps : ℕ) (s : Fin n) (st : σ) (w : List L) : Set (ℕ → ℝ) :=
  ⋃ N, M.loopSet sch steps N s st w

/-- The draws with which the proposal is the action `x`. -/
def proposeSet (sch : Sched ℝ L σ) (st : σ) (x : L) : Set ℝ := {r | sch.getAction st r = .ok (x, st)}

/-- The draws with which the proposal is refused. -/
def refuseSet (M : MDP ℝ L n) (sch : Sched ℝ L σ) (st : σ) (s : Fin n) : Set ℝ :=
  {r | ∃ y, sch.getAction st r = .ok (y, st) ∧ y ∉ M.getActions s}

/-- The draws with which the move and the following steps are those of the trace. -/
def moveSet (M : MDP ℝ L n) (sch : Sched ℝ L σ) (steps : ℕ) (s : Fin n) (k : Fin M.actions.length) (st : σ) (w : List L) :
    Set (ℕ → ℝ) :=
  {d | ∃ i, pick (M.matrix s k) (d 0) = .ok i ∧ (fun k => d (k+1)) ∈ M.fullSet sch steps i st w}

theorem loopSet_shape (M : MDP ℝ L n) (sch : Sched ℝ L σ) (steps N : ℕ) (s : Fin n) (st : σ) (w : List L)
    (h : ∀ o x w', w ≠ o :: x :: w') : M.loopSet sch (steps+1) N s st w = ∅ := by
  ext d
  simp only [loopSet, Set.mem_ofPred_eq, Set.mem_empty_iff_false, iff_false]
  rintro ⟨st3, h3⟩
  rw [runLoop] at h3
  split at h3
  · cases h3
  · cases h3
  · cases h3
  · split at h3
    · cases h3
    · split at h3
      · cases h3
      · split at h3
        · cases h3
        · cases h3
        · simp only [Option.some.injEq, Except.ok.injEq, Prod.mk.injEq] at h3
          exact h _ _ _ h3.1.symm

theorem fullSet_succ (M : MDP ℝ L n) (hn : M.actions.Nodup) (hB : Behaves sch P dom) (steps : ℕ) (s : Fin n) (st : σ) (hst : dom st)
    (k : Fin M.actions.length) (hk : M.actions[k] ∈ M.getActions s) (w : List L) :
    M.fullSet sch (steps+1) s st (M.labelling s :: M.actions[k] :: w)
      = {d | d 0 ∈ proposeSet sch st M.actions[k] ∧ (fun k => d (k+1)) ∈ M.moveSet sch steps s k (P.update st (M.labelling s)) w} ∪
        {d | d 0 ∈ M.refuseSet sch st s ∧ (fun k => d (k+1)) ∈ M.fullSet sch (steps+1) s st (M.labelling s :: M.actions[k] :: w)} := by
  ext d
  simp only [fullSet, Set.mem_iUnion, Set.mem_union, Set.mem_ofPred_eq, proposeSet, refuseSet, moveSet]
  constructor
  · rintro ⟨N, h⟩
    cases N with
    | zero => rw [loopSet_none] at h; exact absurd h (by simp)
    | succ N =>
      rw [loopSet_succ] at h
      rcases h with ⟨st', h1, _, _, h2⟩ | ⟨y, st', h1, h2, h3⟩
      · obtain rfl := hB.same _ _ _ _ h1
        cases N with
        | zero => exact absurd h2 (by simp [afterSet])
        | succ N =>
          obtain ⟨i, h3, st2, h4, h5⟩ := h2
          rw [(hB.obs _ hst _).1] at h4
          injection h4 with h4
          subst h4
          exact Or.inl ⟨h1, i, (M.next_iff hn s k _ i).1 h3, N, h5⟩
      · obtain rfl := hB.same _ _ _ _ h1
        exact Or.inr ⟨⟨y, h1, h2⟩, N, h3⟩
  · rintro (⟨h1, i, h2, N, h3⟩ | ⟨⟨y, h1, h2⟩, N, h3⟩)
    · refine ⟨N + 2, ?_⟩
      rw [loopSet_succ]
      exact Or.inl ⟨st, h1, hk, rfl, i, (M.next_iff hn s k _ i).2 h2, _, (hB.obs _ hst _).1, h3⟩
    · refine ⟨N + 1, ?_⟩
      rw [loopSet_succ]
      exact Or.inr ⟨y, st, h1, h2, h3⟩

theorem fullSet_succ_none (M : MDP ℝ L n) (hB : Behaves sch P dom) (steps : ℕ) (s : Fin n) (st : σ)
    (o x : L) (h : x ∉ M.getActions s ∨ M.labelling s ≠ o) (w : List L) :
    M.fullSet sch (steps+1) s st (o :: x :: w)
      = {d | d 0 ∈ (∅ : Set ℝ) ∧ (fun k => d (k+1)) ∈ (∅ : Set (ℕ → ℝ))} ∪
        {d | d 0 ∈ M.refuseSet sch st s ∧ (fun k => d (k+1)) ∈ M.fullSet sch (steps+1) s st (o :: x :: w)} := by
  ext d
  simp only [fullSet, Set.mem_iUnion, Set.mem_union, Set.mem_ofPred_eq, refuseSet, Set.mem_empty_iff_false, false_and, false_or]
  constructor
  · rintro ⟨N, hN⟩
    cases N with
    | zero => rw [loopSet_none] at hN; exact absurd hN (by simp)
    | succ N =>
      rw [loopSet_succ] at hN
      rcases hN with ⟨st', _, h1, h2, _⟩ | ⟨y, st', h1, h2, h3⟩
      · rcases h with h | h
        · exact absurd h1 h
        · exact absurd h2 h
      · obtain rfl := hB.same _ _ _ _ h1
        exact ⟨⟨y, h1, h2⟩, N, h3⟩
  · rintro ⟨⟨y, h1, h2⟩, N, h3⟩
    refine ⟨N + 1, ?_⟩
    rw [loopSet_succ]
    exact Or.inr ⟨y, st, h1, h2, h3⟩

theorem acceptSet_law (M : MDP ℝ L n) (hB : Behaves sch P dom) (s : Fin n) (st : σ) (hst : dom st) :
    uniform {r | ∃ y, M.Allowed s y ∧ y ∈ M.actions ∧ sch.getAction st r = .ok (y, st)} = ENNReal.ofReal (M.acceptProb P s st) ∧
    MeasurableSet {r | ∃ y, M.Allowed s y ∧ y ∈ M.actions ∧ sch.getAction st r = .ok (y, st)} := by
  classical
  have e : {r | ∃ y, M.Allowed s y ∧ y ∈ M.actions ∧ sch.getAction st r = .ok (y, st)}
      = ⋃ y ∈ M.actions.toFinset.filter (M.Allowed s), proposeSet sch st y := by
    ext r
    simp only [Set.mem_ofPred_eq, Set.mem_iUnion, Finset.mem_filter, List.mem_toFinset, proposeSet, exists_prop]
    constructor
    · rintro ⟨y, h1, h2, h3⟩; exact ⟨y, ⟨h2, h1⟩, h3⟩
    · rintro ⟨y, ⟨h2, h1⟩, h3⟩; exact ⟨y, h1, h2, h3⟩
  have hm : ∀ y ∈ M.actions.toFinset.filter (M.Allowed s), MeasurableSet (proposeSet sch st y) := fun y _ => hB.meas st y
  refine ⟨?_, ?_⟩
  · rw [e, measure_biUnion_finset _ hm]
    · unfold acceptProb
      rw [ENNReal.ofReal_sum_of_nonneg (fun y _ => hB.nonneg st hst y)]
      refine Finset.sum_congr ?_ (fun y _ => hB.law st hst y)
      ext y; simp
    · intro y _ z _ hyz
      rw [Function.onFun, Set.disjoint_left]
      intro r h1 h2
      simp only [proposeSet, Set.mem_ofPred_eq] at h1 h2
      rw [h1] at h2
      injection h2 with h2
      injection h2 with h2 _
      exact hyz h2
  · rw [e]
    exact Finset.measurableSet_biUnion _ hm

theorem refuse_law (M : MDP ℝ L n) (hn : M.actions.Nodup) (h0 : ∀ s i s', 0 ≤ M.matrix s i s') (hB : Behaves sch P dom) (s : Fin n)
    (st : σ) (hst : dom st) :
    uniform (M.refuseSet sch st s) = ENNReal.ofReal (1 - M.acceptProb P s st) ∧ 0 ≤ M.acceptProb P s st ∧ M.acceptProb P s st ≤ 1 := by
  obtain ⟨h1, h2⟩ := M.acceptSet_law hB s st hst
  have hq0 : 0 ≤ M.acceptProb P s st := Finset.sum_nonneg (fun y _ => hB.nonneg st hst y)
  have hle : uniform {r | ∃ y, M.Allowed s y ∧ y ∈ M.actions ∧ sch.getAction st r = .ok (y, st)} ≤ 1 := prob_le_one
  rw [h1, ← ENNReal.ofReal_one, ENNReal.ofReal_le_ofReal_iff zero_le_one] at hle
  refine ⟨?_, hq0, hle⟩
  have e : uniform (M.refuseSet sch st s)
      = uniform {r | ∃ y, M.Allowed s y ∧ y ∈ M.actions ∧ sch.getAction st r = .ok (y, st)}ᶜ := by
    unfold uniform
    rw [Measure.restrict_apply' measurableSet_Ico, Measure.restrict_apply' measurableSet_Ico]
    congr 1
    ext r
    simp only [Set.mem_inter_iff, Set.mem_compl_iff, Set.mem_ofPred_eq, refuseSet, Set.mem_Ico]
    constructor
    · rintro ⟨⟨y, h3, h4⟩, h5⟩
      refine ⟨?_, h5⟩
      rintro ⟨z, h6, _, h7⟩
      rw [h3] at h7
      injection h7 with h7
      injection h7 with h7 _
      exact h4 ((M.mem_getActions hn h0 s y).2 (h7 ▸ h6))
    · rintro ⟨h3, h5⟩
      refine ⟨?_, h5⟩
      obtain ⟨x, hx⟩ := hB.total st hst r h5.1 h5.2
      refine ⟨x, hx, fun hc => h3 ?_⟩
      have ha := (M.mem_getActions hn h0 s x).1 hc
      refine ⟨x, ha, ?_, hx⟩
      by_contra hna
      obtain ⟨s', hs'⟩ := ha
      rw [M.prob_not_mem s x s' hna] at hs'
      exact lt_irrefl _ hs'
  rw [e, measure_compl h2 (ne_top_of_le_ne_top ENNReal.one_ne_top prob_le_one), measure_univ, h1, ← ENNReal.ofReal_one,
    ← ENNReal.ofReal_sub _ hq0]

theorem measurable_refuse (M : MDP ℝ L n) (hn : M.actions.Nodup) (h0 : ∀ s i s', 0 ≤ M.matrix s i s') (hB : Behaves sch P dom)
    (s : Fin n) (st : σ) (hst : dom st) : MeasurableSet (M.refuseSet sch st s) := by
  have e : M.refuseSet sch st s = {r | ∃ x, sch.getAction st r = .ok (x, st)} \
      {r | ∃ y, M.Allowed s y ∧ y ∈ M.actions ∧ sch.getAction st r = .ok (y, st)} := by
    ext r
    simp only [refuseSet, Set.mem_ofPred_eq, Set.mem_sdiff]
    constructor
    · rintro ⟨y, h1, h2⟩
      refine ⟨⟨y, h1⟩, ?_⟩
      rintro ⟨z, h3, _, h4⟩
      rw [h1] at h4
      injection h4 with h4
      injection h4 with h4 _
      exact h2 ((M.mem_getActions hn h0 s y).2 (h4 ▸ h3))
    · rintro ⟨⟨y, h1⟩, h2⟩
      refine ⟨y, h1, fun hc => h2 ?_⟩
      have ha := (M.mem_getActions hn h0 s y).1 hc
      refine ⟨y, ha, ?_, h1⟩
      by_contra hna
      obtain ⟨s', hs'⟩ := ha
      rw [M.prob_not_mem s y s' hna] at hs'
      exact lt_irrefl _ hs'
  rw [e]
  exact (hB.measOk st).diff (M.acceptSet_law hB s st hst).2

theorem measurable_cons {A : Set ℝ} {B : Set (ℕ → ℝ)} (hA : MeasurableSet A) (hB : MeasurableSet B) :
    MeasurableSet {d : ℕ → ℝ | d 0 ∈ A ∧ (fun k => d (k+1)) ∈ B} := by
  refine MeasurableSet.inter ((measurable_pi_apply (X := fun _ : ℕ => ℝ) 0) hA) ?_
  have : Measurable (fun (d : ℕ → ℝ) (k : ℕ) => d (k+1)) := measurable_pi_iff.2 (fun k => measurable_pi_apply (k+1))
  exact this hB

theorem measurable_loopSet (M : MDP ℝ L n) (hn : M.actions.Nodup) (h0 : ∀ s i s', 0 ≤ M.matrix s i s') (hB : Behaves sch P dom)
    (steps N : ℕ) (s : Fin n) (st : σ) (hst : dom st) (w : List L) : MeasurableSet (M.loopSet sch steps N s st w) := by
  induction steps generalizing N s st w with
  | zero => rw [loopSet_zero]; exact MeasurableSet.const _
  | succ steps ih =>
    by_cases hw : ∀ o x w', w ≠ o :: x :: w'
    · rw [M.loopSet_shape sch steps N s st w hw]; exact MeasurableSet.empty
    · push Not at hw
      obtain ⟨o, x, w', rfl⟩ := hw
      induction N with
      | zero => rw [loopSet_none]; exact MeasurableSet.empty
      | succ N ihN =>
        rw [loopSet_succ]
        refine MeasurableSet.union ?_ ?_
        · by_cases hc : x ∈ M.getActions s ∧ M.labelling s = o
          · have e : {d : ℕ → ℝ | ∃ st', sch.getAction st (d 0) = .ok (x, st') ∧ x ∈ M.getActions s ∧ M.labelling s = o ∧
                (fun k => d (k+1)) ∈ M.afterSet sch steps s st' x w' N}
                = {d | d 0 ∈ proposeSet sch st x ∧ (fun k => d (k+1)) ∈ M.afterSet sch steps s st x w' N} := by
              ext d
              simp only [Set.mem_ofPred_eq, proposeSet]
              constructor
              · rintro ⟨st', h1, _, _, h2⟩
                obtain rfl := hB.same _ _ _ _ h1
                exact ⟨h1, h2⟩
              · rintro ⟨h1, h2⟩
                exact ⟨st, h1, hc.1, hc.2, h2⟩
            rw [e]
            refine measurable_cons (hB.meas st x) ?_
            cases N with
            | zero => exact MeasurableSet.empty
            | succ N =>
              have ha := (M.mem_getActions hn h0 s x).1 hc.1
              have hx : x ∈ M.actions := by
                by_contra hna
                obtain ⟨s', hs'⟩ := ha
                rw [M.prob_not_mem s x s' hna] at hs'
                exact lt_irrefl _ hs'
              obtain ⟨k, hk, rfl⟩ := List.mem_iff_getElem.1 hx
              have e2 : M.afterSet sch steps s st M.actions[k] w' (N+1) = {d : ℕ → ℝ | ∃ i, pick (M.matrix s ⟨k, hk⟩) (d 0) = .ok i ∧
                  (fun k => d (k+1)) ∈ M.loopSet sch steps N i (P.update st (M.labelling s)) w'} := by
                ext d
                simp only [afterSet, Set.mem_ofPred_eq]
                refine exists_congr (fun i => and_congr (M.next_iff hn s ⟨k, hk⟩ _ i) ?_)
                rw [(hB.obs _ hst _).1]
                simp
              rw [e2]
              exact measurable_bind _ _ (fun i => ih N i _ (hB.obs _ hst _).2 w')
          · convert MeasurableSet.empty
            ext d
            simp only [Set.mem_ofPred_eq, Set.mem_empty_iff_false, iff_false]
            rintro ⟨st', _, h1, h2, _⟩
            exact hc ⟨h1, h2⟩
        · have e : {d : ℕ → ℝ | ∃ y st', sch.getAction st (d 0) = .ok (y, st') ∧ y ∉ M.getActions s ∧
              (fun k => d (k+1)) ∈ M.loopSet sch (steps+1) N s st' (o :: x :: w')}
              = {d | d 0 ∈ M.refuseSet sch st s ∧ (fun k => d (k+1)) ∈ M.loopSet sch (steps+1) N s st (o :: x :: w')} := by
            ext d
            simp only [Set.mem_ofPred_eq, refuseSet]
            constructor
            · rintro ⟨y, st', h1, h2, h3⟩
              obtain rfl := hB.same _ _ _ _ h1
              exact ⟨⟨y, h1, h2⟩, h3⟩
            · rintro ⟨⟨y, h1, h2⟩, h3⟩
              exact ⟨y, st, h1, h2, h3⟩
          rw [e]
          exact measurable_cons (M.measurable_refuse hn h0 hB s st hst) ihN

theorem measurable_fullSet (M : MDP ℝ L n) (hn : M.actions.Nodup) (h0 : ∀ s i s', 0 ≤ M.matrix s i s') (hB : Behaves sch P dom)
    (steps : ℕ) (s : Fin n) (st : σ) (hst : dom st) (w : List L) : MeasurableSet (M.fullSet sch steps s st w) :=
  MeasurableSet.iUnion (fun N => M.measurable_loopSet hn h0 hB steps N s st hst w)

/-- A trace whose first action is never proposed is never returned. -/
theorem fullSet_null (M : MDP ℝ L n) (hB : Behaves sch P dom) (steps : ℕ) (s : Fin n) (st : σ) (o x : L) (w : List L)
    (hx : x ∈ M.getActions s → uniform (proposeSet sch st x) = 0) :
    drawsLaw (M.fullSet sch (steps+1) s st (o :: x :: w)) = 0 := by
  unfold fullSet
  rw [measure_iUnion_null_iff]
  intro N
  induction N with
  | zero => rw [loopSet_none]; simp
  | succ N ih =>
    rw [loopSet_succ]
    rw [measure_union_null_iff]
    constructor
    · by_cases hc : x ∈ M.getActions s
      · refine measure_mono_null (t := {d | d 0 ∈ proposeSet sch st x ∧ (fun k => d (k+1)) ∈ Set.univ}) ?_ ?_
        · rintro d ⟨st', h, _⟩
          obtain rfl := hB.same _ _ _ _ h
          exact ⟨h, trivial⟩
        · rw [drawsLaw_cons, hx hc, zero_mul]
      · refine measure_mono_null (t := ∅) ?_ measure_empty
        rintro d ⟨_, _, h, _⟩
        exact absurd h hc
    · refine measure_mono_null (t := {d | d 0 ∈ Set.univ ∧ (fun k => d (k+1)) ∈ M.loopSet sch (steps+1) N s st (o :: x :: w)}) ?_ ?_
      · rintro d ⟨y, st', h, _, h2⟩
        obtain rfl := hB.same _ _ _ _ h
        exact ⟨trivial, h2⟩
      · rw [drawsLaw_cons, ih, mul_zero]

/-- The weight of one step: the label of the state, the action done, the move. -/
noncomputable def runStep (M : MDP ℝ L n) (P : Policy σ L) (s s' : Fin n) (q : σ × L × L) : ℝ :=
  (if M.labelling s = q.2.1 then 1 else 0) * (M.choiceProb P s q.1 q.2.2 * M.prob s q.2.2 s')

theorem choiceProb_nonneg (M : MDP ℝ L n) (hB : Behaves sch P dom) (s : Fin n) (st : σ) (hst : dom st) (x : L) :
    0 ≤ M.choiceProb P s st x := by
  unfold choiceProb
  split_ifs
  · exact div_nonneg (hB.nonneg st hst x) (Finset.sum_nonneg (fun y _ => hB.nonneg st hst y))
  · exact le_rfl

theorem prob_nonneg_run (M : MDP ℝ L n) (h0 : ∀ s i s', 0 ≤ M.matrix s i s') (s : Fin n) (x : L) (s' : Fin n) : 0 ≤ M.prob s x s' := by
  unfold prob
  refine Finset.sum_nonneg (fun i _ => ?_)
  split_ifs
  · exact h0 _ _ _
  · exact le_rfl

theorem beta0_run_nonneg (M : MDP ℝ L n) (h0 : ∀ s i s', 0 ≤ M.matrix s i s') (hB : Behaves sch P dom) (ps : List (L × L)) (last : L)
    (s : Fin n) (st : σ) (hst : dom st) : 0 ≤ beta0 (M.runStep P) (M.mask last) (P.steps st ps) s := by
  induction ps generalizing s st with
  | nil => simp only [Policy.steps, beta0_nil, mask]; split_ifs <;> norm_num
  | cons p ps ih =>
    simp only [Policy.steps, beta0_cons, bwd]
    refine Finset.sum_nonneg (fun s' _ => mul_nonneg (ih _ _ (hB.obs _ hst _).2) ?_)
    refine mul_nonneg (by split_ifs <;> norm_num) (mul_nonneg (M.choiceProb_nonneg hB s st hst _) (M.prob_nonneg_run h0 _ _ _))

theorem fullSet_law (M : MDP ℝ L n) (hn : M.actions.Nodup) (h0 : ∀ s i s', 0 ≤ M.matrix s i s') (hs : ∀ s i, ∑ s', M.matrix s i s' ≤ 1)
    (hB : Behaves sch P dom) (ps : List (L × L)) (last : L) (s : Fin n)
    (st : σ) (hst : dom st) :
    drawsLaw (M.fullSet sch ps.length s st (alternate ps last))
      = ENNReal.ofReal (beta0 (M.runStep P) (M.mask last) (P.steps st ps) s) := by
  induction ps generalizing s st with
  | nil =>
    simp only [fullSet, List.length_nil, loopSet_zero, Policy.steps, beta0_nil, mask, alternate]
    rw [Set.iUnion_const]
    by_cases h : M.labelling s = last
    · subst h; simp
    · have : ¬ last = M.labelling s := fun hc => h hc.symm
      simp [h, this]
  | cons p ps ih =>
    obtain ⟨o, x⟩ := p
    obtain ⟨hr1, hr2, hr3⟩ := M.refuse_law hn h0 hB s st hst
    simp only [List.length_cons, alternate, Policy.steps, beta0_cons, bwd]
    rcases eq_or_lt_of_le hr2 with hq | hq
    · rw [M.fullSet_null hB]
      · rw [eq_comm, ENNReal.ofReal_eq_zero]
        refine le_of_eq (Finset.sum_eq_zero (fun s' _ => ?_))
        simp only [runStep]
        unfold choiceProb
        rw [← hq]
        simp
      · intro hc1
        have ha := (M.mem_getActions hn h0 s x).1 hc1
        have hx : x ∈ M.actions := by
          by_contra hna
          obtain ⟨s', hs'⟩ := ha
          rw [M.prob_not_mem s x s' hna] at hs'
          exact lt_irrefl _ hs'
        rw [show uniform (proposeSet sch st x) = _ from hB.law st hst x, ENNReal.ofReal_eq_zero]
        refine le_of_eq ?_
        unfold acceptProb at hq
        refine (Finset.sum_eq_zero_iff_of_nonneg (fun y _ => hB.nonneg st hst y)).1 hq.symm x ?_
        simp [hx, ha]
    by_cases hc : x ∈ M.getActions s ∧ M.labelling s = o
    · obtain ⟨hc1, rfl⟩ := hc
      have ha := (M.mem_getActions hn h0 s x).1 hc1
      have hx : x ∈ M.actions := by
        by_contra hna
        obtain ⟨s', hs'⟩ := ha
        rw [M.prob_not_mem s x s' hna] at hs'
        exact lt_irrefl _ hs'
      obtain ⟨k, hk, rfl⟩ := List.mem_iff_getElem.1 hx
      have hY : MeasurableSet (M.moveSet sch ps.length s ⟨k, hk⟩ (P.update st (M.labelling s)) (alternate ps last)) :=
        measurable_bind _ _ (fun i => M.measurable_fullSet hn h0 hB _ i _ (hB.obs _ hst _).2 _)
      have hd : Disjoint (proposeSet sch st M.actions[k]) (M.refuseSet sch st s) := by
        rw [Set.disjoint_left]
        rintro r h1 ⟨y, h2, h3⟩
        simp only [proposeSet, Set.mem_ofPred_eq] at h1
        rw [h1] at h2
        injection h2 with h2
        injection h2 with h2 _
        exact h3 (h2 ▸ hc1)
      have hfs := M.fullSet_succ hn hB ps.length s st hst ⟨k, hk⟩ hc1 (alternate ps last)
      simp only [Fin.getElem_fin] at hfs
      rw [retry_law (proposeSet sch st M.actions[k]) (M.refuseSet sch st s) hd (hB.meas st _) _ _ hY
        hfs (M.acceptProb P s st) hq hr1 hr3]
      unfold moveSet
      rw [drawsLaw_bind _ (h0 s _) (hs s _) _ (fun i => M.measurable_fullSet hn h0 hB _ i _ (hB.obs _ hst _).2 _)]
      rw [show uniform (proposeSet sch st M.actions[k]) = _ from hB.law st hst M.actions[k]]
      rw [Finset.sum_congr rfl (fun i _ => by rw [ih i _ (hB.obs _ hst _).2])]
      rw [Finset.sum_congr rfl (fun i _ => (ENNReal.ofReal_mul (h0 s ⟨k, hk⟩ i)).symm)]
      rw [← ENNReal.ofReal_sum_of_nonneg (fun i _ => mul_nonneg (h0 _ _ _) (M.beta0_run_nonneg h0 hB ps last i _ (hB.obs _ hst _).2)),
        ← ENNReal.ofReal_mul (hB.nonneg st hst _), ← ENNReal.ofReal_div_of_pos hq]
      congr 1
      rw [mul_div_right_comm, Finset.mul_sum]
      refine Finset.sum_congr rfl (fun i _ => ?_)
      simp only [runStep]
      unfold choiceProb
      rw [if_pos trivial, if_pos ha, show M.prob s M.actions[k] i = M.matrix s ⟨k, hk⟩ i from M.prob_getElem hn s ⟨k, hk⟩ i]
      ring
    · rw [retry_law ∅ (M.refuseSet sch st s) (by simp) MeasurableSet.empty ∅ _ MeasurableSet.empty
        (M.fullSet_succ_none hB ps.length s st o x (by tauto) (alternate ps last)) (M.acceptProb P s st) hq hr1 hr3]
      rw [measure_empty, zero_mul, ENNReal.zero_div, eq_comm, ENNReal.ofReal_eq_zero]
      refine le_of_eq (Finset.sum_eq_zero (fun s' _ => ?_))
      simp only [runStep]
      by_cases hl : M.labelling s = o
      · have : ¬ M.Allowed s x := fun h => hc ⟨(M.mem_getActions hn h0 s x).2 h, hl⟩
        unfold choiceProb
        rw [if_neg this]
        ring
      · rw [if_neg hl]
        ring

theorem returns_eq (M : MDP ℝ L n) (hB : Behaves sch P dom) (steps : ℕ) (st : σ) (w : List L) :
    {d | M.Returns sch steps st w d} = {d : ℕ → ℝ | ∃ i, pick M.initialState (d 0) = .ok i ∧
      (fun k => d (k+1)) ∈ M.fullSet sch steps i P.start w} := by
  ext d
  simp only [Returns, Set.mem_ofPred_eq, fullSet, Set.mem_iUnion, loopSet]
  constructor
  · rintro ⟨N, st', h⟩
    cases N with
    | zero => simp [run] at h
    | succ N =>
      rw [ofFn_shift d N, run, hB.reset] at h
      split at h
      · cases h
      · rename_i i hi
        exact ⟨i, hi, N, st', h⟩
  · rintro ⟨i, hi, N, st', h⟩
    refine ⟨N + 1, st', ?_⟩
    rw [ofFn_shift d N, run, hB.reset, hi]
    exact h

theorem returns_law (M : MDP ℝ L n) (hn : M.actions.Nodup) (h0 : ∀ s i s', 0 ≤ M.matrix s i s') (hs : ∀ s i, ∑ s', M.matrix s i s' ≤ 1)
    (hi0 : ∀ s, 0 ≤ M.initialState s) (hi : ∑ s, M.initialState s ≤ 1)
    (hB : Behaves sch P dom) (ps : List (L × L)) (last : L) (st : σ) :
    drawsLaw {d | M.Returns sch ps.length st (alternate ps last) d}
      = ENNReal.ofReal (totalWeight M.initialState (M.runStep P) (M.mask last) (P.steps P.start ps)) := by
  rw [M.returns_eq hB, drawsLaw_bind _ hi0 hi _ (fun i => M.measurable_fullSet hn h0 hB _ i _ hB.start _), totalWeight_eq]
  rw [Finset.sum_congr rfl (fun i _ => by rw [M.fullSet_law hn h0 hs hB ps last i _ hB.start])]
  rw [Finset.sum_congr rfl (fun i _ => (ENNReal.ofReal_mul (hi0 i)).symm)]
  rw [← ENNReal.ofReal_sum_of_nonneg (fun i _ => mul_nonneg (hi0 _) (M.beta0_run_nonneg h0 hB ps last i _ hB.start))]

/-! ### the end of the run -/

/-- The draws with which the loop returns a trace made of the labels and the actions of the model. -/
def endSet (M : MDP ℝ L n) (sch : Sched ℝ L σ) (steps : ℕ) (s : Fin n) (st : σ) : Set (ℕ → ℝ) :=
  ⋃ w : List (Fin n ⊕ Fin M.actions.length), M.fullSet sch steps s st (w.map (Sum.elim M.labelling M.actions.get))

theorem measurable_endSet (M : MDP ℝ L n) (hn : M.actions.Nodup) (h0 : ∀ s i s', 0 ≤ M.matrix s i s') (hB : Behaves sch P dom)
    (steps : ℕ) (s : Fin n) (st : σ) (hst : dom st) : MeasurableSet (M.endSet sch steps s st) :=
  MeasurableSet.iUnion (fun _ => M.measurable_fullSet hn h0 hB steps s st hst _)

theorem fullSet_refuse (M : MDP ℝ L n) (steps : ℕ) (s : Fin n) (st : σ) (w : List L) (d : ℕ → ℝ) (h : d 0 ∈ M.refuseSet sch st s)
    (h2 : (fun k => d (k+1)) ∈ M.fullSet sch (steps+1) s st w) : d ∈ M.fullSet sch (steps+1) s st w := by
  simp only [fullSet, Set.mem_iUnion] at h2 ⊢
  obtain ⟨N, h2⟩ := h2
  by_cases hw : ∀ o x w', w ≠ o :: x :: w'
  · rw [M.loopSet_shape sch steps N s st w hw] at h2
    exact absurd h2 (by simp)
  · push Not at hw
    obtain ⟨o, x, w', rfl⟩ := hw
    obtain ⟨y, h3, h4⟩ := h
    refine ⟨N + 1, ?_⟩
    rw [loopSet_succ]
    exact Or.inr ⟨y, st, h3, h4, h2⟩

theorem endSet_law (M : MDP ℝ L n) (hn : M.actions.Nodup) (h0 : ∀ s i s', 0 ≤ M.matrix s i s')
    (hs : ∀ s i, ∑ s', M.matrix s i s' = 1 ∨ ∑ s', M.matrix s i s' = 0) (hB : Behaves sch P dom)
    (hq : ∀ s st, dom st → 0 < M.acceptProb P s st) (steps : ℕ) (s : Fin n) (st : σ) (hst : dom st) :
    drawsLaw (M.endSet sch steps s st) = 1 := by
  induction steps generalizing s st with
  | zero =>
    have : M.endSet sch 0 s st = Set.univ := by
      rw [Set.eq_univ_iff_forall]
      intro d
      refine Set.mem_iUnion.2 ⟨[Sum.inl s], Set.mem_iUnion.2 ⟨0, ?_⟩⟩
      rw [loopSet_zero]
      rfl
    rw [this, measure_univ]
  | succ steps ih =>
    obtain ⟨hr1, hr2, hr3⟩ := M.refuse_law hn h0 hB s st hst
    obtain ⟨ha1, ha2⟩ := M.acceptSet_law hB s st hst
    set acc := {r | ∃ y, M.Allowed s y ∧ y ∈ M.actions ∧ sch.getAction st r = .ok (y, st)} with hacc
    set st2 := P.update st (M.labelling s) with hst2
    have hd2 : dom st2 := (hB.obs _ hst _).2
    let Y : Set (ℕ → ℝ) := {d | ∀ k : Fin M.actions.length, M.Allowed s M.actions[k] →
      ∃ i, pick (M.matrix s k) (d 0) = .ok i ∧ (fun k => d (k+1)) ∈ M.endSet sch steps i st2}
    have hYk : ∀ k : Fin M.actions.length, MeasurableSet
        {d : ℕ → ℝ | ∃ i, pick (M.matrix s k) (d 0) = .ok i ∧ (fun k => d (k+1)) ∈ M.endSet sch steps i st2} :=
      fun k => measurable_bind _ _ (fun i => M.measurable_endSet hn h0 hB _ i _ hd2)
    have hYm : MeasurableSet Y := by
      have : Y = ⋂ k : Fin M.actions.length, ⋂ _ : M.Allowed s M.actions[k],
          {d : ℕ → ℝ | ∃ i, pick (M.matrix s k) (d 0) = .ok i ∧ (fun k => d (k+1)) ∈ M.endSet sch steps i st2} := by
        ext d; simp [Y]
      rw [this]
      exact MeasurableSet.iInter (fun k => MeasurableSet.iInter (fun _ => hYk k))
    have hY1 : drawsLaw Y = 1 := by
      rw [← mem_ae_iff_prob_eq_one hYm]
      change ∀ᵐ d ∂drawsLaw, ∀ k : Fin M.actions.length, M.Allowed s M.actions[k] →
        ∃ i, pick (M.matrix s k) (d 0) = .ok i ∧ (fun k => d (k+1)) ∈ M.endSet sch steps i st2
      rw [ae_all_iff]
      intro k
      by_cases hk : M.Allowed s M.actions[k]
      · have h1 : drawsLaw {d : ℕ → ℝ | ∃ i, pick (M.matrix s k) (d 0) = .ok i ∧ (fun k => d (k+1)) ∈ M.endSet sch steps i st2} = 1 := by
          have hsum : ∑ s', M.matrix s k s' = 1 := by
            rcases hs s k with h | h
            · exact h
            · obtain ⟨s', hs'⟩ := hk
              rw [M.prob_getElem hn] at hs'
              have := (Finset.sum_eq_zero_iff_of_nonneg (fun i _ => h0 s k i)).1 h s' (Finset.mem_univ _)
              exact absurd this hs'.ne'
          rw [drawsLaw_bind _ (h0 s k) hsum.le _ (fun i => M.measurable_endSet hn h0 hB _ i _ hd2)]
          rw [Finset.sum_congr rfl (fun i _ => by rw [ih i _ hd2, mul_one]),
            ← ENNReal.ofReal_sum_of_nonneg (fun i _ => h0 s k i), hsum, ENNReal.ofReal_one]
        have h2 := (mem_ae_iff_prob_eq_one (hYk k)).2 h1
        filter_upwards [h2] with d hd _
        exact hd
      · exact Filter.Eventually.of_forall (fun d h => absurd h hk)
    have hsub : {d : ℕ → ℝ | d 0 ∈ acc ∧ (fun k => d (k+1)) ∈ Y} ∪
        {d | d 0 ∈ M.refuseSet sch st s ∧ (fun k => d (k+1)) ∈ M.endSet sch (steps+1) s st} ⊆ M.endSet sch (steps+1) s st := by
      rintro d (⟨⟨y, h1, h2, h3⟩, h4⟩ | ⟨h1, h2⟩)
      · obtain ⟨k, hk, rfl⟩ := List.mem_iff_getElem.1 h2
        obtain ⟨i, h5, h6⟩ := h4 ⟨k, hk⟩ h1
        obtain ⟨w, h6⟩ := Set.mem_iUnion.1 h6
        refine Set.mem_iUnion.2 ⟨Sum.inl s :: Sum.inr ⟨k, hk⟩ :: w, ?_⟩
        have hfs := M.fullSet_succ hn hB steps s st hst ⟨k, hk⟩ ((M.mem_getActions hn h0 s _).2 h1)
          (w.map (Sum.elim M.labelling M.actions.get))
        change d ∈ M.fullSet sch (steps+1) s st (M.labelling s :: M.actions[(⟨k, hk⟩ : Fin M.actions.length)] :: _)
        rw [hfs]
        exact Or.inl ⟨h3, i, h5, h6⟩
      · obtain ⟨w, h2⟩ := Set.mem_iUnion.1 h2
        exact Set.mem_iUnion.2 ⟨w, M.fullSet_refuse steps s st _ d h1 h2⟩
    have hle := measure_mono (μ := drawsLaw) hsub
    rw [measure_union' _ (measurable_cons ha2 hYm), drawsLaw_cons, drawsLaw_cons, hr1, ha1, hY1, mul_one] at hle
    · have hfin : drawsLaw (M.endSet sch (steps+1) s st) ≠ ⊤ := measure_ne_top _ _
      rw [← ENNReal.ofReal_toReal hfin, ← ENNReal.ofReal_mul (by linarith), ← ENNReal.ofReal_add hr2
        (mul_nonneg (by linarith) ENNReal.toReal_nonneg), ENNReal.ofReal_le_ofReal_iff ENNReal.toReal_nonneg] at hle
      have hqq := hq s st hst
      have h1 : 1 ≤ (drawsLaw (M.endSet sch (steps+1) s st)).toReal := by
        by_contra hc
        push Not at hc
        nlinarith
      refine le_antisymm prob_le_one ?_
      rw [← ENNReal.ofReal_toReal hfin, ← ENNReal.ofReal_one]
      exact ENNReal.ofReal_le_ofReal h1
    · rw [Set.disjoint_left]
      rintro d ⟨⟨y, h1, _, h2⟩, -⟩ ⟨⟨z, h3, h4⟩, -⟩
      rw [h2] at h3
      injection h3 with h3
      injection h3 with h3 _
      exact h4 (h3 ▸ (M.mem_getActions hn h0 s y).2 h1)

theorem returns_total (M : MDP ℝ L n) (hn : M.actions.Nodup) (hS : M.Stochastic) (hB : Behaves sch P dom)
    (hq : ∀ s st, dom st → 0 < M.acceptProb P s st) (steps : ℕ) (st : σ) :
    drawsLaw {d | ∃ w, M.Returns sch steps st w d} = 1 := by
  obtain ⟨hi0, hi, h0, hs⟩ := hS
  have hsub : {d : ℕ → ℝ | ∃ i, pick M.initialState (d 0) = .ok i ∧ (fun k => d (k+1)) ∈ M.endSet sch steps i P.start}
      ⊆ {d | ∃ w, M.Returns sch steps st w d} := by
    rintro d ⟨i, h1, h2⟩
    obtain ⟨w, h2⟩ := Set.mem_iUnion.1 h2
    refine ⟨w.map (Sum.elim M.labelling M.actions.get), ?_⟩
    have : d ∈ {d | M.Returns sch steps st (w.map (Sum.elim M.labelling M.actions.get)) d} := by
      rw [M.returns_eq hB]
      exact ⟨i, h1, h2⟩
    exact this
  have hle := measure_mono (μ := drawsLaw) hsub
  rw [drawsLaw_bind _ hi0 hi.le _ (fun i => M.measurable_endSet hn h0 hB _ i _ hB.start),
    Finset.sum_congr rfl (fun i _ => by rw [M.endSet_law hn h0 hs hB hq steps i _ hB.start, mul_one]),
    ← ENNReal.ofReal_sum_of_nonneg (fun i _ => hi0 i), hi, ENNReal.ofReal_one] at hle
  exact le_antisymm prob_le_one hle

end law
end MDP
end Jajapy
