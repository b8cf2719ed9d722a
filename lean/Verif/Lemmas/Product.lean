import Verif.Props.Simulation
import Verif.Props.MDPSim
import Verif.Lemmas.GenerateMDP
import Verif.Spec.Product

/-!
Lemmas for C115.
-/

set_option autoImplicit false
set_option linter.unusedSectionVars false

namespace Jajapy

open MeasureTheory Spec Finset Tools BW

namespace MDP
variable {σ L : Type} {n N : ℕ} [DecidableEq L]

/-- The steps of a trace with given observations and given actions. -/
def weave (M : MDP ℝ L n) (os : List L) (xs : Fin os.length → Fin M.actions.length) : List (L × L) :=
  List.ofFn (fun k => (os[k], M.actions[xs k]))

theorem weave_cons (M : MDP ℝ L n) (o : L) (os : List L) (x : Fin M.actions.length) (xs : Fin os.length → Fin M.actions.length) :
    M.weave (o :: os) (Fin.cons x xs : Fin (os.length + 1) → _) = (o, M.actions[x]) :: M.weave os xs := by
  unfold weave
  simp only [List.length_cons]
  rw [List.ofFn_succ]
  simp

theorem weave_length (M : MDP ℝ L n) (os : List L) (xs : Fin os.length → Fin M.actions.length) : (M.weave os xs).length = os.length := by
  simp [weave]

theorem mdpObservations_alternate (ps : List (L × L)) (last : L) : mdpObservations (alternate ps last) = ps.map Prod.fst ++ [last] := by
  induction ps with
  | nil => rfl
  | cons p ps ih => simp only [alternate, mdpObservations, ih, List.map_cons, List.cons_append]

theorem weave_fst (M : MDP ℝ L n) (os : List L) (xs : Fin os.length → Fin M.actions.length) : (M.weave os xs).map Prod.fst = os := by
  apply List.ext_getElem
  · simp [weave]
  · intro k h1 h2; simp [weave]

theorem weave_injective (M : MDP ℝ L n) (hn : M.actions.Nodup) (os : List L) (xs ys : Fin os.length → Fin M.actions.length)
    (h : M.weave os xs = M.weave os ys) : xs = ys := by
  unfold weave at h
  have := List.ofFn_injective h
  funext k
  have hk := congrFun this k
  simp only [Prod.mk.injEq, true_and] at hk
  exact Fin.ext ((List.Nodup.getElem_inj_iff hn).1 hk)

theorem alternate_injective (ps qs : List (L × L)) (last : L) (h : alternate ps last = alternate qs last) : ps = qs := by
  rw [← mdpSteps_alternate ps last, h, mdpSteps_alternate]

/-- A list of steps whose actions belong to the model is woven from its observations and its actions. -/
theorem exists_weave (M : MDP ℝ L n) (ps : List (L × L)) (h : ∀ p ∈ ps, p.2 ∈ M.actions) (os : List L) (ho : ps.map Prod.fst = os) :
    ∃ xs, ps = M.weave os xs := by
  subst ho
  refine ⟨fun k => ⟨M.actions.idxOf (ps[k.1]'(by simpa using k.2)).2, List.idxOf_lt_length_iff.2 (h _ (List.getElem_mem _))⟩, ?_⟩
  apply List.ext_getElem
  · simp [weave]
  · intro k h1 h2
    simp [weave]

theorem chooseAction_possible (M : MDP ℝ L n) (sch : Sched ℝ L σ) (s : Fin n) (draws : List ℝ) (st : σ) (x : L) (st' : σ) (rs : List ℝ)
    (h : M.chooseAction sch s draws st = some (.ok (x, st', rs))) : x ∈ M.getActions s := by
  induction draws generalizing st with
  | nil => simp [chooseAction] at h
  | cons r draws ih =>
    rw [chooseAction] at h
    split at h
    · simp at h
    · split_ifs at h with hc
      · simp only [Option.some.injEq, Except.ok.injEq, Prod.mk.injEq] at h
        rw [← h.1]; exact hc
      · exact ih _ h

theorem runLoop_actions (M : MDP ℝ L n) (sch : Sched ℝ L σ) (steps : ℕ) (draws : List ℝ) (s : Fin n) (st : σ) (w : List L) (st' : σ)
    (h : M.runLoop sch steps draws s st = some (.ok (w, st'))) :
    ∃ ps last, w = alternate ps last ∧ ps.length = steps ∧ ∀ p ∈ ps, p.2 ∈ M.actions := by
  induction steps generalizing draws s st w st' with
  | zero =>
    simp only [runLoop, Option.some.injEq, Except.ok.injEq, Prod.mk.injEq] at h
    exact ⟨[], M.labelling s, h.1.symm, rfl, by simp⟩
  | succ steps ih =>
    rw [runLoop] at h
    split at h
    · cases h
    · cases h
    · cases h
    · rename_i x st1 r rs hc
      have hx := M.chooseAction_possible sch s draws st x st1 _ hc
      split at h
      · cases h
      · split at h
        · cases h
        · split at h
          · cases h
          · cases h
          · rename_i o st2 hst2 _ rest st3 hr
            simp only [Option.some.injEq, Except.ok.injEq, Prod.mk.injEq] at h
            obtain ⟨ps, last, h1, h2, h3⟩ := ih _ _ _ _ _ hr
            rw [← h.1, h1]
            refine ⟨(_, x) :: ps, last, rfl, by simp [h2], ?_⟩
            intro p hp
            rcases List.mem_cons.1 hp with rfl | hp
            · obtain ⟨i, _, hi⟩ := List.mem_map.1 hx
              simp only [← hi]
              exact List.getElem_mem _
            · exact h3 p hp

theorem returns_actions (M : MDP ℝ L n) (sch : Sched ℝ L σ) (steps : ℕ) (st : σ) (w : List L) (d : ℕ → ℝ)
    (h : M.Returns sch steps st w d) : ∃ ps last, w = alternate ps last ∧ ps.length = steps ∧ ∀ p ∈ ps, p.2 ∈ M.actions := by
  obtain ⟨K, st', h⟩ := h
  unfold run at h
  split at h
  · cases h
  · split at h
    · cases h
    · exact M.runLoop_actions sch steps _ _ _ _ _ h

/-- The traces with given observations are those woven with some actions. -/
theorem observed_eq (M : MDP ℝ L n) (sch : Sched ℝ L σ) (os : List L) (last : L) (st : σ) :
    {d | ∃ w, M.Returns sch os.length st w d ∧ mdpObservations w = os ++ [last]}
      = ⋃ xs : Fin os.length → Fin M.actions.length, {d | M.Returns sch os.length st (alternate (M.weave os xs) last) d} := by
  ext d
  simp only [Set.mem_ofPred_eq, Set.mem_iUnion]
  constructor
  · rintro ⟨w, h, ho⟩
    obtain ⟨ps, l, rfl, h2, h3⟩ := M.returns_actions sch _ st w d h
    rw [mdpObservations_alternate] at ho
    obtain ⟨h4, h5⟩ := List.append_inj ho (by simp [h2])
    injection h5 with h5 _
    subst h5
    obtain ⟨xs, rfl⟩ := M.exists_weave ps h3 os h4
    exact ⟨xs, h⟩
  · rintro ⟨xs, h⟩
    exact ⟨_, h, by rw [mdpObservations_alternate, weave_fst]⟩

theorem observed_law {sch : Sched ℝ L σ} {P : Policy σ L} {dom : σ → Prop} (hB : Behaves sch P dom) (M : MDP ℝ L n)
    (hn : M.actions.Nodup) (hS : M.Stochastic) (os : List L) (last : L) (st : σ) :
    drawsLaw {d | ∃ w, M.Returns sch os.length st w d ∧ mdpObservations w = os ++ [last]}
      = ENNReal.ofReal (∑ xs : Fin os.length → Fin M.actions.length,
          totalWeight M.initialState (M.runStep P) (M.mask last) (P.steps P.start (M.weave os xs))) := by
  obtain ⟨hi0, hi, h0, hs⟩ := hS
  have hs' : ∀ s i, ∑ s', M.matrix s i s' ≤ 1 := fun s i => by rcases hs s i with h | h <;> rw [h]; exact zero_le_one
  rw [M.observed_eq, measure_iUnion]
  · rw [tsum_fintype, ENNReal.ofReal_sum_of_nonneg]
    · refine Finset.sum_congr rfl (fun xs _ => ?_)
      have := M.returns_law hn h0 hs' hi0 hi.le hB (M.weave os xs) last st
      rw [weave_length] at this
      exact this
    · intro xs _
      rw [totalWeight_eq]
      exact Finset.sum_nonneg (fun i _ => mul_nonneg (hi0 _) (M.beta0_run_nonneg h0 hB _ last i _ hB.start))
  · intro xs ys hne
    refine Set.disjoint_left.2 (fun d h1 h2 => hne ?_)
    exact M.weave_injective hn os xs ys (alternate_injective _ _ last (M.returns_unique os.length st _ _ d h1 h2))
  · intro xs
    rw [M.returns_eq hB]
    exact measurable_bind _ _ (fun i => M.measurable_fullSet hn h0 hB _ i _ hB.start _)

theorem under_matrix (M : MDP ℝ L n) (P : Policy σ L) (mem : Fin N → σ) (s s' : Fin n) (m m' : Fin N) [Decidable (mem m' = P.update (mem m) (M.labelling s))] :
    (M.under P mem).matrix (finProdFinEquiv (s, m)) (finProdFinEquiv (s', m')) =
      if mem m' = P.update (mem m) (M.labelling s) then ∑ k : Fin M.actions.length, M.choiceProb P s (mem m) M.actions[k] * M.matrix s k s'
      else 0 := by
  simp only [under, Equiv.symm_apply_apply]

theorem under_label (M : MDP ℝ L n) (P : Policy σ L) (mem : Fin N → σ) (s : Fin n) (m : Fin N) :
    (M.under P mem).labelling (finProdFinEquiv (s, m)) = M.labelling s := by
  simp only [under, Equiv.symm_apply_apply]

theorem sum_pairs (f : Fin (n * N) → ℝ) : ∑ x, f x = ∑ s : Fin n, ∑ m : Fin N, f (finProdFinEquiv (s, m)) := by
  rw [← Fintype.sum_prod_type', ← Equiv.sum_comp finProdFinEquiv]

/-- A move of the chain, against a function of the next pair. -/
theorem under_move (M : MDP ℝ L n) (P : Policy σ L) (mem : Fin N → σ) (hmem : Function.Injective mem) (s : Fin n) (m m2 : Fin N)
    (hm2 : mem m2 = P.update (mem m) (M.labelling s)) (f : Fin (n * N) → ℝ) :
    ∑ y, (M.under P mem).matrix (finProdFinEquiv (s, m)) y * f y
      = ∑ s', (∑ k : Fin M.actions.length, M.choiceProb P s (mem m) M.actions[k] * M.matrix s k s') * f (finProdFinEquiv (s', m2)) := by
  classical
  rw [sum_pairs]
  refine Finset.sum_congr rfl (fun s' _ => ?_)
  rw [Finset.sum_eq_single m2]
  · rw [M.under_matrix, if_pos hm2]
  · intro m' _ hne
    rw [M.under_matrix, if_neg, zero_mul]
    intro h
    exact hne (hmem (h.trans hm2.symm))
  · intro h; exact absurd (Finset.mem_univ _) h

theorem woven_eq_sufProb (M : MDP ℝ L n) (hn : M.actions.Nodup) (P : Policy σ L) (mem : Fin N → σ) (hmem : Function.Injective mem)
    (hup : ∀ m o, ∃ m', mem m' = P.update (mem m) o) (os : List L) (last : L) (s : Fin n) (m : Fin N) :
    ∑ xs : Fin os.length → Fin M.actions.length, beta0 (M.runStep P) (M.mask last) (P.steps (mem m) (M.weave os xs)) s
      = sufProb (M.under P mem).matrix (fun x o => if (M.under P mem).labelling x = o then 1 else 0) (finProdFinEquiv (s, m))
          (os ++ [last]) := by
  induction os generalizing s m with
  | nil =>
    simp only [List.nil_append, sufProb, under_label]
    simp only [List.length_nil]
    rw [Fintype.sum_unique]
    simp [weave, Policy.steps, mask]
  | cons o os ih =>
    have hc : ∃ o' os', os ++ [last] = o' :: os' := by
      cases os with
      | nil => exact ⟨_, _, rfl⟩
      | cons a os => exact ⟨_, _, rfl⟩
    obtain ⟨o', os', hc⟩ := hc
    rw [List.cons_append, hc]
    simp only [sufProb, under_label, List.length_cons]
    rw [sum_fin_succ_fun]
    by_cases hl : M.labelling s = o
    · rw [if_pos hl, one_mul]
      obtain ⟨m2, hm2⟩ := hup m (M.labelling s)
      rw [M.under_move P mem hmem s m m2 hm2]
      simp only [← hc, ← ih, M.weave_cons, Policy.steps, beta0_cons, bwd, runStep]
      simp only [hl, if_true, one_mul]
      rw [← hl, ← hm2]
      simp only [Finset.mul_sum, Finset.sum_mul]
      rw [Finset.sum_congr rfl (fun xs _ => Finset.sum_comm)]
      rw [Finset.sum_comm]
      refine Finset.sum_congr rfl (fun s' _ => ?_)
      refine Finset.sum_congr rfl (fun xs _ => ?_)
      refine Finset.sum_congr rfl (fun k _ => ?_)
      have : M.prob s M.actions[k] s' = M.matrix s k s' := M.prob_getElem hn s k s'
      rw [this]
      ring
    · rw [if_neg hl, zero_mul]
      refine Finset.sum_eq_zero (fun xs _ => Finset.sum_eq_zero (fun k _ => ?_))
      simp only [M.weave_cons, Policy.steps, beta0_cons, bwd, runStep, hl, if_false, zero_mul, mul_zero, Finset.sum_const_zero]

theorem under_init (M : MDP ℝ L n) (P : Policy σ L) (mem : Fin N → σ) (hmem : Function.Injective mem) (m0 : Fin N) (hm0 : mem m0 = P.start)
    (f : Fin (n * N) → ℝ) :
    ∑ x, (M.under P mem).initialState x * f x = ∑ s, M.initialState s * f (finProdFinEquiv (s, m0)) := by
  classical
  rw [sum_pairs]
  refine Finset.sum_congr rfl (fun s _ => ?_)
  rw [Finset.sum_eq_single m0]
  · simp only [under, Equiv.symm_apply_apply, hm0, if_true]
  · intro m _ hne
    simp only [under, Equiv.symm_apply_apply]
    rw [if_neg, zero_mul]
    intro h
    exact hne (hmem (h.trans hm0.symm))
  · intro h; exact absurd (Finset.mem_univ _) h

theorem observed_listProb {sch : Sched ℝ L σ} {P : Policy σ L} {dom : σ → Prop} (hB : Behaves sch P dom) (M : MDP ℝ L n)
    (hn : M.actions.Nodup) (hS : M.Stochastic) (mem : Fin N → σ) (hmem : Function.Injective mem)
    (hdom : ∀ m, dom m ↔ ∃ i, mem i = m) (os : List L) (last : L) (st : σ) :
    drawsLaw {d | ∃ w, M.Returns sch os.length st w d ∧ mdpObservations w = os ++ [last]}
      = ENNReal.ofReal (listProb (M.under P mem).initialState (M.under P mem).matrix
          (fun x o => if (M.under P mem).labelling x = o then 1 else 0) (os ++ [last])) := by
  rw [M.observed_law hB hn hS]
  congr 1
  have hc : ∃ o' os', os ++ [last] = o' :: os' := by
    cases os with
    | nil => exact ⟨_, _, rfl⟩
    | cons a os => exact ⟨_, _, rfl⟩
  obtain ⟨o', os', hc⟩ := hc
  obtain ⟨m0, hm0⟩ := (hdom _).1 hB.start
  rw [hc, listProb_eq_sufProb, M.under_init P mem hmem m0 hm0, ← hc]
  simp only [totalWeight_eq]
  rw [Finset.sum_comm]
  refine Finset.sum_congr rfl (fun s _ => ?_)
  rw [← Finset.mul_sum, ← M.woven_eq_sufProb hn P mem hmem _ os last s m0, hm0]
  intro m o
  exact (hdom _).1 (hB.obs _ ((hdom _).2 ⟨m, rfl⟩) o).2

/-- The chain is a chain: its rows are distributions. -/
theorem under_stochastic {sch : Sched ℝ L σ} {P : Policy σ L} {dom : σ → Prop} (hB : Behaves sch P dom) (M : MDP ℝ L n)
    (hn : M.actions.Nodup) (hS : M.Stochastic) (mem : Fin N → σ) (hmem : Function.Injective mem)
    (hdom : ∀ m, dom m ↔ ∃ i, mem i = m) (hq : ∀ s st, dom st → 0 < M.acceptProb P s st) :
    (∀ x, 0 ≤ (M.under P mem).initialState x) ∧ ∑ x, (M.under P mem).initialState x = 1 ∧
      (∀ x y, 0 ≤ (M.under P mem).matrix x y) ∧ ∀ x, ∑ y, (M.under P mem).matrix x y = 1 := by
  classical
  obtain ⟨hi0, hi, h0, hs⟩ := hS
  have hd : ∀ m, dom (mem m) := fun m => (hdom _).2 ⟨m, rfl⟩
  refine ⟨fun x => ?_, ?_, fun x y => ?_, fun x => ?_⟩
  · simp only [under]
    split_ifs
    · exact hi0 _
    · exact le_rfl
  · obtain ⟨m0, hm0⟩ := (hdom _).1 hB.start
    have := M.under_init P mem hmem m0 hm0 (fun _ => 1)
    simp only [mul_one] at this
    rw [this, hi]
  · obtain ⟨⟨s, m⟩, rfl⟩ := finProdFinEquiv.surjective x
    obtain ⟨⟨s', m'⟩, rfl⟩ := finProdFinEquiv.surjective y
    rw [M.under_matrix]
    split_ifs
    · exact Finset.sum_nonneg (fun k _ => mul_nonneg (M.choiceProb_nonneg hB s _ (hd m) _) (h0 _ _ _))
    · exact le_rfl
  · obtain ⟨⟨s, m⟩, rfl⟩ := finProdFinEquiv.surjective x
    obtain ⟨m2, hm2⟩ := (hdom _).1 (hB.obs _ (hd m) (M.labelling s)).2
    have := M.under_move P mem hmem s m m2 hm2 (fun _ => 1)
    simp only [mul_one] at this
    rw [this, Finset.sum_comm]
    simp only [← Finset.mul_sum]
    have hrow : ∀ k : Fin M.actions.length, M.choiceProb P s (mem m) M.actions[k] * ∑ s', M.matrix s k s'
        = M.choiceProb P s (mem m) M.actions[k] := by
      intro k
      rcases hs s k with h | h
      · rw [h, mul_one]
      · have hna : ¬ M.Allowed s M.actions[k] := by
          rintro ⟨s', hs'⟩
          rw [show M.prob s M.actions[k] s' = M.matrix s k s' from M.prob_getElem hn s k s'] at hs'
          have := Finset.single_le_sum (f := fun s' => M.matrix s k s') (fun i _ => h0 s k i) (Finset.mem_univ s')
          simp only [h] at this
          linarith
        simp only [choiceProb, if_neg hna, zero_mul]
    rw [Finset.sum_congr rfl (fun k _ => hrow k)]
    have hsum : ∑ k : Fin M.actions.length, M.choiceProb P s (mem m) M.actions[k] = ∑ x ∈ M.actions.toFinset, M.choiceProb P s (mem m) x := by
      rw [List.sum_toFinset _ hn, ← List.sum_ofFn]
      congr 1
      apply List.ext_getElem
      · simp
      · intro i h1 h2; simp
    rw [hsum]
    simp only [choiceProb]
    rw [← Finset.sum_filter, ← Finset.sum_div]
    have hpos := hq s _ (hd m)
    have e : ∑ x ∈ M.actions.toFinset with M.Allowed s x, P.propose (mem m) x = M.acceptProb P s (mem m) := by
      unfold acceptProb
      congr 1
    rw [e, div_self hpos.ne']

end MDP
end Jajapy
