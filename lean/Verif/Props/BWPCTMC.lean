import Verif.Lemmas.PStep

/-!
Property theorems for the estimation of the parameters of a PCTMC (C72-C75).
-/

set_option linter.unusedSectionVars false

namespace Jajapy

open Spec BW Finset

namespace PCTMC

/-! ### C73: what the estimation may change -/

theorem sortParameters_mem {K : Type} [Field K] [LinearOrder K] (M : PCTMC K) (fixed : List String) (C : Cats K)
    (h : M.sortParameters fixed = .ok C) (p : String) (hp : p ∈ C.cat1 ∨ p ∈ C.cat2 ∨ p ∈ C.cat3) : p ∈ M.names ∧ p ∉ fixed := by
  unfold sortParameters at h
  simp only at h
  obtain ⟨_, _, h⟩ := (Except.bind_eq_ok _ _ _).1 h
  obtain ⟨cats, _, h⟩ := (Except.bind_eq_ok _ _ _).1 h
  obtain ⟨coeff, _, h⟩ := (Except.bind_eq_ok _ _ _).1 h
  simp only [pure, Except.pure, Except.ok.injEq] at h
  have key : ∀ k, p ∈ (((M.names.filter (fun p => decide (p ∉ fixed))).zip cats).filter (fun x => decide (x.2 = k))).map (·.1) →
      p ∈ M.names ∧ p ∉ fixed := by
    intro k hk
    obtain ⟨x, hx, rfl⟩ := List.mem_map.1 hk
    have := (List.of_mem_zip (List.mem_filter.1 hx).1).1
    simpa using List.mem_filter.1 this
  subst h
  rcases hp with hp | hp | hp
  · exact key 1 hp
  · exact key 2 hp
  · exact key 3 hp

theorem update_frame (M : PCTMC ℝ) (hM : M.WF) (C : Cats ℝ) (temp : List Work) (M' : PCTMC ℝ) (ll : ℝ)
    (hu : M.update C temp = .ok (M', ll)) :
    M' = { M with values := M'.values } ∧
    ∀ p, ¬ (p ∈ C.cat1 ∨ p ∈ C.cat2 ∨ p ∈ C.cat3) → M'.values.lookup p = M.values.lookup p := by
  unfold update at hu
  simp only at hu
  obtain ⟨v2, hv2, hu⟩ := (Except.bind_eq_ok _ _ _).1 hu
  obtain ⟨v3, hv3, hu⟩ := (Except.bind_eq_ok _ _ _).1 hu
  obtain ⟨⟨b, M1⟩, hi, hu⟩ := (Except.bind_eq_ok _ _ _).1 hu
  simp only [pure, Except.pure, Except.ok.injEq, Prod.mk.injEq] at hu
  obtain ⟨rfl, _⟩ := hu
  generalize (List.map (fun p => M.value1 (temp.map (fun w => w.den1 p)).sum (temp.map (fun w => w.num1 p)).sum p) C.cat1) = v1 at hi
  by_cases hr : M.RatesOK M.values
  · obtain ⟨M2, h1, h2, h3⟩ := (M.instantiate_spec hM (C.cat1 ++ C.cat2 ++ C.cat3) (v1 ++ v2 ++ v3)).1 hr
    rw [h1] at hi
    simp only [Except.ok.injEq, Prod.mk.injEq] at hi
    obtain ⟨_, rfl⟩ := hi
    refine ⟨h2, fun p hp => ?_⟩
    rw [h3, assign_not_mem]
    intro hm
    obtain ⟨x, hx, rfl⟩ := List.mem_map.1 hm
    have := (List.of_mem_zip hx).1
    simp only [List.mem_append] at this
    tauto
  · have h1 := (M.instantiate_spec hM (C.cat1 ++ C.cat2 ++ C.cat3) (v1 ++ v2 ++ v3)).2 hr
    rw [h1] at hi
    simp only [Except.ok.injEq, Prod.mk.injEq] at hi
    obtain ⟨_, rfl⟩ := hi
    exact ⟨rfl, fun _ _ => rfl⟩

theorem estimateStep_frame (processes : ℕ) (M : PCTMC ℝ) (hM : M.WF) (C : Cats ℝ) (S : Traces) (M' : PCTMC ℝ) (ll : ℝ)
    (hu : estimateStep processes C S M = .ok (M', ll)) :
    M' = { M with values := M'.values } ∧
    ∀ p, ¬ (p ∈ C.cat1 ∨ p ∈ C.cat2 ∨ p ∈ C.cat3) → M'.values.lookup p = M.values.lookup p := by
  unfold estimateStep at hu
  obtain ⟨H, _, hu⟩ := (Except.bind_eq_ok _ _ _).1 hu
  obtain ⟨res, _, hu⟩ := (Except.bind_eq_ok _ _ _).1 hu
  obtain ⟨ts, _, hu⟩ := (Except.bind_eq_ok _ _ _).1 hu
  exact M.update_frame hM C _ M' ll hu

/-- C73: whatever the traces and the budget, the estimation changes nothing but the values of the requested parameters: the
states, labels, initial distribution, rate expressions and the values of the other parameters are those of the model it
started from; and the returned dictionary gives to each requested parameter its value in the returned model. -/
theorem estimate_frame (processes : ℕ) (S : Traces) (M : PCTMC ℝ) (hM : M.WF) (toUpdate : List String) (epsilon : ℝ) (maxIt : ℕ)
    (d : List (String × Option ℝ)) (M' : PCTMC ℝ) (h : M.estimate processes S toUpdate epsilon maxIt = .ok (d, M')) :
    M' = { M with values := M'.values } ∧ (∀ p, p ∉ toUpdate → M'.values.lookup p = M.values.lookup p) ∧
    d = toUpdate.map (fun p => (p, M'.values.lookup p)) := by
  unfold estimate at h
  obtain ⟨C, hC, h⟩ := (Except.bind_eq_ok _ _ _).1 h
  obtain ⟨st, hst, h⟩ := (Except.bind_eq_ok _ _ _).1 h
  simp only [pure, Except.pure, Except.ok.injEq, Prod.mk.injEq] at h
  obtain ⟨h1, rfl⟩ := h
  have hout : ∀ p, p ∉ toUpdate → ¬ (p ∈ C.cat1 ∨ p ∈ C.cat2 ∨ p ∈ C.cat3) := by
    intro p hp hc
    have := M.sortParameters_mem _ C hC p hc
    exact this.2 (List.mem_filter.2 ⟨this.1, by simpa using hp⟩)
  have h0 : M = { M with values := M.values } ∧ ∀ p, p ∉ toUpdate → M.values.lookup p = M.values.lookup p := ⟨rfl, fun _ _ => rfl⟩
  have := loop_invariant _ _ (fun N : PCTMC ℝ => N = { M with values := N.values } ∧
    ∀ p, p ∉ toUpdate → N.values.lookup p = M.values.lookup p) ?_ _ _ _ h0 hst
  · exact ⟨this.1, this.2, h1.symm⟩
  · rintro M1 M2 ll ⟨i1, i2⟩ hs
    have hwf : M1.WF := by rw [i1]; exact ⟨hM.square, hM.labels, hM.init, hM.bound, hM.declared⟩
    obtain ⟨f1, f2⟩ := M1.estimateStep_frame processes hwf C S M2 ll hs
    refine ⟨?_, fun p hp => by rw [f2 p (hout p hp), i2 p hp]⟩
    rw [i1] at f1
    exact f1

/-! ### C72: the likelihood -/

/-- C72, timed traces, one iteration: the log-density of the training set does not decrease, no trace becomes possible or
impossible, and the monitored value is the log-density of the set under the model at the beginning of the iteration. -/
theorem estimate_step_monotone (processes : ℕ) (M : PCTMC ℝ) (fixed : List String) (h : M.Estimable fixed) (C : Cats ℝ)
    (hC : M.sortParameters fixed = .ok C) (S : TSet (Sym String)) (hS : CTMC.TimedSet S) (hw : WaitsNonneg S)
    (hlen : S.times.length = S.sequences.length) (ht : ∀ t ∈ S.times, 1 ≤ t)
    (M' : PCTMC ℝ) (ll : ℝ) (hu : estimateStep processes C (.timed S) M = .ok (M', ll)) :
    avgLogLik M.density S ≤ avgLogLik M'.density S ∧ (∀ w ∈ S.sequences, M.density w ≠ 0 ↔ M'.density w ≠ 0) ∧
    ll = S.times.sum * avgLogLik M.density S :=
  (step_timed processes h (sortParameters_spec h C hC) S hS hw hlen ht M' ll hu).2

/-- C72, timed traces: whatever the budget, the log-density of the training set under the returned model is at least the one
under the initial model; the returned model is again one that the theorems cover (its rates and its estimated parameters are
not negative). -/
theorem estimate_monotone_partial (processes : ℕ) (S : TSet (Sym String)) (M : PCTMC ℝ) (toUpdate : List String)
    (h : M.Estimable (M.names.filter (fun p => p ∉ toUpdate))) (epsilon : ℝ) (maxIt : ℕ)
    (hS : CTMC.TimedSet S) (hw : WaitsNonneg S) (hlen : S.times.length = S.sequences.length) (ht : ∀ t ∈ S.times, 1 ≤ t)
    (d : List (String × Option ℝ)) (M' : PCTMC ℝ) (he : M.estimate processes (.timed S) toUpdate epsilon maxIt = .ok (d, M')) :
    avgLogLik M.density S ≤ avgLogLik M'.density S ∧ M'.Estimable (M.names.filter (fun p => p ∉ toUpdate)) := by
  unfold estimate at he
  obtain ⟨C, hC, he⟩ := (Except.bind_eq_ok _ _ _).1 he
  obtain ⟨st, hst, he⟩ := (Except.bind_eq_ok _ _ _).1 he
  simp only [pure, Except.pure, Except.ok.injEq, Prod.mk.injEq] at he
  obtain ⟨_, rfl⟩ := he
  set fixed := M.names.filter (fun p => decide (p ∉ toUpdate)) with hfixed
  have hsort := sortParameters_spec h C hC
  have h0 : (M.Estimable fixed ∧ Sorted M fixed C) ∧ avgLogLik M.density S ≤ avgLogLik M.density S := ⟨⟨h, hsort⟩, le_rfl⟩
  have := loop_invariant _ _ (fun N : PCTMC ℝ => (N.Estimable fixed ∧ Sorted N fixed C) ∧
    avgLogLik M.density S ≤ avgLogLik N.density S) ?_ _ _ _ h0 hst
  · exact ⟨this.2, this.1.1⟩
  · rintro M1 M2 ll ⟨⟨i1, i2⟩, i3⟩ hs
    obtain ⟨⟨v, u, rfl, hsc⟩, hm, _⟩ := step_timed processes i1 i2 S hS hw hlen ht M2 ll hs
    exact ⟨⟨hsc.estimable i1, hsc.sorted i1 i2⟩, le_trans i3 hm⟩

theorem exitRate_eq (M : PCTMC ℝ) (s : Fin M.nb) : M.exitRate s = ∑ j, M.here.matrix s j := by
  unfold exitRate
  rw [← List.sum_toFinset _ List.nodup_range, List.toFinset_range, ← Fin.sum_univ_eq_sum_range
    (fun j => (M.rateExpr s j).den (fun p => (M.values.lookup p).getD 0))]
  rfl

theorem init_sum {M : PCTMC ℝ} (hM : M.WF) (hi : M.initialState.sum = 1) : ∑ s, M.here.initialState s = 1 := by
  rw [← hi]
  have e : ∀ s : Fin M.nb, M.here.initialState s = M.initialState.getD s 0 := fun _ => rfl
  simp only [e]
  have hl : M.nb = M.initialState.length := hM.init.symm
  rw [Fin.sum_univ_eq_sum_range (fun s => M.initialState.getD s 0) M.nb, hl, Finset.sum_range]
  rw [← List.sum_ofFn]
  congr 1
  apply List.ext_getElem
  · simp
  · intro k h1 h2
    simp

/-- C72, untimed traces, one iteration: if no exit rate is 0 before and after the iteration, the log-likelihood of the training
set does not decrease, no trace becomes possible or impossible, and the monitored value is the log-likelihood of the set under
the model at the beginning of the iteration. -/
theorem estimate_untimed_step_monotone (processes : ℕ) (M : PCTMC ℝ) (fixed : List String) (h : M.Estimable fixed) (C : Cats ℝ)
    (hC : M.sortParameters fixed = .ok C) (S : TSet String) (hi : M.initialState.sum = 1)
    (hS : ∀ w ∈ S.sequences, 2 ≤ w.length) (hlen : S.times.length = S.sequences.length) (ht : ∀ t ∈ S.times, 1 ≤ t)
    (he : ∀ s < M.matrix.length, M.exitRate s ≠ 0)
    (M' : PCTMC ℝ) (ll : ℝ) (hu : estimateStep processes C (.untimed S) M = .ok (M', ll))
    (he' : ∀ s < M'.matrix.length, M'.exitRate s ≠ 0) :
    avgLogLik M.lik S ≤ avgLogLik M'.lik S ∧ (∀ w ∈ S.sequences, M.lik w ≠ 0 ↔ M'.lik w ≠ 0) ∧
    ll = S.times.sum * avgLogLik M.lik S := by
  have hi' := init_sum h.wf hi
  obtain ⟨v, u, rfl, hsc, hll, hm⟩ := step_untimed processes h (sortParameters_spec h C hC) S hi' hS hlen ht
    (fun s => by rw [← exitRate_eq]; exact he s s.2) M' ll hu
  obtain ⟨m1, m2⟩ := hm (fun s => by
    have := he' s s.2
    rwa [exitRate_eq ({ M with values := v } : PCTMC ℝ) s] at this)
  exact ⟨m1, m2, hll⟩

/-- C72, untimed traces: whatever the budget, if every state has a transition of positive rate that does not depend on the
requested parameters, the log-likelihood of the training set under the returned model is at least the one under the initial
model. -/
theorem estimate_untimed_monotone_partial (processes : ℕ) (S : TSet String) (M : PCTMC ℝ) (toUpdate : List String)
    (h : M.Estimable (M.names.filter (fun p => p ∉ toUpdate))) (epsilon : ℝ) (maxIt : ℕ) (hi : M.initialState.sum = 1)
    (hS : ∀ w ∈ S.sequences, 2 ≤ w.length) (hlen : S.times.length = S.sequences.length) (ht : ∀ t ∈ S.times, 1 ≤ t)
    (hconst : ∀ s < M.matrix.length, ∃ j < M.matrix.length, 0 < (M.rateExpr s j).den (fun p => (M.values.lookup p).getD 0) ∧
      ∀ p ∈ toUpdate, ¬ (M.rateExpr s j).Occurs p)
    (d : List (String × Option ℝ)) (M' : PCTMC ℝ) (he : M.estimate processes (.untimed S) toUpdate epsilon maxIt = .ok (d, M')) :
    avgLogLik M.lik S ≤ avgLogLik M'.lik S ∧ M'.Estimable (M.names.filter (fun p => p ∉ toUpdate)) := by
  unfold estimate at he
  obtain ⟨C, hC, he⟩ := (Except.bind_eq_ok _ _ _).1 he
  obtain ⟨st, hst, he⟩ := (Except.bind_eq_ok _ _ _).1 he
  simp only [pure, Except.pure, Except.ok.injEq, Prod.mk.injEq] at he
  obtain ⟨_, rfl⟩ := he
  set fixed := M.names.filter (fun p => decide (p ∉ toUpdate)) with hfixed
  have hsort := sortParameters_spec h C hC
  have hest : ∀ N : PCTMC ℝ, N = { M with values := N.values } → ∀ p ∈ N.estimated fixed, p ∈ toUpdate := by
    intro N hN p hp
    rw [mem_estimated] at hp
    by_contra hn
    refine hp.2 (List.mem_filter.2 ⟨?_, by simpa using hn⟩)
    have := hp.1
    rw [hN] at this
    exact this
  have hexit : ∀ N : PCTMC ℝ, N.Estimable fixed → (∀ s < N.matrix.length, ∃ j < N.matrix.length,
      0 < (N.rateExpr s j).den (fun p => (N.values.lookup p).getD 0) ∧ ∀ p ∈ toUpdate, ¬ (N.rateExpr s j).Occurs p) →
      ∀ s, ∑ j, N.here.matrix s j ≠ 0 := by
    intro N hN hc s
    obtain ⟨j, hj, hpos, _⟩ := hc s s.2
    have : N.here.matrix s ⟨j, hj⟩ ≤ ∑ j, N.here.matrix s j :=
      Finset.single_le_sum (f := fun j => N.here.matrix s j) (fun j _ => hN.here_valid.2 s j) (Finset.mem_univ _)
    have h2 : 0 < N.here.matrix s ⟨j, hj⟩ := hpos
    exact (lt_of_lt_of_le h2 this).ne'
  let Inv : PCTMC ℝ → Prop := fun N => N = { M with values := N.values } ∧ N.Estimable fixed ∧ Sorted N fixed C ∧
    (∀ s < N.matrix.length, ∃ j < N.matrix.length,
      0 < (N.rateExpr s j).den (fun p => (N.values.lookup p).getD 0) ∧ ∀ p ∈ toUpdate, ¬ (N.rateExpr s j).Occurs p) ∧
    avgLogLik M.lik S ≤ avgLogLik N.lik S
  have h0 : Inv M := ⟨rfl, h, hsort, hconst, le_rfl⟩
  have := loop_invariant _ _ Inv ?_ _ _ _ h0 hst
  · exact ⟨this.2.2.2.2, this.2.1⟩
  · rintro M1 M2 ll ⟨i0, i1, i2, i3, i4⟩ hs
    have hi1 : M1.initialState.sum = 1 := by rw [i0]; exact hi
    obtain ⟨v, u, rfl, hsc, _, hm⟩ := step_untimed processes i1 i2 S (init_sum i1.wf hi1) hS hlen ht (hexit M1 i1 i3) M2 ll hs
    have hc' : ∀ s < M1.matrix.length, ∃ j < M1.matrix.length,
        0 < (M1.rateExpr s j).den (valOf v) ∧ ∀ p ∈ toUpdate, ¬ (M1.rateExpr s j).Occurs p := by
      intro s hs'
      obtain ⟨j, hj, hpos, ho⟩ := i3 s hs'
      refine ⟨j, hj, ?_, ho⟩
      rw [Expr.den_congr _ (valOf v) (valOf M1.values)]
      · exact hpos
      · intro p hp
        exact hsc.valOf.2 p (fun hpe => ho p (hest M1 i0 p hpe) hp)
    refine ⟨?_, hsc.estimable i1, hsc.sorted i1 i2, hc', le_trans i4 (hm (hexit _ (hsc.estimable i1) hc')).1⟩
    rw [i0]

/-! ### When the estimation succeeds -/

theorem value2_total {M : PCTMC ℝ} {fixed : List String} (h : M.Estimable fixed) {C : Cats ℝ} (hC : Sorted M fixed C)
    {p : String} (hp : p ∈ C.cat2) (den num : ℝ) : ∃ x, M.value2 C den num p = .ok x := by
  unfold value2
  split_ifs with hd
  · exact ⟨_, rfl⟩
  · dsimp only
    rw [if_neg]
    · exact ⟨_, rfl⟩
    · have hI := hC.mem2 p hp
      obtain ⟨q, l, hql⟩ := List.exists_cons_of_ne_nil (hC.nonempty p hI)
      have hqm : q ∈ M.indexesOf p := by rw [hql]; exact List.mem_cons_self
      have hq := (h.mem_indexes hI q.1 q.2).1 hqm
      have hhd : (M.indexesOf p).headD (0, 0) = q := by rw [hql]; rfl
      rw [hhd, hC.total q.1 q.2 hq.1 hq.2.1]
      have hd := Expr.degree_pos (h.mono hq.1 hq.2.1) p hI hq.2.2
      unfold totalDegree
      have := Finset.single_le_sum (f := fun p => (M.rateExpr q.1 q.2).degree p) (fun _ _ => Nat.zero_le _) hI
      omega

theorem mapM_total {α β : Type} (f : α → Py β) (l : List α) (h : ∀ x ∈ l, ∃ y, f x = .ok y) : ∃ r, l.mapM f = .ok r := by
  induction l with
  | nil => exact ⟨[], rfl⟩
  | cons a l ih =>
    obtain ⟨y, hy⟩ := h a List.mem_cons_self
    obtain ⟨r, hr⟩ := ih (fun x hx => h x (List.mem_cons_of_mem _ hx))
    refine ⟨y :: r, ?_⟩
    rw [List.mapM_cons, hy, hr]
    rfl

theorem update_total {M : PCTMC ℝ} {fixed : List String} (h : M.Estimable fixed) {C : Cats ℝ} (hC : Sorted M fixed C)
    (h3 : C.cat3 = []) (temp : List Work) : ∃ r, M.update C temp = .ok r := by
  unfold update
  obtain ⟨v2, hv2⟩ := mapM_total (fun p => M.value2 C (temp.map (fun w => w.den2 p)).sum (temp.map (fun w => w.num2 p)).sum p) C.cat2
    (fun p hp => value2_total h hC hp _ _)
  simp only
  rw [hv2, h3]
  simp only [List.mapM_nil, pure, Except.pure, bind, Except.bind]
  obtain ⟨M2, h1, _⟩ := (M.instantiate_spec h.wf (C.cat1 ++ C.cat2 ++ []) (C.cat1.map (fun p => M.value1 (temp.map (fun w => w.den1 p)).sum
    (temp.map (fun w => w.num1 p)).sum p) ++ v2 ++ [])).1 h.ratesOK
  rw [h1]
  exact ⟨_, rfl⟩

/-- C72: with timed traces and at least two processes, if the total degrees of the rates of each estimated parameter agree
(no parameter is of the third category), the estimation succeeds whatever the budget, as soon as one trace is possible. -/
theorem estimate_total (processes : ℕ) (hp : 1 < processes) (S : TSet (Sym String)) (M : PCTMC ℝ) (toUpdate : List String)
    (h : M.Estimable (M.names.filter (fun p => p ∉ toUpdate))) (epsilon : ℝ) (maxIt : ℕ)
    (C : Cats ℝ) (hC : M.sortParameters (M.names.filter (fun p => p ∉ toUpdate)) = .ok C) (h3 : C.cat3 = [])
    (hS : CTMC.TimedSet S) (hw : WaitsNonneg S) (hlen : S.times.length = S.sequences.length) (ht : ∀ t ∈ S.times, 1 ≤ t)
    (w : List (Sym String)) (hws : w ∈ S.sequences) (hl : M.density w ≠ 0) :
    ∃ d M', M.estimate processes (.timed S) toUpdate epsilon maxIt = .ok (d, M') := by
  unfold estimate
  rw [hC]
  have hsort := sortParameters_spec h C hC
  generalize M.names.filter (fun p => decide (p ∉ toUpdate)) = fixed at h hsort
  have key : ∃ st, BW.fit (estimateStep processes C (.timed S)) epsilon maxIt M = .ok st := by
    unfold BW.fit
    clear hC
    generalize (0:ℕ) = c
    generalize (none : Option ℝ) = l
    induction maxIt generalizing M c l with
    | zero => exact ⟨_, rfl⟩
    | succ fuel ih =>
      have hstep : ∃ r, estimateStep processes C (.timed S) M = .ok r := by
        unfold estimateStep
        rw [h.hypothesis_eq]
        simp only [bind, Except.bind]
        rw [tables_timed M.here S hS]
        simp only
        obtain ⟨t, htm⟩ := mem_zip_of_mem S hlen w hws
        rw [collect_many _ _ hp]
        · exact update_total h hsort h3 _
        · rw [filterMap_ite]
          intro h0
          have : (w, t) ∈ (S.sequences.zip S.times).filter (fun x => decide ¬ M.here.density x.1 = 0) :=
            List.mem_filter.2 ⟨htm, by have hl' : M.here.density w ≠ 0 := hl; simpa using hl'⟩
          rw [List.map_eq_nil_iff] at h0
          rw [h0] at this
          exact absurd this List.not_mem_nil
      obtain ⟨⟨M', ll⟩, hr⟩ := hstep
      rw [loop_succ _ _ _ _ M' ll hr]
      obtain ⟨⟨v, u, rfl, hsc⟩, _, hiff, _⟩ := step_timed processes h hsort S hS hw hlen ht M' ll hr
      split_ifs
      · exact ⟨_, rfl⟩
      · exact ih _ ((hiff w hws).mp hl) (hsc.estimable h) (hsc.sorted h hsort) _ _
  obtain ⟨st, hst⟩ := key
  simp only [bind, Except.bind]
  rw [hst]
  exact ⟨_, _, rfl⟩

/-- The estimation on untimed traces ends with a result, under the same conditions. -/
theorem estimate_untimed_total (processes : ℕ) (hp : 1 < processes) (S : TSet String) (M : PCTMC ℝ) (toUpdate : List String)
    (h : M.Estimable (M.names.filter (fun p => p ∉ toUpdate))) (epsilon : ℝ) (maxIt : ℕ) (hi : M.initialState.sum = 1)
    (C : Cats ℝ) (hC : M.sortParameters (M.names.filter (fun p => p ∉ toUpdate)) = .ok C) (h3 : C.cat3 = [])
    (hS : ∀ w ∈ S.sequences, 2 ≤ w.length) (hlen : S.times.length = S.sequences.length) (ht : ∀ t ∈ S.times, 1 ≤ t)
    (hconst : ∀ s < M.matrix.length, ∃ j < M.matrix.length, 0 < (M.rateExpr s j).den (fun p => (M.values.lookup p).getD 0) ∧
      ∀ p ∈ toUpdate, ¬ (M.rateExpr s j).Occurs p)
    (w : List String) (hws : w ∈ S.sequences) (hl : M.lik w ≠ 0) :
    ∃ d M', M.estimate processes (.untimed S) toUpdate epsilon maxIt = .ok (d, M') := by
  unfold estimate
  rw [hC]
  have hsort := sortParameters_spec h C hC
  have hest : ∀ p ∈ M.estimated (M.names.filter (fun p => decide (p ∉ toUpdate))), p ∈ toUpdate := by
    intro p hp
    rw [mem_estimated] at hp
    by_contra hn
    exact hp.2 (List.mem_filter.2 ⟨hp.1, by simpa using hn⟩)
  generalize M.names.filter (fun p => decide (p ∉ toUpdate)) = fixed at h hsort hest
  have key : ∃ st, BW.fit (estimateStep processes C (.untimed S)) epsilon maxIt M = .ok st := by
    unfold BW.fit
    clear hC
    generalize (0:ℕ) = c
    generalize (none : Option ℝ) = l
    induction maxIt generalizing M c l with
    | zero => exact ⟨_, rfl⟩
    | succ fuel ih =>
      have hexit : ∀ s, ∑ j, M.here.matrix s j ≠ 0 := by
        intro s
        obtain ⟨j, hj, hpos, _⟩ := hconst s s.2
        have : M.here.matrix s ⟨j, hj⟩ ≤ ∑ j, M.here.matrix s j :=
          Finset.single_le_sum (f := fun j => M.here.matrix s j) (fun j _ => h.here_valid.2 s j) (Finset.mem_univ _)
        have h2 : 0 < M.here.matrix s ⟨j, hj⟩ := hpos
        exact (lt_of_lt_of_le h2 this).ne'
      have hst : M.here.embedded.Stochastic := M.here.toMC_stochastic h.here_valid (init_sum h.wf hi) hexit
      have hne : w ≠ [] := by rintro rfl; simpa using hS _ hws
      have hstep : ∃ r, estimateStep processes C (.untimed S) M = .ok r := by
        unfold estimateStep
        rw [h.hypothesis_eq]
        simp only [bind, Except.bind]
        rw [tables_untimed M.here S hS]
        simp only
        obtain ⟨t, htm⟩ := mem_zip_of_mem S hlen w hws
        rw [collect_many _ _ hp]
        · exact update_total h hsort h3 _
        · rw [filterMap_ite]
          intro h0
          have : (w, t) ∈ (S.sequences.zip S.times).filter (fun x =>
              decide ¬ totalWeight M.here.embedded.initialState M.here.embedded.step (fun _ => 1) x.1 = 0) :=
            List.mem_filter.2 ⟨htm, by
              have hl' : M.here.embedded.lik w ≠ 0 := hl
              rw [M.here.embedded.lik_eq hst.2.2.2 w hne] at hl'
              simpa using hl'⟩
          rw [List.map_eq_nil_iff] at h0
          rw [h0] at this
          exact absurd this List.not_mem_nil
      obtain ⟨⟨M', ll⟩, hr⟩ := hstep
      rw [loop_succ _ _ _ _ M' ll hr]
      obtain ⟨v, u, rfl, hsc, _, hm⟩ := step_untimed processes h hsort S (init_sum h.wf hi) hS hlen ht hexit M' ll hr
      have hc' : ∀ s < M.matrix.length, ∃ j < M.matrix.length,
          0 < (M.rateExpr s j).den (valOf v) ∧ ∀ p ∈ toUpdate, ¬ (M.rateExpr s j).Occurs p := by
        intro s hs'
        obtain ⟨j, hj, hpos, ho⟩ := hconst s hs'
        refine ⟨j, hj, ?_, ho⟩
        rw [Expr.den_congr _ (valOf v) (valOf M.values)]
        · exact hpos
        · intro p hp
          exact hsc.valOf.2 p (fun hpe => ho p (hest p hpe) hp)
      have hexit' : ∀ s, ∑ j, (M.withVal v).matrix s j ≠ 0 := by
        intro s
        obtain ⟨j, hj, hpos, _⟩ := hc' s s.2
        have : (M.withVal v).matrix s ⟨j, hj⟩ ≤ ∑ j, (M.withVal v).matrix s j :=
          Finset.single_le_sum (f := fun j => (M.withVal v).matrix s j) (fun j _ => (hsc.estimable h).here_valid.2 s j) (Finset.mem_univ _)
        have h2 : 0 < (M.withVal v).matrix s ⟨j, hj⟩ := hpos
        exact (lt_of_lt_of_le h2 this).ne'
      split_ifs
      · exact ⟨_, rfl⟩
      · exact ih { M with values := v } hi hc' ((hm hexit').2 w hws |>.mp hl) (hsc.estimable h) (hsc.sorted h hsort) hest _ _
  obtain ⟨st, hst⟩ := key
  simp only [bind, Except.bind]
  rw [hst]
  exact ⟨_, _, rfl⟩

end PCTMC
end Jajapy
