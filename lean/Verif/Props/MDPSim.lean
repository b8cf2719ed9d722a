import Verif.Lemmas.MDPSim

/-!
Property C83: the law of the traces returned by `MDP.run`, with the uniform scheduler and with finite-memory schedulers.
-/

set_option linter.unusedSectionVars false

namespace Jajapy

open MeasureTheory Spec Finset Tools BW

section draw
variable {L : Type}

theorem drawAction_ok_iff (probs : List ℝ) (acts : List L) (r : ℝ) (x : L) :
    drawAction probs acts r = .ok x ↔ ∃ i, resolveRandom probs r = .ok i ∧ acts[i]? = some x := by
  simp only [drawAction]
  rw [Except.bind_eq_ok]
  constructor
  · rintro ⟨i, h1, h2⟩
    refine ⟨i, h1, ?_⟩
    cases h : acts[i]? with
    | none => rw [h] at h2; simp at h2
    | some a => rw [h] at h2; injection h2 with h2; rw [h2]
  · rintro ⟨i, h1, h2⟩
    exact ⟨i, h1, by simp [h2]⟩

theorem measurable_drawAction (probs : List ℝ) (acts : List L) (p : L → Prop) :
    MeasurableSet {r | ∃ x, p x ∧ drawAction probs acts r = .ok x} := by
  have : {r | ∃ x, p x ∧ drawAction probs acts r = .ok x}
      = ⋃ i : ℕ, ({_r | ∃ x, p x ∧ acts[i]? = some x} ∩ {r | resolveRandom probs r = .ok i}) := by
    ext r
    simp only [drawAction_ok_iff, Set.mem_ofPred_eq, Set.mem_iUnion, Set.mem_inter_iff]
    constructor
    · rintro ⟨x, h0, i, h1, h2⟩; exact ⟨i, ⟨x, h0, h2⟩, h1⟩
    · rintro ⟨i, ⟨x, h0, h2⟩, h1⟩; exact ⟨x, h0, i, h1, h2⟩
  rw [this]
  exact MeasurableSet.iUnion (fun i => (MeasurableSet.const _).inter (measurable_resolveLoop _ _))

theorem drawAction_law [DecidableEq L] (probs : List ℝ) (acts : List L) (hlen : probs.length = acts.length) (h0 : ∀ p ∈ probs, 0 ≤ p)
    (hs : probs.sum ≤ 1) (x : L) :
    uniform {r | drawAction probs acts r = .ok x}
      = ENNReal.ofReal (∑ i : Fin probs.length, if acts[i.1]? = some x then probs[i] else 0) := by
  have hof : List.ofFn probs.get = probs := List.ofFn_get probs
  have e : {r | drawAction probs acts r = .ok x}
      = ⋃ i ∈ Finset.univ.filter (fun i : Fin probs.length => acts[i.1]? = some x), {r | pick probs.get r = .ok i} := by
    ext r
    simp only [drawAction_ok_iff, Set.mem_ofPred_eq, Set.mem_iUnion, Finset.mem_filter, Finset.mem_univ, true_and, exists_prop,
      pick_eq_ok_iff, hof]
    constructor
    · rintro ⟨i, h1, h2⟩
      obtain ⟨hi, -⟩ := List.getElem?_eq_some_iff.1 h2
      exact ⟨⟨i, by omega⟩, h2, h1⟩
    · rintro ⟨i, h2, h1⟩
      exact ⟨i.1, h1, h2⟩
  rw [e, measure_biUnion_finset _ (fun i _ => measurable_pick _ _)]
  · rw [← Finset.sum_filter, ENNReal.ofReal_sum_of_nonneg (f := fun i : Fin probs.length => probs[i]) (fun i _ => h0 _ (List.getElem_mem _))]
    refine Finset.sum_congr rfl (fun i _ => ?_)
    rw [pick_law probs.get (fun i => h0 _ (List.getElem_mem _))]
    · rfl
    · rw [← List.sum_ofFn, hof]; exact hs
  · intro i _ j _ hij
    rw [Function.onFun, Set.disjoint_left]
    intro r h1 h2
    simp only [Set.mem_ofPred_eq] at h1 h2
    rw [h1] at h2
    injection h2 with h2
    exact hij h2

theorem map_pair_ok {σ : Type} (p : Py L) (st st' : σ) (x : L) : (p.map (fun a => (a, st))) = .ok (x, st') ↔ p = .ok x ∧ st = st' := by
  cases p <;> simp [Except.map]

theorem count_eq_sum [DecidableEq L] (acts : List L) (x : L) (N : ℕ) (hN : N = acts.length) (c : ℝ) :
    (∑ i : Fin N, if acts[i.1]? = some x then c else 0) = acts.count x * c := by
  subst hN
  induction acts with
  | nil => simp
  | cons a acts ih =>
    simp only [List.length_cons]
    rw [Fin.sum_univ_succ]
    simp only [Fin.val_succ, List.getElem?_cons_succ, ih, Fin.val_zero, List.getElem?_cons_zero, Option.some.injEq]
    rw [List.count_cons]
    by_cases h : a = x
    · simp [h]; ring
    · simp [h]

theorem uniformScheduler_behaves [DecidableEq L] (acts : List L) (hne : acts ≠ []) :
    Behaves (uniformScheduler acts) (uniformPolicy acts) (fun _ => True) where
  reset := fun _ => rfl
  start := trivial
  same := fun _ _ _ _ _ => rfl
  total := by
    intro st _ r h0 h1
    obtain ⟨x, _, h⟩ := MDP.uniformScheduler_total (K := ℝ) acts hne r h0 h1
    exact ⟨x, h⟩
  meas := by
    intro st x
    simp only [uniformScheduler, map_pair_ok, and_true]
    have := measurable_drawAction (List.replicate acts.length (1 / (acts.length : ℝ))) acts (fun y => y = x)
    simpa using this
  measOk := by
    intro st
    simp only [uniformScheduler, map_pair_ok, and_true]
    have := measurable_drawAction (List.replicate acts.length (1 / (acts.length : ℝ))) acts (fun y => True)
    simpa using this
  law := by
    intro st _ x
    have hl : 0 < acts.length := List.length_pos_iff.mpr hne
    have hl' : (0:ℝ) < acts.length := by exact_mod_cast hl
    simp only [uniformScheduler, map_pair_ok, and_true]
    rw [drawAction_law _ _ (by simp) (by intro p hp; rw [List.mem_replicate] at hp; rw [hp.2]; positivity)
      (by rw [List.sum_replicate, nsmul_eq_mul]; exact le_of_eq (by field_simp))]
    congr 1
    simp only [Fin.getElem_fin, List.getElem_replicate]
    rw [count_eq_sum acts x _ (by simp)]
    simp only [uniformPolicy]
    ring
  nonneg := by
    intro st _ x
    simp only [uniformPolicy]
    positivity
  obs := fun _ _ _ => ⟨rfl, trivial⟩

theorem fmScheduler_behaves [DecidableEq L] (F : FMScheduler ℝ L) (N : ℕ) (hF : FMValid F N) :
    Behaves F.sched (fmPolicy F) (fun m => m < N) where
  reset := fun _ => rfl
  start := hF.1
  same := by
    intro st r x st' h
    exact ((map_pair_ok _ _ _ _).1 h).2.symm
  total := by
    intro st hst r h0 h1
    obtain ⟨probs, acts, hm, hlen, hp, hsum⟩ := hF.2.1 st hst
    obtain ⟨i, hi, h2, -⟩ := resolveRandom_total probs hp hsum r h0 h1
    refine ⟨acts[i], (map_pair_ok _ _ _ _).2 ⟨?_, rfl⟩⟩
    simp only [FMScheduler.getAction, hm]
    exact (drawAction_ok_iff _ _ _ _).2 ⟨i, h2, List.getElem?_eq_getElem (by omega)⟩
  meas := by
    intro st x
    simp only [FMScheduler.sched, map_pair_ok, and_true, FMScheduler.getAction]
    cases F.actionMatrix st with
    | none => simp
    | some q => simpa using measurable_drawAction q.1 q.2 (fun y => y = x)
  measOk := by
    intro st
    simp only [FMScheduler.sched, map_pair_ok, and_true, FMScheduler.getAction]
    cases F.actionMatrix st with
    | none => simp
    | some q => simpa using measurable_drawAction q.1 q.2 (fun y => True)
  law := by
    intro st hst x
    obtain ⟨probs, acts, hm, hlen, hp, hsum⟩ := hF.2.1 st hst
    simp only [FMScheduler.sched, map_pair_ok, and_true, FMScheduler.getAction, hm, fmPolicy]
    exact drawAction_law probs acts hlen hp hsum.le x
  nonneg := by
    intro st hst x
    obtain ⟨probs, acts, hm, hlen, hp, hsum⟩ := hF.2.1 st hst
    simp only [fmPolicy, hm]
    refine Finset.sum_nonneg (fun i _ => ?_)
    split_ifs
    · exact hp _ (List.getElem_mem _)
    · exact le_rfl
  obs := by
    intro st hst o
    simp only [FMScheduler.sched, FMScheduler.addObservation, fmPolicy]
    cases ht : F.transitionMatrix o with
    | none => exact ⟨rfl, hst⟩
    | some row =>
      obtain ⟨s', h1, h2⟩ := hF.2.2 o row ht st hst
      simp only [h2, List.getD_eq_getElem?_getD, Option.getD_some]
      exact ⟨trivial, h1⟩

end draw

namespace MDP
variable {σ L : Type} {n : ℕ} [DecidableEq L]

theorem mdpSteps_alternate (ps : List (L × L)) (last : L) : mdpSteps (alternate ps last) = ps := by
  have h := alternate_length ps last
  apply List.ext_getElem
  · simp only [mdpSteps, List.length_ofFn]; omega
  · intro k h1 h2
    simp only [mdpSteps, List.getElem_ofFn]
    have key : ∀ (ps : List (L × L)) (k : ℕ) (h2 : k < ps.length) (h3 : 2 * k + 1 < (alternate ps last).length),
        ((alternate ps last)[2 * k], (alternate ps last)[2 * k + 1]) = ps[k] := by
      intro ps
      induction ps with
      | nil => intro k h2; simp at h2
      | cons p ps ih =>
        intro k h2 h3
        cases k with
        | zero => rfl
        | succ k => exact ih k (by simpa using h2) (by simp only [alternate, List.length_cons] at h3; omega)
    exact key ps k h2 (by omega)

theorem mdpLast_alternate (lab : Fin n → L) (ps : List (L × L)) (last : L) (s : Fin n) :
    (mdpLast lab (alternate ps last) s : ℝ) = if lab s = last then 1 else 0 := by
  unfold mdpLast
  rw [getLast?_alternate]
  by_cases h : lab s = last
  · rw [if_pos h, if_pos (by rw [h])]
  · rw [if_neg h, if_neg (by intro hc; injection hc with hc; exact h hc.symm)]

theorem runProb_alternate (M : MDP ℝ L n) (P : Policy σ L) (ps : List (L × L)) (last : L) :
    M.runProb P (alternate ps last) = totalWeight M.initialState (M.runStep P) (M.mask last) (P.steps P.start ps) := by
  unfold runProb
  rw [mdpSteps_alternate]
  congr 1
  funext s
  exact mdpLast_alternate _ _ _ _

theorem run_law_of_behaves {sch : Sched ℝ L σ} {P : Policy σ L} {dom : σ → Prop} (hB : Behaves sch P dom) (M : MDP ℝ L n)
    (hn : M.actions.Nodup) (hS : M.Stochastic) (steps : ℕ) (st : σ) (w : List L) (hw : w.length = 2 * steps + 1) :
    drawsLaw {d | M.Returns sch steps st w d} = ENNReal.ofReal (M.runProb P w) := by
  obtain ⟨hi0, hi, h0, hs⟩ := hS
  obtain ⟨ps, last, rfl⟩ := exists_alternate w (by omega)
  have : steps = ps.length := by rw [alternate_length] at hw; omega
  subst this
  rw [M.runProb_alternate]
  refine M.returns_law hn h0 (fun s i => ?_) hi0 hi.le hB ps last st
  rcases hs s i with h | h <;> rw [h]
  exact zero_le_one

/-- C83: the law of the traces returned by `run` with the uniform scheduler on a list of actions. -/
theorem run_uniform_law (M : MDP ℝ L n) (hn : M.actions.Nodup) (hS : M.Stochastic) (acts : List L) (hne : acts ≠ [])
    (steps : ℕ) (w : List L) (hw : w.length = 2 * steps + 1) :
    drawsLaw {d | M.Returns (uniformScheduler acts) steps () w d} = ENNReal.ofReal (M.runProb (uniformPolicy acts) w) :=
  M.run_law_of_behaves (uniformScheduler_behaves acts hne) hn hS steps () w hw

/-- C83: the law of the traces returned by `run` with a finite-memory scheduler, whatever the state in which the previous run
has left it. -/
theorem run_fm_law (M : MDP ℝ L n) (hn : M.actions.Nodup) (hS : M.Stochastic) (F : FMScheduler ℝ L) (N : ℕ) (hF : FMValid F N)
    (steps : ℕ) (st : ℕ) (w : List L) (hw : w.length = 2 * steps + 1) :
    drawsLaw {d | M.Returns F.sched steps st w d} = ENNReal.ofReal (M.runProb (fmPolicy F) w) :=
  M.run_law_of_behaves (fmScheduler_behaves F N hF) hn hS steps st w hw

/-- C83: with the uniform scheduler `run` returns with probability 1, if in each state the list has a possible action. -/
theorem run_uniform_returns (M : MDP ℝ L n) (hn : M.actions.Nodup) (hS : M.Stochastic) (acts : List L)
    (ha : ∀ s, ∃ x ∈ acts, M.Allowed s x) (steps : ℕ) :
    drawsLaw {d | ∃ w, M.Returns (uniformScheduler acts) steps () w d} = 1 := by
  obtain ⟨hi0, hi, h0, hs⟩ := hS
  have hpos : Nonempty (Fin n) := by
    by_contra hc
    rw [not_nonempty_iff] at hc
    simp at hi
  obtain ⟨s0⟩ := hpos
  have hne : acts ≠ [] := by
    obtain ⟨x, hx, _⟩ := ha s0
    exact List.ne_nil_of_mem hx
  refine M.returns_total hn ⟨hi0, hi, h0, hs⟩ (uniformScheduler_behaves acts hne) (fun s st _ => ?_) steps ()
  obtain ⟨x, hx, hal⟩ := ha s
  have hxa : x ∈ M.actions := by
    by_contra hna
    obtain ⟨s', hs'⟩ := hal
    rw [M.prob_not_mem s x s' hna] at hs'
    exact lt_irrefl _ hs'
  unfold acceptProb
  refine Finset.sum_pos' (fun y _ => (uniformScheduler_behaves acts hne).nonneg st trivial y) ⟨x, by simp [hxa, hal], ?_⟩
  simp only [uniformPolicy]
  have h1 : 0 < acts.count x := List.count_pos_iff.2 hx
  have h2 : 0 < acts.length := List.length_pos_iff.mpr hne
  positivity

/-- C83: with a finite-memory scheduler `run` returns with probability 1, if each memory state proposes a possible action of each
state of the model with positive probability. -/
theorem run_fm_returns (M : MDP ℝ L n) (hn : M.actions.Nodup) (hS : M.Stochastic) (F : FMScheduler ℝ L) (N : ℕ) (hF : FMValid F N)
    (ha : ∀ s, ∀ m < N, ∃ x, M.Allowed s x ∧ 0 < (fmPolicy F).propose m x) (steps : ℕ) (st : ℕ) :
    drawsLaw {d | ∃ w, M.Returns F.sched steps st w d} = 1 := by
  refine M.returns_total hn hS (fmScheduler_behaves F N hF) (fun s m hm => ?_) steps st
  obtain ⟨x, hal, hp⟩ := ha s m hm
  have hxa : x ∈ M.actions := by
    by_contra hna
    obtain ⟨s', hs'⟩ := hal
    rw [M.prob_not_mem s x s' hna] at hs'
    exact lt_irrefl _ hs'
  unfold acceptProb
  exact Finset.sum_pos' (fun y _ => (fmScheduler_behaves F N hF).nonneg m hm y) ⟨x, by simp [hxa, hal], hp⟩

/-- Without refusals, the probability of a trace is the probability of its actions times the likelihood. -/
theorem runProb_eq_lik (M : MDP ℝ L n) (P : Policy σ L) (h1 : ∀ s m, M.acceptProb P s m = 1) (h0 : ∀ s i s', 0 ≤ M.matrix s i s')
    (w : List L) (hw : w.length % 2 = 1) : M.runProb P w = P.actionsProb w * M.lik w := by
  obtain ⟨ps, last, rfl⟩ := exists_alternate w hw
  rw [M.runProb_alternate, M.lik_alternate, stepWeight]
  unfold Policy.actionsProb
  rw [mdpSteps_alternate, totalWeight_eq, totalWeight_eq, Finset.mul_sum]
  refine Finset.sum_congr rfl (fun s _ => ?_)
  suffices h : ∀ (ps : List (L × L)) (m : σ) (s : Fin n), beta0 (M.runStep P) (M.mask last) (P.steps m ps) s
      = ((P.steps m ps).map (fun q => P.propose q.1 q.2.2)).prod * beta0 M.step (M.mask last) ps s by
    rw [h]; ring
  intro ps
  induction ps with
  | nil => intro m s; simp [Policy.steps]
  | cons p ps ih =>
    intro m s
    simp only [Policy.steps, beta0_cons, bwd, List.map_cons, List.prod_cons]
    rw [Finset.mul_sum]
    refine Finset.sum_congr rfl (fun s' _ => ?_)
    rw [ih]
    simp only [runStep, step, choiceProb]
    by_cases hal : M.Allowed s p.2
    · rw [if_pos hal, h1]
      ring
    · rw [if_neg hal]
      have : M.prob s p.2 s' = 0 := by
        by_contra hc
        exact hal ⟨s', lt_of_le_of_ne (M.prob_nonneg_run h0 _ _ _) (Ne.symm hc)⟩
      rw [this]
      ring

/-- C83: when every action is possible in every state, the uniform scheduler gives each trace of `steps` steps the probability
that the likelihood methods report for it, divided by (number of actions) ^ `steps`. -/
theorem run_uniform_likelihood (M : MDP ℝ L n) (hn : M.actions.Nodup) (hS : M.Stochastic) (hne : M.actions ≠ [])
    (hall : ∀ s i, ∑ s', M.matrix s i s' = 1) (steps : ℕ) (w : List L) (hw : w.length = 2 * steps + 1)
    (hwa : ∀ k, (hk : 2 * k + 1 < w.length) → w[2 * k + 1] ∈ M.actions) :
    ∃ p, M.seqProb w = .ok p ∧
      drawsLaw {d | M.Returns (uniformScheduler M.actions) steps () w d} = ENNReal.ofReal (p / M.actions.length ^ steps) := by
  have hl' : (0:ℝ) < M.actions.length := by exact_mod_cast List.length_pos_iff.mpr hne
  obtain ⟨ps, last, rfl⟩ := exists_alternate w (by omega)
  refine ⟨_, M.seqProb_alternate hn ps last, ?_⟩
  rw [M.run_uniform_law hn hS _ hne steps _ hw, M.runProb_eq_lik _ _ hS.2.2.1 _ (by omega), M.lik_alternate]
  · congr 1
    have hst : steps = ps.length := by rw [alternate_length] at hw; omega
    have hmem : ∀ p ∈ ps, p.2 ∈ M.actions := by
      intro p hp
      obtain ⟨k, hk, rfl⟩ := List.mem_iff_getElem.1 hp
      have hal := alternate_length ps last
      have h2 := hwa k (by omega)
      have h3 := mdpSteps_alternate ps last
      have h4 : (mdpSteps (alternate ps last))[k]'(by rw [h3]; exact hk) = ps[k] := by simp only [h3]
      simp only [mdpSteps, List.getElem_ofFn] at h4
      rw [← h4]
      exact h2
    have : (uniformPolicy M.actions).actionsProb (alternate ps last) = (1 / M.actions.length) ^ steps := by
      unfold Policy.actionsProb
      rw [mdpSteps_alternate, hst]
      clear hwa hw hst
      generalize (uniformPolicy M.actions).start = m
      induction ps generalizing m with
      | nil => simp [Policy.steps]
      | cons p ps ih =>
        simp only [Policy.steps, List.map_cons, List.prod_cons, List.length_cons]
        rw [ih (fun q hq => hmem q (List.mem_cons_of_mem _ hq)), pow_succ]
        simp only [uniformPolicy]
        rw [List.count_eq_one_of_mem hn (hmem p (by simp))]
        push_cast
        ring
    rw [this, one_div, inv_pow]
    field_simp
  · intro s m
    classical
    have hall' : ∀ x ∈ M.actions, M.Allowed s x := by
      intro x hx
      obtain ⟨k, hk, rfl⟩ := List.mem_iff_getElem.1 hx
      by_contra hc
      have : ∑ s', M.matrix s ⟨k, hk⟩ s' = 0 := by
        refine Finset.sum_eq_zero (fun s' _ => ?_)
        by_contra h
        refine hc ⟨s', ?_⟩
        rw [show M.prob s M.actions[k] s' = M.matrix s ⟨k, hk⟩ s' from M.prob_getElem hn s ⟨k, hk⟩ s']
        exact lt_of_le_of_ne (hS.2.2.1 _ _ _) (Ne.symm h)
      rw [hall] at this
      exact one_ne_zero this
    unfold acceptProb
    rw [Finset.filter_true_of_mem (fun x hx => hall' x (List.mem_toFinset.1 hx))]
    simp only [uniformPolicy]
    rw [Finset.sum_congr rfl (fun x hx => by rw [List.count_eq_one_of_mem hn (List.mem_toFinset.1 hx)]), Finset.sum_const,
      List.toFinset_card_of_nodup hn, nsmul_eq_mul]
    push_cast
    field_simp

/-- C83: traces of another length are never returned. -/
theorem run_length (M : MDP ℝ L n) (sch : Sched ℝ L σ) (steps : ℕ) (st : σ) (w : List L) (hw : w.length ≠ 2 * steps + 1) (d : ℕ → ℝ) :
    ¬ M.Returns sch steps st w d := by
  rintro ⟨N, st', h⟩
  have key : ∀ (steps : ℕ) (draws : List ℝ) (s : Fin n) (st : σ) (w : List L) (st' : σ),
      M.runLoop sch steps draws s st = some (.ok (w, st')) → w.length = 2 * steps + 1 := by
    intro steps
    induction steps with
    | zero =>
      intro draws s st w st' h
      simp only [runLoop, Option.some.injEq, Except.ok.injEq, Prod.mk.injEq] at h
      rw [← h.1]
      rfl
    | succ steps ih =>
      intro draws s st w st' h
      rw [runLoop] at h
      split at h
      · cases h
      · cases h
      · cases h
      · split at h
        · cases h
        · split at h
          · cases h
          · split at h
            · cases h
            · cases h
            · rename_i hr
              simp only [Option.some.injEq, Except.ok.injEq, Prod.mk.injEq] at h
              rw [← h.1]
              simp only [List.length_cons]
              rw [ih _ _ _ _ _ hr]
              ring
  unfold run at h
  split at h
  · cases h
  · split at h
    · cases h
    · exact hw (key _ _ _ _ _ _ h)

end MDP
end Jajapy
