import Verif.Lemmas.RaceFree
import Verif.Spec.PCTMCSim
import Verif.Props.PCTMC
import Verif.Props.CTMCSimTimed

set_option linter.unusedSectionVars false

/-!
C94: the law of the simulator of instantiated parametric CTMCs, over the random numbers of `Spec/Clocks.lean`. There is no
sentinel here: a transition of rate 0 has an infinite waiting time.
-/

namespace Jajapy

open MeasureTheory ProbabilityTheory Spec Finset Tools BW

namespace PCTMC

variable {M : PCTMC ℝ} {ρ : String → ℝ}

theorem pad_fin {n : ℕ} (d : Fin n → ℝ) (i : Fin n) : pad d i = d i := by simp [pad]

theorem next_iff (h : M.Sim ρ) (s : Fin M.matrix.length) (hp : ∃ j, 0 < (M.chain ρ).matrix s j) (d : Fin M.matrix.length → ℝ)
    (o : String) (j : ℕ) (t : WithTop ℝ) :
    M.next s (pad d) = .ok (o, j, t) ↔ (M.chain ρ).labelling s = o ∧
      ∃ i : Fin M.matrix.length, j = i ∧ ∃ x : ℝ, t = x ∧ d ∈ freeSet ((M.chain ρ).matrix s) i {x} := by
  obtain ⟨i, h1, h2, h3, h4⟩ := M.next_spec h.wf h.full ρ h.ext s (h.nonneg s) hp (pad d)
  simp only [pad_fin] at h1 h3 h4
  have hd : d ∈ freeSet ((M.chain ρ).matrix s) i {1 / (M.chain ρ).matrix s i * d i} := ⟨h2, rfl, h3, h4⟩
  rw [h1]
  constructor
  · intro h
    injection h with h
    simp only [Prod.mk.injEq] at h
    obtain ⟨rfl, rfl, rfl⟩ := h
    exact ⟨rfl, i, rfl, _, rfl, hd⟩
  · rintro ⟨rfl, i', rfl, x, rfl, hx⟩
    obtain rfl := freeSet_unique hd hx
    have : 1 / (M.chain ρ).matrix s i * d i = x := hx.2.1
    rw [this]
    rfl

/-! ### One step -/

theorem next_set (h : M.Sim ρ) (s i : Fin M.matrix.length) (hp : ∃ j, 0 < (M.chain ρ).matrix s j) (A : Set ℝ) :
    {d : Fin M.matrix.length → ℝ | ∃ t ∈ A, M.next s (pad d) = .ok (M.labelling.getD s "", (i : ℕ), (t : WithTop ℝ))}
      = freeSet ((M.chain ρ).matrix s) i A := by
  ext d
  simp only [Set.mem_ofPred_eq, next_iff h s hp]
  constructor
  · rintro ⟨t, ht, -, i', hi, x, hx, hd⟩
    obtain rfl := Fin.ext hi
    obtain rfl := WithTop.coe_injective hx
    exact ⟨hd.1, by rw [show _ = t from hd.2.1]; exact ht, hd.2.2⟩
  · intro hd
    exact ⟨_, hd.2.1, rfl, i, rfl, _, rfl, hd.1, rfl, hd.2.2⟩

/-- C94, one step: the state reached and the time spent have the joint density `rate(s,i) * exp(-exit(s) * t)`. -/
theorem next_law (h : M.Sim ρ) (s i : Fin M.matrix.length) (hp : ∃ j, 0 < (M.chain ρ).matrix s j) (A : Set ℝ) (hA : MeasurableSet A) :
    stepLaw M.matrix.length {d | ∃ t ∈ A, M.next s (pad d) = .ok (M.labelling.getD s "", (i : ℕ), (t : WithTop ℝ))}
      = ∫⁻ t in A ∩ Set.Ici 0, ENNReal.ofReal ((M.chain ρ).matrix s i * Real.exp (-((M.chain ρ).e s) * t)) := by
  rw [next_set h s i hp A, freeSet_law _ (h.nonneg s) i hA]
  rfl

/-- C94, one step, whatever the time: the next state is `i` with the probability that `tau` reports. -/
theorem next_state_law (h : M.Sim ρ) (s i : Fin M.matrix.length) (hp : ∃ j, 0 < (M.chain ρ).matrix s j) :
    ∃ p, M.tau s i (M.labelling.getD s "") = .ok (.fin p) ∧
      stepLaw M.matrix.length {d | ∃ t, M.next s (pad d) = .ok (M.labelling.getD s "", (i : ℕ), t)} = ENNReal.ofReal p := by
  have he : (M.chain ρ).e s ≠ 0 := by
    obtain ⟨j, hj⟩ := hp
    exact ((M.chain ρ).exitRate_pos h.nonneg s j hj).ne'
  refine ⟨(M.chain ρ).matrix s i / (M.chain ρ).e s, ?_, ?_⟩
  · rw [((M.methods_spec_partial h.wf h.full ρ h.ext s i _).2.2 he).1]
    unfold CTMC.tau CTMC.l
    rw [if_neg (by rw [not_not]; rfl)]
  · have : {d : Fin M.matrix.length → ℝ | ∃ t, M.next s (pad d) = .ok (M.labelling.getD s "", (i : ℕ), t)}
        = {d | ∃ t ∈ Set.univ, M.next s (pad d) = .ok (M.labelling.getD s "", (i : ℕ), ((t : ℝ) : WithTop ℝ))} := by
      ext d
      simp only [Set.mem_ofPred_eq, Set.mem_univ, true_and]
      constructor
      · rintro ⟨t, ht⟩
        obtain ⟨-, -, -, x, rfl, -⟩ := (next_iff h s hp d _ _ _).1 ht
        exact ⟨x, ht⟩
      · rintro ⟨t, ht⟩
        exact ⟨_, ht⟩
    rw [this, next_set h s i hp, freeSet_univ _ (h.nonneg s) hp]
    rfl

/-- C94: the time spent in a state is exponential, of parameter the exit rate. -/
theorem time_law (h : M.Sim ρ) (s : Fin M.matrix.length) (hp : ∃ j, 0 < (M.chain ρ).matrix s j) (t : ℝ) (ht : 0 ≤ t) :
    stepLaw M.matrix.length {d | ∃ o j u, M.next s (pad d) = .ok (o, j, u) ∧ (t : WithTop ℝ) < u}
      = ENNReal.ofReal (Real.exp (-((M.chain ρ).e s) * t)) := by
  have hR : 0 < (M.chain ρ).e s := by
    obtain ⟨j, hj⟩ := hp
    exact (M.chain ρ).exitRate_pos h.nonneg s j hj
  have e : {d : Fin M.matrix.length → ℝ | ∃ o j u, M.next s (pad d) = .ok (o, j, u) ∧ (t : WithTop ℝ) < u}
      = ⋃ i, freeSet ((M.chain ρ).matrix s) i (Set.Ioi t) := by
    ext d
    simp only [Set.mem_ofPred_eq, Set.mem_iUnion, next_iff h s hp]
    constructor
    · rintro ⟨o, j, u, ⟨-, i, -, x, rfl, hd⟩, hlt⟩
      refine ⟨i, hd.1, ?_, hd.2.2⟩
      rw [show _ = x from hd.2.1]
      exact WithTop.coe_lt_coe.1 hlt
    · rintro ⟨i, hd⟩
      exact ⟨_, _, _, ⟨rfl, i, rfl, _, rfl, hd.1, rfl, hd.2.2⟩, WithTop.coe_lt_coe.2 hd.2.1⟩
  rw [e, measure_iUnion (fun i j hij => freeSet_disjoint _ _ i j hij) (fun i => measurable_freeSet _ i measurableSet_Ioi), tsum_fintype]
  have e2 : ∀ i, stepLaw M.matrix.length (freeSet ((M.chain ρ).matrix s) i (Set.Ioi t))
      = ENNReal.ofReal ((M.chain ρ).matrix s i / (M.chain ρ).e s * Real.exp (-((M.chain ρ).e s) * t)) := by
    intro i
    rw [freeSet_law _ (h.nonneg s) i measurableSet_Ioi,
      Set.inter_eq_left.2 (Set.Ioi_subset_Ici ht), setLIntegral_congr Ioi_ae_eq_Ici]
    exact integral_race_top (h.nonneg s i) hR t
  simp only [e2]
  rw [← ENNReal.ofReal_sum_of_nonneg (fun i _ => mul_nonneg (div_nonneg (h.nonneg s i) hR.le) (Real.exp_pos _).le),
    ← Finset.sum_mul, ← Finset.sum_div]
  congr 1
  rw [show ∑ i, (M.chain ρ).matrix s i = (M.chain ρ).e s from rfl, div_self hR.ne', one_mul]

/-- Where the law stops: from an absorbing state, all of whose rates are 0, the simulator jumps to the state 0 after an infinite
time. -/
theorem next_absorbing (h : M.Sim ρ) (s : Fin M.matrix.length) (hz : ∀ j, (M.chain ρ).matrix s j = 0) (draws : ℕ → ℝ) :
    M.next s draws = .ok (M.labelling.getD s "", 0, ⊤) := by
  have hsf := M.stateFull_of_full h.wf h.full s.2
  obtain ⟨b, hb, hbs⟩ := M.isInstantiatedState_eq h.wf s.2
  set rates : List ℝ := (List.range M.nb).map (fun j => (M.rateExpr s j).den ρ) with hrates
  have hr0 : rates = List.replicate M.matrix.length 0 := by
    refine List.eq_replicate_iff.2 ⟨by simp [hrates, nb], ?_⟩
    intro x hx
    obtain ⟨j, hj, rfl⟩ := List.mem_map.1 hx
    exact hz ⟨j, List.mem_range.1 hj⟩
  have hw : waits rates draws = .ok (List.replicate M.matrix.length ⊤) := by
    rw [waits_eq _ (by rw [hr0]; intro x hx; rw [List.eq_of_mem_replicate hx])]
    congr 1
    refine List.eq_replicate_iff.2 ⟨by simp [hr0], ?_⟩
    intro x hx
    obtain ⟨p, hp, rfl⟩ := List.mem_map.1 hx
    have := List.fst_mem_of_mem_zipIdx hp
    rw [hr0] at this
    rw [if_pos (List.eq_of_mem_replicate this)]
  unfold next
  rw [hb, hbs.2 hsf, mapM_range _ (fun j => some ((M.rateExpr s j).den ρ)) (fun j hj => by
    rw [M.evaluate_eq h.wf s.2 hj, Expr.eval_some _ _ (hsf j hj) ρ h.ext])]
  simp only [bind, Except.bind, if_true, List.map_map]
  have : (fun x : Option ℝ => x.getD 0) ∘ (fun j => some ((M.rateExpr s j).den ρ)) = fun j => (M.rateExpr s j).den ρ := rfl
  rw [this, ← hrates, hw]
  obtain ⟨m, hm⟩ : ∃ m, M.matrix.length = m + 1 := ⟨M.matrix.length - 1, by have := s.2; omega⟩
  have hmin : (List.replicate M.matrix.length (⊤ : WithTop ℝ)).min? = some ⊤ := by
    rw [List.min?_eq_some_iff]
    refine ⟨List.mem_replicate.2 ⟨by omega, rfl⟩, fun b hb => ?_⟩
    rw [List.eq_of_mem_replicate hb]
  simp only [argmin, hmin, pure, Except.pure]
  have hidx : List.idxOf ⊤ (List.replicate M.matrix.length (⊤ : WithTop ℝ)) = 0 := by
    rw [hm, List.replicate_succ, List.idxOf_cons_self]
  rw [hidx]

/-- A state one of whose rates has no value is refused. -/
theorem next_refused (hM : M.WF) (s : Fin M.matrix.length)
    (h : ∃ j : Fin M.matrix.length, ∃ p, (M.rateExpr s j).Occurs p ∧ ¬ Known M.values p) (draws : ℕ → ℝ) :
    M.next s draws = .error .valueError := by
  obtain ⟨b, hb, hbs⟩ := M.isInstantiatedState_eq hM s.2
  obtain ⟨j, p, hp, hk⟩ := h
  have : b = false := by
    rw [Bool.eq_false_iff]
    intro hc
    exact hk (hbs.1 hc j j.2 p hp)
  unfold next
  rw [hb, this]
  rfl

/-! ### Untimed runs -/

theorem runLoop_succ_iff (h : M.Sim ρ) (hp : ∀ s, ∃ j, 0 < (M.chain ρ).matrix s j) (steps : ℕ)
    (d : ℕ → Fin M.matrix.length → ℝ) (s : Fin M.matrix.length) (o : String) (w : List String) :
    M.runLoop (steps+1) (fun k => pad (d k)) s = .ok (o :: w) ↔
      (M.chain ρ).labelling s = o ∧ ∃ i : Fin M.matrix.length, d 0 ∈ freeSet ((M.chain ρ).matrix s) i Set.univ ∧
        M.runLoop steps (fun k => pad (d (k+1))) i = .ok w := by
  simp only [runLoop]
  constructor
  · intro hr
    rw [Except.bind_eq_ok] at hr
    obtain ⟨⟨l, c, t⟩, h1, h2⟩ := hr
    rw [Except.bind_eq_ok] at h2
    obtain ⟨rest, h2, h3⟩ := h2
    injection h3 with h3
    injection h3 with h3 h4
    subst h3 h4
    obtain ⟨h5, i, rfl, x, rfl, hd⟩ := (next_iff h s (hp s) _ _ _ _).1 h1
    exact ⟨h5, i, ⟨hd.1, trivial, hd.2.2⟩, h2⟩
  · rintro ⟨rfl, i, hd, h2⟩
    rw [(next_iff h s (hp s) (d 0) ((M.chain ρ).labelling s) i _).2 ⟨rfl, i, rfl, _, rfl, hd.1, rfl, hd.2.2⟩]
    simp only [bind, Except.bind, pure, Except.pure, h2]

theorem runLoop_length (h : M.Sim ρ) (hp : ∀ s, ∃ j, 0 < (M.chain ρ).matrix s j) (steps : ℕ) (d : ℕ → Fin M.matrix.length → ℝ)
    (s : Fin M.matrix.length) (w : List String) (hr : M.runLoop steps (fun k => pad (d k)) s = .ok w) : w.length = steps + 1 := by
  induction steps generalizing d s w with
  | zero =>
    injection hr with hr
    subst hr
    rfl
  | succ steps ih =>
    cases w with
    | nil =>
      simp only [runLoop] at hr
      rw [Except.bind_eq_ok] at hr
      obtain ⟨_, _, hr⟩ := hr
      rw [Except.bind_eq_ok] at hr
      obtain ⟨_, _, hr⟩ := hr
      injection hr with hr
      exact absurd hr (by simp)
    | cons o w =>
      obtain ⟨_, i, _, h2⟩ := (runLoop_succ_iff h hp steps d s o w).1 hr
      simp [ih _ _ _ h2]

theorem measurable_runLoop (h : M.Sim ρ) (hp : ∀ s, ∃ j, 0 < (M.chain ρ).matrix s j) (steps : ℕ) (s : Fin M.matrix.length)
    (w : List String) : MeasurableSet {d : ℕ → Fin M.matrix.length → ℝ | M.runLoop steps (fun k => pad (d k)) s = .ok w} := by
  induction steps generalizing s w with
  | zero => simp only [runLoop]; exact MeasurableSet.const _
  | succ steps ih =>
    cases w with
    | nil =>
      convert MeasurableSet.empty
      ext d
      simp only [Set.mem_ofPred_eq, Set.mem_empty_iff_false, iff_false]
      intro hr
      have := runLoop_length h hp _ _ _ _ hr
      simp at this
    | cons o w =>
      simp only [runLoop_succ_iff h hp]
      refine MeasurableSet.inter (MeasurableSet.const _) ?_
      exact measurable_clocks_bind (fun i => freeSet ((M.chain ρ).matrix s) i Set.univ)
        (fun i => measurable_freeSet _ i MeasurableSet.univ)
        (fun i => {d | M.runLoop steps (fun k => pad (d k)) i = .ok w}) (fun i => ih i w)

theorem runLoop_law (h : M.Sim ρ) (hp : ∀ s, ∃ j, 0 < (M.chain ρ).matrix s j) (steps : ℕ) (s : Fin M.matrix.length)
    (w : List String) (hw : w.length = steps + 1) :
    clocksLaw M.matrix.length {d | M.runLoop steps (fun k => pad (d k)) s = .ok w}
      = ENNReal.ofReal (sufProb (fun s s' => (M.chain ρ).matrix s s' / (M.chain ρ).e s) (M.chain ρ).shows s w) := by
  have he : ∀ s, 0 < (M.chain ρ).e s := fun s => by
    obtain ⟨j, hj⟩ := hp s
    exact (M.chain ρ).exitRate_pos h.nonneg s j hj
  have hnn : ∀ s s', 0 ≤ (M.chain ρ).matrix s s' / (M.chain ρ).e s := fun s s' => div_nonneg (h.nonneg s s') (he s).le
  induction steps generalizing s w with
  | zero =>
    obtain ⟨o, rfl⟩ := List.length_eq_one_iff.1 hw
    by_cases hl : (M.chain ρ).labelling s = o
    · have : {d : ℕ → Fin M.matrix.length → ℝ | M.runLoop 0 (fun k => pad (d k)) s = .ok [o]} = Set.univ := by
        ext d
        simp only [Set.mem_ofPred_eq, Set.mem_univ, iff_true, runLoop]
        rw [← hl]
        rfl
      rw [this, measure_univ]
      simp [sufProb, CTMC.shows, hl]
    · have : {d : ℕ → Fin M.matrix.length → ℝ | M.runLoop 0 (fun k => pad (d k)) s = .ok [o]} = ∅ := by
        ext d
        simp only [Set.mem_ofPred_eq, Set.mem_empty_iff_false, iff_false, runLoop]
        intro hc
        injection hc with hc
        injection hc with hc
        exact hl hc
      rw [this, measure_empty]
      simp [sufProb, CTMC.shows, hl]
  | succ steps ih =>
    cases w with
    | nil => simp at hw
    | cons o w =>
      cases w with
      | nil => simp at hw
      | cons o' w =>
        simp only [runLoop_succ_iff h hp]
        simp only [sufProb]
        by_cases hl : (M.chain ρ).labelling s = o
        · simp only [CTMC.shows, hl, true_and, if_true, one_mul]
          have := clocks_bind (fun i => freeSet ((M.chain ρ).matrix s) i Set.univ)
            (fun i => measurable_freeSet _ i MeasurableSet.univ)
            (freeSet_disjoint _ Set.univ) (fun i => {d | M.runLoop steps (fun k => pad (d k)) i = .ok (o' :: w)})
            (fun i => measurable_runLoop h hp steps i _)
          refine this.trans ?_
          rw [ENNReal.ofReal_sum_of_nonneg]
          · apply Finset.sum_congr rfl
            intro i _
            rw [ih i (o' :: w) (by simpa using hw), ENNReal.ofReal_mul (hnn _ _), freeSet_univ _ (h.nonneg s) (hp s)]
            rfl
          · intro i _
            exact mul_nonneg (hnn _ _) (sufProb_nonneg _ _ hnn (M.chain ρ).shows_nonneg _ _)
        · simp [CTMC.shows, hl]

theorem initial_iff (hM : M.WF) (r : ℝ) (k : ℕ) :
    resolveRandom M.initialState r = .ok k ↔
      ∃ i : Fin M.matrix.length, k = i ∧ pick (M.chain ρ).initialState r = .ok i := by
  have e : List.ofFn (M.chain ρ).initialState = M.initialState := by
    refine List.ext_getElem (by simp [hM.init]) (fun i h1 h2 => ?_)
    rw [List.getElem_ofFn]
    show M.initialState.getD i 0 = _
    rw [List.getD_eq_getElem?_getD, List.getElem?_eq_getElem h2]
    rfl
  simp only [pick_eq_ok_iff, e]
  constructor
  · intro h
    have hk : k < M.initialState.length := by
      clear e
      unfold resolveRandom at h
      have key : ∀ l : List (ℝ × ℕ), resolveLoop r l = .ok k → ∃ p ∈ l, p.2 = k := by
        intro l
        induction l with
        | nil => intro h; simp [resolveLoop] at h
        | cons p l ih =>
          intro h
          obtain ⟨c, i⟩ := p
          unfold resolveLoop at h
          split_ifs at h
          · obtain ⟨p, hp, he⟩ := ih h
            exact ⟨p, List.mem_cons_of_mem _ hp, he⟩
          · injection h with h
            exact ⟨_, List.mem_cons_self, h⟩
      obtain ⟨p, hp, rfl⟩ := key _ h
      have := List.snd_lt_of_mem_zipIdx (List.mem_of_mem_filter hp)
      have hc : ∀ (m : List ℝ) (a : ℝ), (cumsumFrom a m).length = m.length := by
        intro m
        induction m with
        | nil => intro a; rfl
        | cons x m ih => intro a; simp [cumsumFrom, ih]
      simpa [cumsum, hc] using this
    exact ⟨⟨k, by rw [← hM.init]; exact hk⟩, rfl, h⟩
  · rintro ⟨i, rfl, h⟩
    exact h

/-- C94: the probability that `run(number_steps)` returns a given trace is the likelihood of this trace in the CTMC of the evaluated
rates. What is missing: models with an absorbing state, see `next_absorbing`. -/
theorem run_law_partial (h : M.Sim ρ) (hp : ∀ s, ∃ j, 0 < (M.chain ρ).matrix s j) (h0 : ∀ x ∈ M.initialState, 0 ≤ x)
    (h1 : M.initialState.sum = 1) (steps : ℕ) (w : List String) (hw : w.length = steps + 1) :
    ∃ q, (M.chain ρ).iface.seqProb w = .ok q ∧
      simLaw M.matrix.length {p | M.run steps p.1 (fun k => pad (p.2 k)) = .ok w} = ENNReal.ofReal q := by
  have he : ∀ s, 0 < (M.chain ρ).e s := fun s => by
    obtain ⟨j, hj⟩ := hp s
    exact (M.chain ρ).exitRate_pos h.nonneg s j hj
  have hnn : ∀ s s', 0 ≤ (M.chain ρ).matrix s s' / (M.chain ρ).e s := fun s s' => div_nonneg (h.nonneg s s') (he s).le
  have hi0 : ∀ s, 0 ≤ (M.chain ρ).initialState s := fun s => initial_nonneg h.wf h0 s
  have hi1 : ∑ s, (M.chain ρ).initialState s = 1 := by rw [initial_sum h.wf, h1]
  refine ⟨_, (M.chain ρ).seqProb_embedded w (by rintro rfl; simp at hw), ?_⟩
  cases w with
  | nil => simp at hw
  | cons o os =>
    have e : {p : ℝ × (ℕ → Fin M.matrix.length → ℝ) | M.run steps p.1 (fun k => pad (p.2 k)) = .ok (o :: os)}
        = {p | ∃ i : Fin M.matrix.length, pick (M.chain ρ).initialState p.1 = .ok i ∧
            p.2 ∈ {d | M.runLoop steps (fun k => pad (d k)) i = .ok (o :: os)}} := by
      ext p
      simp only [Set.mem_ofPred_eq, run]
      rw [Except.bind_eq_ok]
      constructor
      · rintro ⟨k, hk, hr⟩
        obtain ⟨i, rfl, hi⟩ := (initial_iff h.wf _ _).1 hk
        exact ⟨i, hi, hr⟩
      · rintro ⟨i, hi, hr⟩
        exact ⟨i, (initial_iff h.wf _ _).2 ⟨i, rfl, hi⟩, hr⟩
    rw [e, sim_bind _ hi0 hi1.le _ (fun i => measurable_runLoop h hp steps i _), listProb_eq_sufProb, ENNReal.ofReal_sum_of_nonneg]
    · apply Finset.sum_congr rfl
      intro i _
      rw [runLoop_law h hp steps i _ hw, ENNReal.ofReal_mul (hi0 _)]
      rfl
    · intro i _
      exact mul_nonneg (hi0 _) (sufProb_nonneg _ _ hnn (M.chain ρ).shows_nonneg _ _)
  where
  initial_nonneg {M : PCTMC ℝ} (hM : M.WF) (h0 : ∀ x ∈ M.initialState, 0 ≤ x) (s : Fin M.matrix.length) :
      0 ≤ (M.chain ρ).initialState s := by
    show 0 ≤ M.initialState.getD s 0
    have hs : (s : ℕ) < M.initialState.length := by rw [hM.init]; exact s.2
    rw [List.getD_eq_getElem?_getD, List.getElem?_eq_getElem hs]
    exact h0 _ (List.getElem_mem hs)
  initial_sum {M : PCTMC ℝ} (hM : M.WF) : ∑ s, (M.chain ρ).initialState s = M.initialState.sum := by
    have e : List.ofFn (M.chain ρ).initialState = M.initialState := by
      refine List.ext_getElem (by simp [hM.init]) (fun i h1 h2 => ?_)
      rw [List.getElem_ofFn]
      show M.initialState.getD i 0 = _
      rw [List.getD_eq_getElem?_getD, List.getElem?_eq_getElem h2]
      rfl
    rw [← List.sum_ofFn, e]

/-! ### Timed runs -/

/-- The draws with which the simulation from `s` has the given observations, and its times in the given sets. -/
def timedSet (M : PCTMC ℝ) {k : ℕ} (os : Fin k → String) (A : Fin k → Set ℝ) (last : String) (s : Fin M.matrix.length) :
    Set (ℕ → Fin M.matrix.length → ℝ) :=
  {d | ∃ ts, (∀ i, ts i ∈ A i) ∧ M.runTimedLoop k (fun k => pad (d k)) s = .ok (asTrace (timedTrace os ts last))}

theorem timedSet_zero (ρ : String → ℝ) (os : Fin 0 → String) (A : Fin 0 → Set ℝ) (last : String) (s : Fin M.matrix.length) :
    M.timedSet os A last s = {_d | (M.chain ρ).labelling s = last} := by
  ext d
  simp only [timedSet, Set.mem_ofPred_eq, runTimedLoop, timedTrace, asTrace, List.map_cons, List.map_nil]
  constructor
  · rintro ⟨_, _, h⟩
    injection h with h
    injection h with h
    injection h
  · intro h
    refine ⟨fun i => i.elim0, fun i => i.elim0, ?_⟩
    rw [← h]
    rfl

theorem timedSet_succ (h : M.Sim ρ) (hp : ∀ s, ∃ j, 0 < (M.chain ρ).matrix s j) {k : ℕ} (os : Fin (k+1) → String)
    (A : Fin (k+1) → Set ℝ) (last : String) (s : Fin M.matrix.length) :
    M.timedSet os A last s = {d | (M.chain ρ).labelling s = os 0 ∧ ∃ i, d 0 ∈ freeSet ((M.chain ρ).matrix s) i (A 0) ∧
      (fun k => d (k+1)) ∈ M.timedSet (fun i => os i.succ) (fun i => A i.succ) last i} := by
  ext d
  simp only [timedSet, Set.mem_ofPred_eq, timedTrace, runTimedLoop, asTrace, List.map_cons]
  constructor
  · rintro ⟨ts, hts, hr⟩
    rw [Except.bind_eq_ok] at hr
    obtain ⟨⟨l, c, t⟩, h1, h2⟩ := hr
    rw [Except.bind_eq_ok] at h2
    obtain ⟨rest, h2, h3⟩ := h2
    injection h3 with h3
    injection h3 with h3 h4
    injection h4 with h4 h5
    injection h3 with h3
    injection h4 with h4
    obtain ⟨h6, i, rfl, x, rfl, hd⟩ := (next_iff h s (hp s) _ _ _ _).1 h1
    refine ⟨h6.trans h3, i, ⟨hd.1, ?_, hd.2.2⟩, fun i => ts i.succ, fun i => hts i.succ, by rw [h2, h5]⟩
    rw [show _ = x from hd.2.1, WithTop.coe_injective h4]
    exact hts 0
  · rintro ⟨hl, i, hd, ts, hts, h2⟩
    refine ⟨Fin.cons (1 / (M.chain ρ).matrix s i * d 0 i) ts, ?_, ?_⟩
    · intro j
      refine Fin.cases ?_ (fun j => ?_) j
      · exact hd.2.1
      · exact hts j
    · rw [(next_iff h s (hp s) (d 0) (os 0) i _).2 ⟨hl, i, rfl, _, rfl, hd.1, rfl, hd.2.2⟩]
      simp only [bind, Except.bind, pure, Except.pure, h2, Fin.cons_zero, Fin.cons_succ]

theorem measurable_timedSet (h : M.Sim ρ) (hp : ∀ s, ∃ j, 0 < (M.chain ρ).matrix s j) {k : ℕ} (os : Fin k → String)
    (A : Fin k → Set ℝ) (hA : ∀ i, MeasurableSet (A i)) (last : String) (s : Fin M.matrix.length) :
    MeasurableSet (M.timedSet os A last s) := by
  induction k generalizing s with
  | zero => rw [timedSet_zero ρ]; exact MeasurableSet.const _
  | succ k ih =>
    rw [timedSet_succ h hp]
    refine MeasurableSet.inter (MeasurableSet.const _) ?_
    exact measurable_clocks_bind (fun i => freeSet ((M.chain ρ).matrix s) i (A 0)) (fun i => measurable_freeSet _ i (hA 0))
      _ (fun i => ih _ _ (fun j => hA j.succ) i)

theorem timedLoop_law (h : M.Sim ρ) (hp : ∀ s, ∃ j, 0 < (M.chain ρ).matrix s j) {k : ℕ} (os : Fin k → String)
    (A : Fin k → Set ℝ) (hA : ∀ i, MeasurableSet (A i)) (hA0 : ∀ i, A i ⊆ Set.Ici 0) (last : String) (s : Fin M.matrix.length) :
    clocksLaw M.matrix.length (M.timedSet os A last s)
      = ∫⁻ ts in Set.pi Set.univ A, ENNReal.ofReal ((M.chain ρ).sufDensity os last s ts) := by
  induction k generalizing s with
  | zero =>
    rw [timedSet_zero ρ]
    have e : ∀ ts : Fin 0 → ℝ, (M.chain ρ).sufDensity os last s ts = if (M.chain ρ).labelling s = last then 1 else 0 := by
      intro ts
      simp [CTMC.sufDensity, eq_comm]
    simp only [e]
    by_cases hl : (M.chain ρ).labelling s = last
    · simp [hl, volume_pi]
    · simp [hl]
  | succ k ih =>
    rw [timedSet_succ h hp, CTMC.integral_cons]
    by_cases hl : (M.chain ρ).labelling s = os 0
    · simp only [hl, true_and]
      rw [clocks_bind (fun i => freeSet ((M.chain ρ).matrix s) i (A 0)) (fun i => measurable_freeSet _ i (hA 0))
        (freeSet_disjoint _ (A 0))
        (fun i => M.timedSet (fun i => os i.succ) (fun i => A i.succ) last i)
        (fun i => measurable_timedSet h hp _ _ (fun j => hA j.succ) last i)]
      have e : ∀ p : ℝ × (Fin k → ℝ), ENNReal.ofReal ((M.chain ρ).sufDensity os last s (Fin.cons p.1 p.2))
          = ∑ i, ENNReal.ofReal ((M.chain ρ).rateStep s i (os 0, p.1)) *
              ENNReal.ofReal ((M.chain ρ).sufDensity (fun i => os i.succ) last i p.2) := by
        intro p
        rw [CTMC.sufDensity_cons, ENNReal.ofReal_sum_of_nonneg]
        · refine Finset.sum_congr rfl (fun i _ => ?_)
          rw [ENNReal.ofReal_mul ((M.chain ρ).rateStep_nonneg h.nonneg _ _ _)]
          rfl
        · exact fun i _ => mul_nonneg ((M.chain ρ).rateStep_nonneg h.nonneg _ _ _) ((M.chain ρ).sufDensity_nonneg h.nonneg _ _ _ _)
      simp only [e]
      rw [lintegral_finsetSum]
      · refine Finset.sum_congr rfl (fun i _ => ?_)
        rw [lintegral_prod_mul ((M.chain ρ).measurable_rateStep s i (os 0)).ennreal_ofReal.aemeasurable
          ((M.chain ρ).measurable_sufDensity _ last i).ennreal_ofReal.aemeasurable]
        rw [ih (fun i => os i.succ) (fun i => A i.succ) (fun j => hA j.succ) (fun j => hA0 j.succ) i]
        congr 1
        rw [freeSet_law _ (h.nonneg s) i (hA 0), Set.inter_eq_left.2 (hA0 0)]
        refine lintegral_congr (fun t => ?_)
        unfold CTMC.rateStep
        rw [if_pos hl]
      · intro i _
        exact (((M.chain ρ).measurable_rateStep s i (os 0)).comp measurable_fst).ennreal_ofReal.mul
          (((M.chain ρ).measurable_sufDensity _ last i).comp measurable_snd).ennreal_ofReal
    · have e : ∀ p : ℝ × (Fin k → ℝ), (M.chain ρ).sufDensity os last s (Fin.cons p.1 p.2) = 0 := by
        intro p
        rw [CTMC.sufDensity_cons]
        refine Finset.sum_eq_zero (fun i _ => ?_)
        unfold CTMC.rateStep
        simp only
        rw [if_neg hl, zero_mul]
      simp [hl, e]

/-- C94: the probability that `run(number_steps, timed=True)` returns a trace with the given observations and with its times in
the given sets is the integral over these sets of the density whose logarithm `logLikelihood` reports. What is
missing: models with an absorbing state, see `next_absorbing`. -/
theorem runTimed_law_partial (h : M.Sim ρ) (hp : ∀ s, ∃ j, 0 < (M.chain ρ).matrix s j) (h0 : ∀ x ∈ M.initialState, 0 ≤ x)
    (h1 : M.initialState.sum = 1) {k : ℕ} (os : Fin k → String) (last : String) (A : Fin k → Set ℝ)
    (hA : ∀ i, MeasurableSet (A i)) (hA0 : ∀ i, A i ⊆ Set.Ici 0) :
    simLaw M.matrix.length {p | ∃ ts, (∀ i, ts i ∈ A i) ∧
        M.runTimed k p.1 (fun k => pad (p.2 k)) = .ok (asTrace (timedTrace os ts last))}
      = ∫⁻ ts in Set.pi Set.univ A, ENNReal.ofReal ((M.chain ρ).density (timedTrace os ts last)) := by
  have hi0 : ∀ s, 0 ≤ (M.chain ρ).initialState s := fun s => run_law_partial.initial_nonneg h.wf h0 s
  have hi1 : ∑ s, (M.chain ρ).initialState s = 1 := by rw [run_law_partial.initial_sum h.wf, h1]
  have e : {p : ℝ × (ℕ → Fin M.matrix.length → ℝ) | ∃ ts, (∀ i, ts i ∈ A i) ∧
        M.runTimed k p.1 (fun k => pad (p.2 k)) = .ok (asTrace (timedTrace os ts last))}
      = {p | ∃ i : Fin M.matrix.length, pick (M.chain ρ).initialState p.1 = .ok i ∧ p.2 ∈ M.timedSet os A last i} := by
    ext p
    simp only [Set.mem_ofPred_eq, runTimed, timedSet]
    constructor
    · rintro ⟨ts, hts, hr⟩
      rw [Except.bind_eq_ok] at hr
      obtain ⟨k, hk, h2⟩ := hr
      obtain ⟨i, rfl, hi⟩ := (initial_iff h.wf _ _).1 hk
      exact ⟨i, hi, ts, hts, h2⟩
    · rintro ⟨i, hi, ts, hts, h2⟩
      refine ⟨ts, hts, ?_⟩
      rw [Except.bind_eq_ok]
      exact ⟨i, (initial_iff h.wf _ _).2 ⟨i, rfl, hi⟩, h2⟩
  have ed : ∀ ts, (M.chain ρ).density (timedTrace os ts last)
      = ∑ s, (M.chain ρ).initialState s * (M.chain ρ).sufDensity os last s ts := by
    intro ts
    rw [CTMC.timedTrace_eq]
    unfold CTMC.density
    rw [totalWeight_eq, timedSteps_timed]
    have hm : (M.chain ρ).lastMask (timed (List.ofFn (fun i => (os i, ts i))) last)
        = fun s' => if last = (M.chain ρ).labelling s' then 1 else 0 := by
      funext s'
      unfold CTMC.lastMask
      rw [observations_timed]
      simp
    rw [hm]
    rfl
  rw [e, sim_bind _ hi0 hi1.le _ (fun i => measurable_timedSet h hp os A hA last i)]
  have e3 : ∀ ts, ENNReal.ofReal ((M.chain ρ).density (timedTrace os ts last))
      = ∑ s, ENNReal.ofReal ((M.chain ρ).initialState s) * ENNReal.ofReal ((M.chain ρ).sufDensity os last s ts) := by
    intro ts
    rw [ed, ENNReal.ofReal_sum_of_nonneg]
    · exact Finset.sum_congr rfl (fun s _ => ENNReal.ofReal_mul (hi0 s))
    · exact fun s _ => mul_nonneg (hi0 s) ((M.chain ρ).sufDensity_nonneg h.nonneg _ _ _ _)
  simp only [e3]
  rw [lintegral_finsetSum]
  · refine Finset.sum_congr rfl (fun s _ => ?_)
    rw [lintegral_const_mul _ ((M.chain ρ).measurable_sufDensity os last s).ennreal_ofReal, timedLoop_law h hp os A hA hA0 last s]
  · exact fun s _ => ((M.chain ρ).measurable_sufDensity os last s).ennreal_ofReal.const_mul _

/-! ### Examples -/

theorem exSim : (exModel ℝ [("x", 1/2), ("y", 3)]).Sim (valOf [("x", 1/2), ("y", 3)]) := by
  refine ⟨exModel_wf _, exModel_full _ _, ?_, ?_⟩
  · intro p x hx
    simp only [exModel] at hx
    unfold valOf
    rw [hx]
    rfl
  · intro s j
    show 0 ≤ Expr.den _ _
    fin_cases s <;> fin_cases j <;> simp [rateExpr, exModel, Expr.den, valOf, List.lookup]

theorem exSim_leaves : ∀ s, ∃ j, 0 < ((exModel ℝ [("x", 1/2), ("y", 3)]).chain (valOf [("x", 1/2), ("y", 3)])).matrix s j := by
  intro s
  fin_cases s
  · refine ⟨⟨1, by simp [exModel]⟩, ?_⟩
    simp [chain, rateExpr, exModel, Expr.den, valOf, List.lookup]
  · refine ⟨⟨0, by simp [exModel]⟩, ?_⟩
    simp [chain, rateExpr, exModel, Expr.den, valOf, List.lookup]
  · refine ⟨⟨0, by simp [exModel]⟩, ?_⟩
    simp [chain, rateExpr, exModel, Expr.den, valOf, List.lookup]

/-- Non-vacuity of `next_law`, `run_law_partial` and `runTimed_law_partial`: the example meets their hypotheses. -/
example : (exModel ℝ [("x", 1/2), ("y", 3)]).Sim (valOf [("x", 1/2), ("y", 3)]) ∧
    (∀ s, ∃ j, 0 < ((exModel ℝ [("x", 1/2), ("y", 3)]).chain (valOf [("x", 1/2), ("y", 3)])).matrix s j) ∧
    (∀ x ∈ (exModel ℝ [("x", 1/2), ("y", 3)]).initialState, 0 ≤ x) ∧ (exModel ℝ [("x", 1/2), ("y", 3)]).initialState.sum = 1 :=
  ⟨exSim, exSim_leaves, by simp [exModel], by simp [exModel]⟩

/-- A run of the example: the steps last 1/1 * 2, 1/1 * 3 and 1/9 * 4. -/
example : (exModel ℚ [("x", 1/2), ("y", 3)]).runTimed 3 (1/2) (fun k _ => k + 2)
    = .ok [.inl "init", .inr ((2 : ℚ) : WithTop ℚ), .inl "a", .inr ((3 : ℚ) : WithTop ℚ), .inl "b", .inr ((4/9 : ℚ) : WithTop ℚ),
        .inl "a"] := by decide +kernel

/-- Non-vacuity of `next_absorbing`: with x = 0 the state a is absorbing, and a run that enters it goes on for ever. -/
example : (exModel ℚ [("x", 0), ("y", 3)]).runTimed 3 (1/2) (fun k _ => k + 2)
    = .ok [.inl "init", .inr ((2 : ℚ) : WithTop ℚ), .inl "a", .inr ⊤, .inl "a", .inr ⊤, .inl "a"] := by decide +kernel

end PCTMC
end Jajapy
