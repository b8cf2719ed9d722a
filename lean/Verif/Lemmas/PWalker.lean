import Verif.Lemmas.Walker
import Verif.Props.PCTMCEval

set_option linter.unusedSectionVars false

/-!
Helper lemmas: the simulator of parametric CTMCs, step by step.
-/

namespace Jajapy

open MeasureTheory ProbabilityTheory Spec Filter Topology Tools BW

theorem measurable_ring {n : ℕ} (r : Fin n → ℝ) (nx : (Fin n → ℝ) → Fin n) (hn : Measurable nx) : Measurable (fun d : Fin n → ℝ => 1 / r (nx d) * d (nx d)) := by
  have hq : Measurable (fun q : Fin n × (Fin n → ℝ) => 1 / r q.1 * q.2 q.1) := by
    refine measurable_from_prod_countable_right (fun i => ?_)
    show Measurable (fun y : Fin n → ℝ => 1 / r i * y i)
    exact (measurable_pi_apply i).const_mul _
  exact hq.comp (hn.prodMk measurable_id)

namespace PCTMC

variable {M : PCTMC ℝ} {ρ : String → ℝ}

/-- The state after the step. -/
noncomputable def nextState (M : PCTMC ℝ) (s : Fin M.matrix.length) (d : Fin M.matrix.length → ℝ) : Fin M.matrix.length :=
  match M.next s (pad d) with
  | .ok (_, j, _) => if h : j < M.matrix.length then ⟨j, h⟩ else s
  | .error _ => s

/-- The time spent. -/
noncomputable def stepTime (M : PCTMC ℝ) (ρ : String → ℝ) (s : Fin M.matrix.length) (d : Fin M.matrix.length → ℝ) : ℝ :=
  1 / (M.chain ρ).matrix s (M.nextState s d) * d (M.nextState s d)

theorem next_eq (h : M.Sim ρ) (s : Fin M.matrix.length) (hp : ∃ j, 0 < (M.chain ρ).matrix s j) (d : Fin M.matrix.length → ℝ) :
    M.next s (pad d) = .ok (M.labelling.getD s "", (M.nextState s d : ℕ), ((M.stepTime ρ s d : ℝ) : WithTop ℝ)) ∧
    d ∈ freeSet ((M.chain ρ).matrix s) (M.nextState s d) Set.univ := by
  obtain ⟨i, h1, h2, h3, h4⟩ := M.next_spec h.wf h.full ρ h.ext s (h.nonneg s) hp (pad d)
  have e : M.nextState s d = i := by
    unfold nextState
    rw [h1]
    simp only [i.2, dif_pos]
  simp only [pad_fin] at h1 h3 h4
  unfold stepTime
  rw [e]
  exact ⟨h1, h2, trivial, h3, h4⟩

theorem nextState_iff (h : M.Sim ρ) (s i : Fin M.matrix.length) (hp : ∃ j, 0 < (M.chain ρ).matrix s j) (d : Fin M.matrix.length → ℝ) :
    M.nextState s d = i ↔ d ∈ freeSet ((M.chain ρ).matrix s) i Set.univ :=
  ⟨fun e => e ▸ (next_eq h s hp d).2, fun hd => freeSet_unique (next_eq h s hp d).2 hd⟩

theorem measurable_nextState (h : M.Sim ρ) (s : Fin M.matrix.length) (hp : ∃ j, 0 < (M.chain ρ).matrix s j) : Measurable (M.nextState s) := by
  refine measurable_to_countable' (fun i => ?_)
  have : M.nextState s ⁻¹' {i} = freeSet ((M.chain ρ).matrix s) i Set.univ := by
    ext d; simp only [Set.mem_preimage, Set.mem_singleton_iff, nextState_iff h s i hp]
  rw [this]
  exact measurable_freeSet _ i MeasurableSet.univ

theorem measurable_stepTime (h : M.Sim ρ) (s : Fin M.matrix.length) (hp : ∃ j, 0 < (M.chain ρ).matrix s j) : Measurable (M.stepTime ρ s) := by
  exact measurable_ring ((M.chain ρ).matrix s) (M.nextState s) (measurable_nextState h s hp)

theorem stepTime_law (h : M.Sim ρ) (s : Fin M.matrix.length) (hp : ∃ j, 0 < (M.chain ρ).matrix s j) (t : ℝ) (ht : 0 ≤ t) :
    stepLaw M.matrix.length {d | t < M.stepTime ρ s d} = ENNReal.ofReal (Real.exp (-((M.chain ρ).e s) * t)) := by
  rw [← time_law h s hp t ht]
  congr 1
  ext d
  simp only [Set.mem_ofPred_eq, (next_eq h s hp d).1]
  constructor
  · intro hlt
    exact ⟨_, _, _, rfl, WithTop.coe_lt_coe.2 hlt⟩
  · rintro ⟨o, j, u, e, hlt⟩
    injection e with e
    injection e with e1 e2
    injection e2 with e2 e3
    rw [← e3] at hlt
    exact WithTop.coe_lt_coe.1 hlt

theorem stepTime_pos (h : M.Sim ρ) (s : Fin M.matrix.length) (hp : ∃ j, 0 < (M.chain ρ).matrix s j) :
    ∀ᵐ d ∂stepLaw M.matrix.length, 0 < M.stepTime ρ s d := by
  refine (mem_ae_iff_prob_eq_one ((measurable_stepTime h s hp) measurableSet_Ioi)).2 ?_
  have := stepTime_law h s hp 0 le_rfl
  rw [mul_zero, Real.exp_zero, ENNReal.ofReal_one] at this
  exact this

theorem stepTime_mean (h : M.Sim ρ) (s : Fin M.matrix.length) (hp : ∃ j, 0 < (M.chain ρ).matrix s j) :
    ∫⁻ d, ENNReal.ofReal (M.stepTime ρ s d) ∂stepLaw M.matrix.length = ENNReal.ofReal (1 / (M.chain ρ).e s) := by
  have hR : 0 < (M.chain ρ).e s := by
    obtain ⟨j, hj⟩ := hp
    exact (M.chain ρ).exitRate_pos h.nonneg s j hj
  have hnn : 0 ≤ᵐ[stepLaw M.matrix.length] M.stepTime ρ s := by
    filter_upwards [stepTime_pos h s hp] with d hd using hd.le
  rw [lintegral_eq_lintegral_meas_lt _ hnn (measurable_stepTime h s hp).aemeasurable]
  have e2 : ∫⁻ t in Set.Ioi 0, stepLaw M.matrix.length {d | t < M.stepTime ρ s d}
      = ∫⁻ t in Set.Ioi 0, ENNReal.ofReal (1 * Real.exp (-((M.chain ρ).e s) * t)) := by
    refine setLIntegral_congr_fun measurableSet_Ioi (fun t ht => ?_)
    simp only [one_mul]
    exact stepTime_law h s hp t (le_of_lt ht)
  rw [e2, setLIntegral_congr Ioi_ae_eq_Ici, integral_race_top zero_le_one hR]
  simp

/-- The simulator. -/
noncomputable def walker (M : PCTMC ℝ) (ρ : String → ℝ) (h : M.Live ρ) : Walker M.matrix.length where
  nx := M.nextState
  tm := M.stepTime ρ
  init := (M.chain ρ).initialState
  rate := (M.chain ρ).matrix
  mnx := fun s => measurable_nextState h.toSim s (h.leaves s)
  mtm := fun s => measurable_stepTime h.toSim s (h.leaves s)
  init_nonneg := fun s => run_law_partial.initial_nonneg h.wf h.init_nonneg s
  init_sum := by rw [run_law_partial.initial_sum h.wf, h.init_sum]
  rate_nonneg := h.nonneg
  good := by
    rw [ae_all_iff]
    intro c
    filter_upwards [stepTime_pos h.toSim c (h.leaves c)] with d hd
    exact ⟨(next_eq h.toSim c (h.leaves c) d).2.1, hd.le⟩
  law := fun s i => by
    have hR : 0 < (M.chain ρ).e s := by
      obtain ⟨j, hj⟩ := h.leaves s
      exact (M.chain ρ).exitRate_pos h.nonneg s j hj
    rw [stepTime_mean h.toSim s (h.leaves s), ← ENNReal.ofReal_mul (h.nonneg s i), mul_one_div]
    refine Eq.trans ?_ (freeSet_univ _ (h.nonneg s) (h.leaves s) i)
    congr 1
    ext d
    exact nextState_iff h.toSim s i (h.leaves s) d
  time_fin := fun s => by
    rw [stepTime_mean h.toSim s (h.leaves s)]
    exact ENNReal.ofReal_ne_top
  time_pos := fun s => by
    have hR : 0 < (M.chain ρ).e s := by
      obtain ⟨j, hj⟩ := h.leaves s
      exact (M.chain ρ).exitRate_pos h.nonneg s j hj
    rw [stepTime_mean h.toSim s (h.leaves s)]
    exact ENNReal.ofReal_pos.2 (by positivity)

theorem runTimedLoop_path (h : M.Live ρ) (k : ℕ) (d : ℕ → Fin M.matrix.length → ℝ) (c : Fin M.matrix.length) :
    M.runTimedLoop k (fun k => pad (d k)) c = .ok (asTrace (timed (((M.walker ρ h).pathFrom k d c).map (showStep (M.chain ρ).labelling))
      ((M.chain ρ).labelling ((M.walker ρ h).lastFrom k d c)))) := by
  induction k generalizing d c with
  | zero => rfl
  | succ k ih =>
    have e := (next_eq h.toSim c (h.leaves c) (d 0)).1
    have ih' := ih (fun j => d (j+1)) (M.nextState c (d 0))
    simp only [runTimedLoop, e, Bind.bind, Except.bind, ih', Walker.pathFrom, Walker.lastFrom, List.map_cons, timed]
    rfl

theorem runTimed_path (h : M.Live ρ) (k : ℕ) (p : ℝ × (ℕ → Fin M.matrix.length → ℝ)) (c : Fin M.matrix.length) (hc : pick (M.chain ρ).initialState p.1 = .ok c) :
    M.runTimed k p.1 (fun k => pad (p.2 k)) = .ok (asTrace (timed (((M.walker ρ h).pathFrom k p.2 c).map (showStep (M.chain ρ).labelling))
      ((M.chain ρ).labelling ((M.walker ρ h).lastFrom k p.2 c)))) := by
  unfold runTimed
  have : resolveRandom M.initialState p.1 = .ok (c : ℕ) := (initial_iff (ρ := ρ) h.wf p.1 c).2 ⟨c, rfl, hc⟩
  rw [this]
  exact runTimedLoop_path h k p.2 c

theorem path_eq (h : M.Live ρ) (k : ℕ) (c s : Fin M.matrix.length) : (M.walker ρ h).Path k c s ↔ (M.chain ρ).Walk k c s := by
  induction k generalizing c with
  | zero => exact Iff.rfl
  | succ k ih => exact exists_congr (fun c' => and_congr_right (fun _ => ih c'))

/-- `generateSet(N, steps, timed=True)`: the traces, and the averages of the times and of the jumps. -/
theorem generated_averages (h : M.Live ρ) (hinj : Function.Injective (M.chain ρ).labelling) (kind : String ⊕ WithTop ℝ → Kind) (steps : ℕ) (hs : 1 ≤ steps)
    (geom : ℕ → ℕ) :
    ∀ᵐ D ∂callsLaw (simLaw M.matrix.length), ∃ S : ℕ → TSet (Sym String),
      (∀ N, generateSet kind (fun j k => M.runTimed k (D j).1 (fun k => pad ((D j).2 k))) N false none (.int steps) geom = .ok (S N).asTraces) ∧
      (∀ N, (S N).Countable ∧ CTMC.TimedSet (S N) ∧ WaitsNonneg (S N) ∧ (1 ≤ N → (S N).sequences ≠ []) ∧
        ∀ H : CTMC ℝ String M.matrix.length, H.labelling = (M.chain ρ).labelling → (∀ s, 0 < (M.chain ρ).initialState s → H.initialState s ≠ 0) →
          (∀ s s', 0 < (M.chain ρ).matrix s s' → H.matrix s s' ≠ 0) → ∀ w ∈ (S N).sequences, H.density w ≠ 0) ∧
      ∀ s, Tendsto (fun N : ℕ => totalTime (S N) ((M.chain ρ).labelling s) / N) atTop (𝓝 ((M.walker ρ h).meanTime steps s)) ∧
        ∀ s', Tendsto (fun N : ℕ => (jumpCount (S N) ((M.chain ρ).labelling s) ((M.chain ρ).labelling s') : ℝ) / N) atTop
          (𝓝 ((M.chain ρ).matrix s s' * (M.walker ρ h).meanTime steps s)) := by
  filter_upwards [calls_ae (simLaw M.matrix.length) _ (M.walker ρ h).good_draws, (M.walker ρ h).averages steps] with D hD hlim
  choose c hc using fun j => (hD j).1
  have hgood := fun j => (hD j).2
  set W := M.walker ρ h with hW
  set lab := (M.chain ρ).labelling with hlab
  set tr : ℕ → List (Sym String) := fun j => timed ((W.pathFrom steps (D j).2 (c j)).map (showStep lab)) (lab (W.lastFrom steps (D j).2 (c j))) with htr
  have hrun : ∀ j, M.runTimed steps (D j).1 (fun k => pad ((D j).2 k)) = .ok (asTrace (tr j)) := fun j => runTimed_path h steps (D j) (c j) (hc j).1
  have hlen : ∀ j, (tr j).length = 2 * steps + 1 := by
    intro j
    rw [htr]
    simp only [timed_length, List.length_map, Walker.pathFrom_length]
  have := fun N => generateSet_spec kind (fun j k => M.runTimed k (D j).1 (fun k => pad ((D j).2 k))) N false none (.int steps) geom (fun _ => steps)
    (fun j => asTrace (tr j)) (fun _ _ => rfl) (fun j _ => hrun j) (fun j _ => by rw [asTrace, List.length_map, hlen]; omega)
  choose S0 hS0 using this
  have hread := fun N => (S0 N).exists_read (fun w hw => by
    obtain ⟨j, -, hj⟩ := ((hS0 N).2.2.2.1 w).1 hw
    exact ⟨_, hj⟩)
  choose S hS using hread
  have h1 : ∀ N, generateSet kind (fun j k => M.runTimed k (D j).1 (fun k => pad ((D j).2 k))) N false none (.int steps) geom = .ok (S N).asTraces :=
    fun N => by rw [← hS N]; exact (hS0 N).1
  have h2 : ∀ N, (S N).Countable := fun N => (TSet.asTraces_countable _).1 (by rw [← hS N]; exact (hS0 N).2.1)
  have h4 : ∀ N w, w ∈ (S N).sequences ↔ ∃ j < N, tr j = w := fun N w => by
    rw [← TSet.asTraces_mem, ← hS N, (hS0 N).2.2.2.1]
    exact exists_congr (fun j => and_congr Iff.rfl asTrace_injective.eq_iff)
  have h5 : ∀ N w, (S N).mult w = ((List.range N).map tr).count w := fun N w => by
    rw [← TSet.asTraces_mult, ← hS N, (hS0 N).2.2.2.2]
    rw [show (fun j => asTrace (tr j)) = asTrace ∘ tr from rfl, ← List.map_map]
    exact count_map_injective _ asTrace_injective _ _
  have hmem : ∀ N, ∀ w ∈ (S N).sequences, ∃ j, tr j = w := fun N w hw => by
    obtain ⟨j, -, h⟩ := (h4 N w).1 hw
    exact ⟨j, h⟩
  refine ⟨S, h1, fun N => ⟨h2 N, ?_, ?_, fun hN h0 => ?_, ?_⟩, fun s => ⟨?_, fun s' => ?_⟩⟩
  · intro w hw
    obtain ⟨j, rfl⟩ := hmem N w hw
    exact ⟨isTimed_timed _ _, by rw [hlen]; omega⟩
  · intro w hw
    obtain ⟨j, rfl⟩ := hmem N w hw
    intro p hp
    rw [htr] at hp
    simp only [timedSteps_timed, List.mem_map] at hp
    obtain ⟨q, hq, rfl⟩ := hp
    have hg := W.moves_good steps (D j).2 (c j) (hgood j)
    have : ∀ (ps : List (Fin M.matrix.length × ℝ)) (last : Fin M.matrix.length), q ∈ ps → ∃ m ∈ movesOf ps last, m.1 = q := by
      intro ps last h
      induction ps with
      | nil => simp at h
      | cons p ps ih =>
        rcases List.mem_cons.1 h with rfl | h
        · exact ⟨_, List.mem_cons_self, rfl⟩
        · obtain ⟨m, hm, e⟩ := ih h
          exact ⟨m, List.mem_cons_of_mem _ hm, e⟩
    obtain ⟨m, hm, rfl⟩ := this _ (W.lastFrom steps (D j).2 (c j)) hq
    exact (hg m hm).2
  · have : tr 0 ∈ (S N).sequences := (h4 N _).2 ⟨0, hN, rfl⟩
    rw [h0] at this
    exact absurd this List.not_mem_nil
  · intro H hl hi hm w hw
    obtain ⟨j, rfl⟩ := hmem N w hw
    rw [htr]
    simp only
    rw [← hl, H.density_path (by rw [hl]; exact hinj), W.firstOf_path]
    refine mul_ne_zero (hi _ (hc j).2) ((along_ne_zero _ _ _).2 (fun m hm' => ?_))
    exact mul_ne_zero (hm _ _ (W.moves_good steps _ _ (hgood j) m hm').1) (Real.exp_pos _).ne'
  · refine (hlim s).1.congr (fun N => ?_)
    congr 1
    unfold totalTime
    have e := TSet.sum_zip_eq (S N) (h2 N).1.1 (fun w => ((timedSteps w).map (fun q => if q.1 = lab s then q.2 else 0)).sum)
      (S N).sequences.toFinset (fun w hw => List.mem_toFinset.2 hw)
    rw [(S N).sum_traces tr N (h2 N).1.1 (h4 N) (h5 N)] at e
    refine Eq.trans (Finset.sum_congr rfl (fun j _ => ?_)) e.symm
    rw [W.simTotal_eq _ steps (D j) (c j) (hc j).1, W.total_time lab hinj s steps _ _ (fun m hm => (W.moves_good steps _ _ (hgood j) m hm).2)]
  · refine ((hlim s).2 s').congr (fun N => ?_)
    congr 1
    unfold jumpCount
    rw [Nat.cast_list_sum, List.map_map]
    have e := TSet.sum_zip_eq (S N) (h2 N).1.1 (fun w => (((observations w).zip (observations w).tail).count (lab s, lab s') : ℕ))
      (S N).sequences.toFinset (fun w hw => List.mem_toFinset.2 hw)
    rw [(S N).sum_traces tr N (h2 N).1.1 (h4 N) (h5 N)] at e
    refine Eq.trans ?_ (e.symm.trans ?_)
    · refine Finset.sum_congr rfl (fun j _ => ?_)
      rw [W.simTotal_eq _ steps (D j) (c j) (hc j).1, W.total_jump lab hinj s s' steps _ _]
    · congr 1
      refine List.map_congr_left (fun p _ => ?_)
      simp

end PCTMC
end Jajapy
