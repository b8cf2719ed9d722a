import Verif.Lemmas.OneStream
import Verif.Props.Simulation
import Verif.Spec.Models

/-!
Property C84: the law of the sets returned by `generateSet`, for Markov chains and hidden Markov models.
-/

set_option linter.unusedSectionVars false

namespace Jajapy

open MeasureTheory ProbabilityTheory Spec Filter Topology Tools

section sizes
variable {O : Type} [DecidableEq O]

theorem generateLoop_sizes (sim : ℕ → ℕ → Py (List O)) (size : ℕ → Py ℕ) (sz : ℕ → ℕ) (hsz : ∀ j, size j = .ok (sz j))
    (record : List (List O) × List ℕ → List O → List (List O) × List ℕ) (k i : ℕ) (acc : List (List O) × List ℕ) :
    generateLoop sim size record k i acc
      = generateLoop (fun j _ => sim j (sz j)) (currSize false none (.int 0) (fun _ => 0)) record k i acc := by
  induction k generalizing i acc with
  | zero => rfl
  | succ k ih =>
    simp only [generateLoop, hsz, currSize, Bind.bind, Except.bind, Bool.false_eq_true, if_false]
    cases sim i (sz i) with
    | error e => rfl
    | ok t => exact ih (i+1) _

/-- `generateSet` with the traces of given sizes. -/
def gen (kind : O → Kind) (s : ℕ → Py (List O)) (N : ℕ) : Py (TSet O) :=
  generateSet kind (fun j _ => s j) N false none (.int 0) (fun _ => 0)

theorem gen_eq (kind : O → Kind) (sim : ℕ → ℕ → Py (List O)) (N : ℕ) (geo : Bool) (minSize : Option ℕ) (param : SizeParam)
    (geom sz : ℕ → ℕ) (hsz : ∀ j, currSize geo minSize param geom j = .ok (sz j)) :
    generateSet kind sim N geo minSize param geom = gen kind (fun j => sim j (sz j)) N := by
  unfold gen generateSet
  rw [generateLoop_sizes sim _ sz hsz]

theorem gen_counts (kind : O → Kind) (W : Set (List O)) (hW : ∀ w ∈ W, 2 ≤ w.length) : CountsTraces (gen kind) W := by
  intro s tr N hs htr
  exact generateSet_spec kind (fun j _ => s j) N false none (.int 0) (fun _ => 0) (fun _ => 0) tr (fun _ _ => rfl)
    (fun j _ => hs j) (fun j _ => hW _ (htr j))

theorem countable_lists {A : Set O} (hA : A.Countable) : {w : List O | ∀ o ∈ w, o ∈ A}.Countable := by
  have := hA.to_subtype
  have : {w : List O | ∀ o ∈ w, o ∈ A} = Set.range (List.map ((↑) : A → O)) := by
    rw [Set.range_list_map_coe]
  rw [this]
  exact Set.countable_range _

end sizes

variable {L : Type} [DecidableEq L] {n : ℕ}

namespace MC

theorem runLoop_shape (M : MC ℝ L n) (steps : ℕ) (d : ℕ → ℝ) (s : Fin n) (w : List L) (h : M.runLoop steps d s = .ok w) :
    w.length = steps + 1 ∧ ∀ o ∈ w, o ∈ Set.range M.labelling := by
  induction steps generalizing d s w with
  | zero =>
    simp only [runLoop] at h
    injection h with h
    subst h
    simp
  | succ steps ih =>
    simp only [runLoop] at h
    obtain ⟨⟨c, l⟩, h1, h2⟩ := (Except.bind_eq_ok _ _ _).1 h
    obtain ⟨rest, h5, h3⟩ := (Except.bind_eq_ok _ _ _).1 h2
    simp only [next] at h1
    obtain ⟨c', h6, h4⟩ := (Except.bind_eq_ok _ _ _).1 h1
    cases h4
    cases h3
    obtain ⟨i1, i2⟩ := ih _ _ _ h5
    refine ⟨by simp [i1], fun o ho => ?_⟩
    rcases List.mem_cons.1 ho with rfl | ho
    · exact ⟨s, rfl⟩
    · exact i2 o ho

theorem run_shape (M : MC ℝ L n) (steps : ℕ) (d : ℕ → ℝ) (w : List L) (h : M.run steps d = .ok w) :
    w.length = steps + 1 ∧ ∀ o ∈ w, o ∈ Set.range M.labelling := by
  obtain ⟨c, _, h2⟩ := (Except.bind_eq_ok _ _ _).1 h
  exact M.runLoop_shape steps _ c w h2

theorem runLoop_reads (M : MC ℝ L n) (steps : ℕ) (d d' : ℕ → ℝ) (h : ∀ i < steps, d i = d' i) (s : Fin n) :
    M.runLoop steps d s = M.runLoop steps d' s := by
  induction steps generalizing d d' s with
  | zero => rfl
  | succ steps ih =>
    simp only [runLoop, h 0 (by omega)]
    congr 1
    funext ns
    rw [ih _ (fun k => d' (k+1)) (fun i hi => h (i+1) (by omega))]

theorem run_reads (M : MC ℝ L n) (steps : ℕ) : Reads (M.run steps) (steps + 1) := by
  intro d d' h
  simp only [run, h 0 (by omega)]
  congr 1
  funext c
  exact M.runLoop_reads steps _ _ (fun i hi => h (i+1) (by omega)) c

theorem measurable_run (M : MC ℝ L n) (steps : ℕ) (w : List L) : MeasurableSet {d | M.run steps d = .ok w} := by
  have e : {d : ℕ → ℝ | M.run steps d = .ok w}
      = {d : ℕ → ℝ | ∃ i, pick M.initialState (d 0) = .ok i ∧ (fun k => d (k+1)) ∈ {d | M.runLoop steps d i = .ok w}} := by
    ext d
    simp only [Set.mem_ofPred_eq, run]
    rw [Except.bind_eq_ok]
  rw [e]
  exact measurable_bind _ _ (fun i => M.measurable_runLoop steps i _)

theorem simulates (M : MC ℝ L n) (hM : M.Stochastic) (steps : ℕ) :
    Simulates drawsLaw (M.run steps) {w | w.length = steps + 1 ∧ ∀ o ∈ w, o ∈ Set.range M.labelling} where
  countable := (countable_lists (Set.countable_range M.labelling)).mono (fun _ hw => hw.2)
  mem := fun d w h => M.run_shape steps d w h
  meas := fun w => M.measurable_run steps w
  total := by
    rw [measure_congr (eventuallyEq_univ.2 (show {d | ∃ w, M.run steps d = .ok w} ∈ ae drawsLaw from ?_)), measure_univ]
    filter_upwards [draws_in_range] with d hd
    exact M.run_total hM.1 hM.2.1 hM.2.2.1 hM.2.2.2 steps d hd

theorem seqProb_nonneg_gen (M : MC ℝ L n) (hM : M.Stochastic) (w : List L) (p : ℝ) (h : M.iface.seqProb w = .ok p) (hw : w ≠ []) : 0 ≤ p := by
  rw [M.seqProb_eq_paths _ hw] at h
  injection h with h
  rw [← h]
  cases w with
  | nil => exact absurd rfl hw
  | cons o os =>
    rw [listProb_eq_sufProb]
    exact Finset.sum_nonneg (fun i _ => mul_nonneg (hM.1 i) (sufProb_nonneg _ _ hM.2.2.1 (fun _ _ => by split_ifs <;> norm_num) _ _))

/-- C84, MC: the calls of `run` made by `generateSet(set_size, number_steps)` read one sequence of independent uniform numbers,
`number_steps+1` each. The number of copies of a trace in the set has the binomial law of parameters `set_size` and the likelihood
of the trace. -/
theorem generateSet_binomial (M : MC ℝ L n) (hM : M.Stochastic) (kind : L → Kind) (steps : ℕ) (hs : 1 ≤ steps) (geom : ℕ → ℕ)
    (w : List L) (hw : w.length = steps + 1) :
    ∃ p, M.iface.seqProb w = .ok p ∧ ∀ N m : ℕ,
      drawsLaw {d | ∃ S, generateSet kind (fun j k => M.run k (fun i => d (j * (steps + 1) + i))) N false none (.int steps) geom = .ok S ∧
        S.mult w = m} = ENNReal.ofReal (N.choose m * (p ^ m * (1 - p) ^ (N - m))) := by
  obtain ⟨p, hp, hl⟩ := M.run_law hM.1 hM.2.1 hM.2.2.1 hM.2.2.2 steps w hw
  refine ⟨p, hp, fun N m => ?_⟩
  have h := (M.simulates hM steps).binomial_stream (gen_counts kind _ (fun w hw => by have := hw.1; omega)) (Nat.succ_pos _)
    (M.run_reads steps) w p (M.seqProb_nonneg_gen hM w p hp (by rintro rfl; simp at hw)) hl N m
  simp only [gen_eq kind _ N false none (.int steps) geom (fun _ => steps) (fun _ => rfl)]
  exact h

/-- C84, MC: as `set_size` grows the proportion of every trace in the set tends to its likelihood, almost surely. -/
theorem generateSet_frequencies (M : MC ℝ L n) (hM : M.Stochastic) (kind : L → Kind) (steps : ℕ) (hs : 1 ≤ steps) (geom : ℕ → ℕ) :
    ∀ᵐ d ∂drawsLaw, ∃ S : ℕ → TSet L,
      (∀ N, generateSet kind (fun j k => M.run k (fun i => d (j * (steps + 1) + i))) N false none (.int steps) geom = .ok (S N) ∧
        (S N).Countable ∧ (S N).times.sum = N ∧ ∀ w ∈ (S N).sequences, w.length = steps + 1) ∧
      ∀ w : List L, w.length = steps + 1 →
        ∃ p, M.iface.seqProb w = .ok p ∧ Tendsto (fun N : ℕ => ((S N).mult w : ℝ) / N) atTop (𝓝 p) := by
  have h := (M.simulates hM steps).frequencies_stream (gen_counts kind _ (fun w hw => by have := hw.1; omega)) (Nat.succ_pos _)
    (M.run_reads steps)
  filter_upwards [h] with d hd
  obtain ⟨S, h1, h2⟩ := hd
  refine ⟨S, fun N => ?_, fun w hw => ?_⟩
  · rw [gen_eq kind _ N false none (.int steps) geom (fun _ => steps) (fun _ => rfl)]
    exact ⟨(h1 N).1, (h1 N).2.1, (h1 N).2.2.1, fun w hw => ((h1 N).2.2.2 w hw).1⟩
  · obtain ⟨p, hp, hl⟩ := M.run_law hM.1 hM.2.1 hM.2.2.1 hM.2.2.2 steps w hw
    refine ⟨p, hp, ?_⟩
    have := h2 w
    rwa [hl, ENNReal.toReal_ofReal (M.seqProb_nonneg_gen hM w p hp (by rintro rfl; simp at hw))] at this

end MC

namespace HMM

theorem runLoop_shape (M : HMM ℝ L n) (steps : ℕ) (d : ℕ → ℝ) (s : Fin n) (w : List L) (h : M.runLoop steps d s = .ok w) :
    w.length = steps ∧ ∀ o ∈ w, o ∈ M.alphabet := by
  induction steps generalizing d s w with
  | zero =>
    simp only [runLoop] at h
    injection h with h
    subst h
    simp
  | succ steps ih =>
    simp only [runLoop] at h
    obtain ⟨⟨c, l⟩, h1, h2⟩ := (Except.bind_eq_ok _ _ _).1 h
    obtain ⟨rest, h5, h3⟩ := (Except.bind_eq_ok _ _ _).1 h2
    simp only [next, nextObs] at h1
    obtain ⟨c', h6, h4⟩ := (Except.bind_eq_ok _ _ _).1 h1
    obtain ⟨o', h7, h8⟩ := (Except.bind_eq_ok _ _ _).1 h4
    obtain ⟨j, h9, h10⟩ := (Except.bind_eq_ok _ _ _).1 h7
    cases h10
    cases h8
    cases h3
    obtain ⟨i1, i2⟩ := ih _ _ _ h5
    refine ⟨by simp [i1], fun o ho => ?_⟩
    rcases List.mem_cons.1 ho with rfl | ho
    · exact List.getElem_mem _
    · exact i2 o ho

theorem run_shape (M : HMM ℝ L n) (steps : ℕ) (d : ℕ → ℝ) (w : List L) (h : M.run steps d = .ok w) :
    w.length = steps ∧ ∀ o ∈ w, o ∈ M.alphabet := by
  obtain ⟨c, _, h2⟩ := (Except.bind_eq_ok _ _ _).1 h
  exact M.runLoop_shape steps _ c w h2

theorem runLoop_reads (M : HMM ℝ L n) (steps : ℕ) (d d' : ℕ → ℝ) (h : ∀ i < 2 * steps, d i = d' i) (s : Fin n) :
    M.runLoop steps d s = M.runLoop steps d' s := by
  induction steps generalizing d d' s with
  | zero => rfl
  | succ steps ih =>
    simp only [runLoop, h 0 (by omega), h 1 (by omega)]
    congr 1
    funext ns
    rw [ih _ (fun k => d' (k+2)) (fun i hi => h (i+2) (by omega))]

theorem run_reads (M : HMM ℝ L n) (steps : ℕ) : Reads (M.run steps) (2 * steps + 1) := by
  intro d d' h
  simp only [run, h 0 (by omega)]
  congr 1
  funext c
  exact M.runLoop_reads steps _ _ (fun i hi => h (i+1) (by omega)) c

theorem measurable_run (M : HMM ℝ L n) (hn : M.alphabet.Nodup) (steps : ℕ) (w : List L) :
    MeasurableSet {d | M.run steps d = .ok w} := by
  have e : {d : ℕ → ℝ | M.run steps d = .ok w}
      = {d : ℕ → ℝ | ∃ i, pick M.initialState (d 0) = .ok i ∧ (fun k => d (k+1)) ∈ {d | M.runLoop steps d i = .ok w}} := by
    ext d
    simp only [Set.mem_ofPred_eq, run]
    rw [Except.bind_eq_ok]
  rw [e]
  exact measurable_bind _ _ (fun i => M.measurable_runLoop hn steps i _)

theorem simulates (M : HMM ℝ L n) (hn : M.alphabet.Nodup) (hM : M.Stochastic) (steps : ℕ) :
    Simulates drawsLaw (M.run steps) {w | w.length = steps ∧ ∀ o ∈ w, o ∈ M.alphabet} where
  countable := (countable_lists (A := {o | o ∈ M.alphabet}) (List.finite_toSet _).countable).mono (fun _ hw => hw.2)
  mem := fun d w h => M.run_shape steps d w h
  meas := fun w => M.measurable_run hn steps w
  total := by
    rw [measure_congr (eventuallyEq_univ.2 (show {d | ∃ w, M.run steps d = .ok w} ∈ ae drawsLaw from ?_)), measure_univ]
    filter_upwards [draws_in_range] with d hd
    exact M.run_total hM.1 hM.2.1 hM.2.2.1 hM.2.2.2.1 hM.2.2.2.2.1 hM.2.2.2.2.2 steps d hd

theorem seqProb_nonneg_gen (M : HMM ℝ L n) (hM : M.Stochastic) (w : List L) (p : ℝ) (h : M.iface.seqProb w = .ok p) (hw : w ≠ []) : 0 ≤ p := by
  rw [M.seqProb_eq_paths _ hw] at h
  injection h with h
  rw [← h]
  cases w with
  | nil => exact absurd rfl hw
  | cons o os =>
    rw [listProb_eq_sufProb]
    exact Finset.sum_nonneg (fun i _ => mul_nonneg (hM.1 i) (sufProb_nonneg _ _ hM.2.2.1 (M.b_nonneg hM.2.2.2.2.1) _ _))

/-- C84, HMM: the same with traces of `number_steps` letters; each call of `run` reads `2*number_steps+1` numbers. -/
theorem generateSet_binomial (M : HMM ℝ L n) (hn : M.alphabet.Nodup) (hM : M.Stochastic) (kind : L → Kind) (steps : ℕ)
    (hs : 2 ≤ steps) (geom : ℕ → ℕ) (w : List L) (hw : w.length = steps) :
    ∃ p, M.iface.seqProb w = .ok p ∧ ∀ N m : ℕ,
      drawsLaw {d | ∃ S, generateSet kind (fun j k => M.run k (fun i => d (j * (2 * steps + 1) + i))) N false none (.int steps) geom
        = .ok S ∧ S.mult w = m} = ENNReal.ofReal (N.choose m * (p ^ m * (1 - p) ^ (N - m))) := by
  obtain ⟨p, hp, hl⟩ := M.run_law hn hM.1 hM.2.1 hM.2.2.1 hM.2.2.2.1 hM.2.2.2.2.1 hM.2.2.2.2.2 steps (by omega) w hw
  refine ⟨p, hp, fun N m => ?_⟩
  have h := (M.simulates hn hM steps).binomial_stream (gen_counts kind _ (fun w hw => by have := hw.1; omega)) (Nat.succ_pos _)
    (M.run_reads steps) w p (M.seqProb_nonneg_gen hM w p hp (by rintro rfl; simp at hw; omega)) hl N m
  simp only [gen_eq kind _ N false none (.int steps) geom (fun _ => steps) (fun _ => rfl)]
  exact h

/-- C84, HMM: the proportion of every trace tends to its likelihood, almost surely. -/
theorem generateSet_frequencies (M : HMM ℝ L n) (hn : M.alphabet.Nodup) (hM : M.Stochastic) (kind : L → Kind) (steps : ℕ)
    (hs : 2 ≤ steps) (geom : ℕ → ℕ) :
    ∀ᵐ d ∂drawsLaw, ∃ S : ℕ → TSet L,
      (∀ N, generateSet kind (fun j k => M.run k (fun i => d (j * (2 * steps + 1) + i))) N false none (.int steps) geom = .ok (S N) ∧
        (S N).Countable ∧ (S N).times.sum = N ∧ ∀ w ∈ (S N).sequences, w.length = steps) ∧
      ∀ w : List L, w.length = steps →
        ∃ p, M.iface.seqProb w = .ok p ∧ Tendsto (fun N : ℕ => ((S N).mult w : ℝ) / N) atTop (𝓝 p) := by
  have h := (M.simulates hn hM steps).frequencies_stream (gen_counts kind _ (fun w hw => by have := hw.1; omega)) (Nat.succ_pos _)
    (M.run_reads steps)
  filter_upwards [h] with d hd
  obtain ⟨S, h1, h2⟩ := hd
  refine ⟨S, fun N => ?_, fun w hw => ?_⟩
  · rw [gen_eq kind _ N false none (.int steps) geom (fun _ => steps) (fun _ => rfl)]
    exact ⟨(h1 N).1, (h1 N).2.1, (h1 N).2.2.1, fun w hw => ((h1 N).2.2.2 w hw).1⟩
  · obtain ⟨p, hp, hl⟩ := M.run_law hn hM.1 hM.2.1 hM.2.2.1 hM.2.2.2.1 hM.2.2.2.2.1 hM.2.2.2.2.2 steps (by omega) w hw
    refine ⟨p, hp, ?_⟩
    have := h2 w
    rwa [hl, ENNReal.toReal_ofReal (M.seqProb_nonneg_gen hM w p hp (by rintro rfl; simp at hw; omega))] at this

end HMM
end Jajapy
