import Verif.Lemmas.GenerateMDP
import Verif.Spec.GenerateMDP
import Verif.Props.CTMCSim
import Verif.Props.MDPSimEx

/-!
Property C84: the law of the sets returned by `generateSet`, for MDPs and CTMCs.
-/

set_option linter.unusedSectionVars false

namespace Jajapy

open MeasureTheory ProbabilityTheory Spec Filter Topology Tools

theorem genMDP_counts {O : Type} [DecidableEq O] (kind : O → Kind) (k : ℕ) (geom : ℕ → ℕ) (W : Set (List O)) :
    CountsTraces (fun s N => generateSetMDP kind (fun j _ => s j) N false none (.int k) geom) W := by
  intro s tr N hs _
  obtain ⟨S, h1, h2, -, h3⟩ := generateSetMDP_spec kind (fun j _ => s j) N false none (.int k) geom (fun _ => k) tr (fun _ _ => rfl)
    (fun j _ => hs j)
  exact ⟨S, h1, h2, h3⟩

theorem generateLoop_congr {O : Type} (sim sim' : ℕ → ℕ → Py (List O)) (size : ℕ → Py ℕ)
    (record : List (List O) × List ℕ → List O → List (List O) × List ℕ) (k i : ℕ) (h : ∀ j < i + k, sim j = sim' j)
    (acc : List (List O) × List ℕ) : generateLoop sim size record k i acc = generateLoop sim' size record k i acc := by
  induction k generalizing i acc with
  | zero => rfl
  | succ k ih =>
    simp only [generateLoop, h i (by omega)]
    congr 1
    funext sz
    congr 1
    funext t
    exact ih (i + 1) (fun j hj => h j (by omega)) _

theorem generateSetMDP_congr {O : Type} [DecidableEq O] (kind : O → Kind) (sim sim' : ℕ → ℕ → Py (List O)) (N : ℕ) (geo : Bool)
    (minSize : Option ℕ) (param : SizeParam) (geom : ℕ → ℕ) (h : ∀ j < N, sim j = sim' j) :
    generateSetMDP kind sim N geo minSize param geom = generateSetMDP kind sim' N geo minSize param geom := by
  unfold generateSetMDP
  rw [generateLoop_congr sim sim' _ _ N 0 (fun j hj => h j (by omega))]

namespace MDP
variable {σ L : Type} [DecidableEq L] {n : ℕ} {sch : Sched ℝ L σ} {P : Policy σ L} {dom : σ → Prop}

theorem collects_iff (M : MDP ℝ L n) (hB : Behaves sch P dom) (steps : ℕ) (st0 : σ) (D : ℕ → ℕ → ℝ) (N : ℕ) (tr : ℕ → List L) :
    M.Collects sch steps st0 D N tr ↔ ∀ j < N, M.Returns sch steps st0 (tr j) (D j) := by
  constructor
  · rintro ⟨st, -, h⟩ j hj
    obtain ⟨k, hk⟩ := h j hj
    exact ⟨k, st (j + 1), by rw [M.run_state hB steps _ st0 (st j)]; exact hk⟩
  · intro h
    have : ∀ j, ∃ k st', j < N → M.run sch steps (List.ofFn (fun i : Fin k => D j i)) st0 = some (.ok (tr j, st')) := by
      intro j
      by_cases hj : j < N
      · obtain ⟨k, st', hk⟩ := h j hj
        exact ⟨k, st', fun _ => hk⟩
      · exact ⟨0, st0, fun hc => absurd hc hj⟩
    choose k st' hk using this
    refine ⟨fun j => match j with | 0 => st0 | j + 1 => st' j, rfl, fun j hj => ⟨k j, ?_⟩⟩
    rw [M.run_state hB steps _ _ st0]
    exact hk j hj

/-- The sets that `generateSet(N, steps, scheduler)` returns. -/
theorem generated_iff (M : MDP ℝ L n) (hB : Behaves sch P dom) (kind : L → Kind) (steps : ℕ) (geom : ℕ → ℕ) (st0 : σ)
    (D : ℕ → ℕ → ℝ) (hD : ∀ j, ∃ w, M.outcome sch steps st0 (D j) = .ok w) (N : ℕ) (S : TSet L) :
    (∃ tr, M.Collects sch steps st0 D N tr ∧ generateSetMDP kind (fun j _ => .ok (tr j)) N false none (.int steps) geom = .ok S) ↔
      generateSetMDP kind (fun j _ => M.outcome sch steps st0 (D j)) N false none (.int steps) geom = .ok S := by
  constructor
  · rintro ⟨tr, h1, h2⟩
    rw [M.collects_iff hB] at h1
    rw [← h2]
    apply generateSetMDP_congr
    intro j hj
    funext _
    exact (M.outcome_ok steps st0 _ _).2 (h1 j hj)
  · intro h
    choose tr htr using hD
    refine ⟨tr, (M.collects_iff hB steps st0 D N tr).2 (fun j _ => (M.outcome_ok steps st0 _ _).1 (htr j)), ?_⟩
    rw [← h]
    apply generateSetMDP_congr
    intro j hj
    funext _
    exact (htr j).symm

theorem generateSet_binomial_of_behaves (M : MDP ℝ L n) (hn : M.actions.Nodup) (hS : M.Stochastic) (hB : Behaves sch P dom)
    (kind : L → Kind) (steps : ℕ) (geom : ℕ → ℕ) (st0 : σ) (ht : drawsLaw {d | ∃ w, M.Returns sch steps st0 w d} = 1)
    (w : List L) (hw : w.length = 2 * steps + 1) (hp : 0 ≤ M.runProb P w) (N m : ℕ) :
    callsLaw drawsLaw {D | ∃ tr S, M.Collects sch steps st0 D N tr ∧
        generateSetMDP kind (fun j _ => .ok (tr j)) N false none (.int steps) geom = .ok S ∧ S.mult w = m}
      = ENNReal.ofReal (N.choose m * (M.runProb P w ^ m * (1 - M.runProb P w) ^ (N - m))) := by
  have hs := M.simulates hn hS hB steps st0 ht
  have hl := M.run_law_of_behaves hB hn hS steps st0 w hw
  have h := hs.binomial (genMDP_counts kind steps geom _) w (M.runProb P w) hp (by simp only [outcome_ok]; exact hl) N m
  rw [← h]
  refine measure_congr ?_
  filter_upwards [hs.all_ok] with D hD
  refine propext ?_
  constructor
  · rintro ⟨tr, S, h1, h2, h3⟩
    exact ⟨S, (M.generated_iff hB kind steps geom st0 D hD N S).1 ⟨tr, h1, h2⟩, h3⟩
  · rintro ⟨S, h1, h3⟩
    obtain ⟨tr, h4, h5⟩ := (M.generated_iff hB kind steps geom st0 D hD N S).2 h1
    exact ⟨tr, S, h4, h5, h3⟩

theorem generateSet_frequencies_of_behaves (M : MDP ℝ L n) (hn : M.actions.Nodup) (hS : M.Stochastic) (hB : Behaves sch P dom)
    (kind : L → Kind) (steps : ℕ) (geom : ℕ → ℕ) (st0 : σ) (ht : drawsLaw {d | ∃ w, M.Returns sch steps st0 w d} = 1)
    (hp : ∀ w : List L, w.length = 2 * steps + 1 → 0 ≤ M.runProb P w) :
    ∀ᵐ D ∂callsLaw drawsLaw, ∃ S : ℕ → TSet L,
      (∀ N, ∃ tr, M.Collects sch steps st0 D N tr ∧
        generateSetMDP kind (fun j _ => .ok (tr j)) N false none (.int steps) geom = .ok (S N) ∧ (S N).Countable ∧
        (S N).times.sum = N ∧ ∀ w ∈ (S N).sequences, w.length = 2 * steps + 1) ∧
      ∀ w : List L, w.length = 2 * steps + 1 →
        Tendsto (fun N : ℕ => ((S N).mult w : ℝ) / N) atTop (𝓝 (M.runProb P w)) := by
  have hs := M.simulates hn hS hB steps st0 ht
  have h := hs.frequencies (genMDP_counts kind steps geom _)
  filter_upwards [h, hs.all_ok] with D hD hok
  obtain ⟨S, h1, h2⟩ := hD
  refine ⟨S, fun N => ?_, fun w hw => ?_⟩
  · obtain ⟨tr, h4, h5⟩ := (M.generated_iff hB kind steps geom st0 D hok N (S N)).2 (h1 N).1
    exact ⟨tr, h4, h5, (h1 N).2.1, (h1 N).2.2.1, fun w hw => ((h1 N).2.2.2 w hw).1⟩
  · have h3 := h2 w
    simp only [outcome_ok] at h3
    rwa [M.run_law_of_behaves hB hn hS steps st0 w hw, ENNReal.toReal_ofReal (hp w hw)] at h3

theorem runProb_nonneg (M : MDP ℝ L n) (hS : M.Stochastic) (hB : Behaves sch P dom) (w : List L) (hw : w.length % 2 = 1) :
    0 ≤ M.runProb P w := by
  obtain ⟨ps, last, rfl⟩ := exists_alternate w hw
  rw [M.runProb_alternate, BW.totalWeight_eq]
  exact Finset.sum_nonneg (fun i _ => mul_nonneg (hS.1 i) (M.beta0_run_nonneg hS.2.2.1 hB ps last i _ hB.start))

/-- C84, MDP with a uniform scheduler: the number of copies of a trace in the set has the binomial law of parameters `set_size` and the
probability of the trace under the scheduler (C83). -/
theorem generateSet_uniform_binomial (M : MDP ℝ L n) (hn : M.actions.Nodup) (hS : M.Stochastic) (acts : List L)
    (hne : acts ≠ []) (ha : ∀ s, ∃ x ∈ acts, M.Allowed s x) (kind : L → Kind) (steps : ℕ) (geom : ℕ → ℕ)
    (w : List L) (hw : w.length = 2 * steps + 1) (N m : ℕ) :
    callsLaw drawsLaw {D | ∃ tr S, M.Collects (uniformScheduler acts) steps () D N tr ∧
        generateSetMDP kind (fun j _ => .ok (tr j)) N false none (.int steps) geom = .ok S ∧ S.mult w = m}
      = ENNReal.ofReal (N.choose m * (M.runProb (uniformPolicy acts) w ^ m * (1 - M.runProb (uniformPolicy acts) w) ^ (N - m))) :=
  M.generateSet_binomial_of_behaves hn hS (uniformScheduler_behaves acts hne) kind steps geom () (M.run_uniform_returns hn hS acts ha steps)
    w hw (M.runProb_nonneg hS (uniformScheduler_behaves acts hne) w (by omega)) N m

/-- C84, MDP with a uniform scheduler: the proportion of every trace tends to its probability under the scheduler, almost surely. -/
theorem generateSet_uniform_frequencies (M : MDP ℝ L n) (hn : M.actions.Nodup) (hS : M.Stochastic) (acts : List L)
    (hne : acts ≠ []) (ha : ∀ s, ∃ x ∈ acts, M.Allowed s x) (kind : L → Kind) (steps : ℕ) (geom : ℕ → ℕ) :
    ∀ᵐ D ∂callsLaw drawsLaw, ∃ S : ℕ → TSet L,
      (∀ N, ∃ tr, M.Collects (uniformScheduler acts) steps () D N tr ∧
        generateSetMDP kind (fun j _ => .ok (tr j)) N false none (.int steps) geom = .ok (S N) ∧ (S N).Countable ∧
        (S N).times.sum = N ∧ ∀ w ∈ (S N).sequences, w.length = 2 * steps + 1) ∧
      ∀ w : List L, w.length = 2 * steps + 1 →
        Tendsto (fun N : ℕ => ((S N).mult w : ℝ) / N) atTop (𝓝 (M.runProb (uniformPolicy acts) w)) :=
  M.generateSet_frequencies_of_behaves hn hS (uniformScheduler_behaves acts hne) kind steps geom ()
    (M.run_uniform_returns hn hS acts ha steps) (fun w hw => M.runProb_nonneg hS (uniformScheduler_behaves acts hne) w (by omega))

/-- C84, MDP with a finite-memory scheduler, in any state at the start. -/
theorem generateSet_fm_binomial (M : MDP ℝ L n) (hn : M.actions.Nodup) (hS : M.Stochastic) (F : FMScheduler ℝ L) (k : ℕ)
    (hF : FMValid F k) (ha : ∀ s, ∀ m < k, ∃ x, M.Allowed s x ∧ 0 < (fmPolicy F).propose m x) (kind : L → Kind) (steps : ℕ)
    (geom : ℕ → ℕ) (st0 : ℕ) (w : List L) (hw : w.length = 2 * steps + 1) (N m : ℕ) :
    callsLaw drawsLaw {D | ∃ tr S, M.Collects F.sched steps st0 D N tr ∧
        generateSetMDP kind (fun j _ => .ok (tr j)) N false none (.int steps) geom = .ok S ∧ S.mult w = m}
      = ENNReal.ofReal (N.choose m * (M.runProb (fmPolicy F) w ^ m * (1 - M.runProb (fmPolicy F) w) ^ (N - m))) :=
  M.generateSet_binomial_of_behaves hn hS (fmScheduler_behaves F k hF) kind steps geom st0 (M.run_fm_returns hn hS F k hF ha steps st0)
    w hw (M.runProb_nonneg hS (fmScheduler_behaves F k hF) w (by omega)) N m

/-- C84, MDP with a finite-memory scheduler. -/
theorem generateSet_fm_frequencies (M : MDP ℝ L n) (hn : M.actions.Nodup) (hS : M.Stochastic) (F : FMScheduler ℝ L) (k : ℕ)
    (hF : FMValid F k) (ha : ∀ s, ∀ m < k, ∃ x, M.Allowed s x ∧ 0 < (fmPolicy F).propose m x) (kind : L → Kind) (steps : ℕ)
    (geom : ℕ → ℕ) (st0 : ℕ) :
    ∀ᵐ D ∂callsLaw drawsLaw, ∃ S : ℕ → TSet L,
      (∀ N, ∃ tr, M.Collects F.sched steps st0 D N tr ∧
        generateSetMDP kind (fun j _ => .ok (tr j)) N false none (.int steps) geom = .ok (S N) ∧ (S N).Countable ∧
        (S N).times.sum = N ∧ ∀ w ∈ (S N).sequences, w.length = 2 * steps + 1) ∧
      ∀ w : List L, w.length = 2 * steps + 1 →
        Tendsto (fun N : ℕ => ((S N).mult w : ℝ) / N) atTop (𝓝 (M.runProb (fmPolicy F) w)) :=
  M.generateSet_frequencies_of_behaves hn hS (fmScheduler_behaves F k hF) kind steps geom st0 (M.run_fm_returns hn hS F k hF ha steps st0)
    (fun w hw => M.runProb_nonneg hS (fmScheduler_behaves F k hF) w (by omega))

end MDP

namespace CTMC
variable {L : Type} [DecidableEq L] {n : ℕ}

theorem next_total (M : CTMC ℝ L n) (s : Fin n) (d : Fin n → ℝ) : ∃ i t, M.next s d = .ok (M.labelling s, i, t) := by
  unfold next
  have hl : (M.waitingTimes s d).length = n := by simp [waitingTimes]
  cases hm : (M.waitingTimes s d).min? with
  | none =>
    rw [List.min?_eq_none_iff] at hm
    rw [hm] at hl
    exact absurd s.2 (by simp at hl; omega)
  | some m =>
    have h1 : m ∈ M.waitingTimes s d := List.min?_mem hm
    have h2 : (M.waitingTimes s d).idxOf m < n := (List.idxOf_lt_length_iff.2 h1).trans_eq hl
    simp only [dif_pos h2]
    exact ⟨_, _, rfl⟩

theorem runLoop_total (M : CTMC ℝ L n) (steps : ℕ) (d : ℕ → Fin n → ℝ) (s : Fin n) : ∃ w, M.runLoop steps d s = .ok w := by
  induction steps generalizing d s with
  | zero => exact ⟨_, rfl⟩
  | succ steps ih =>
    obtain ⟨i, t, h1⟩ := M.next_total s (d 0)
    obtain ⟨w, h2⟩ := ih (fun k => d (k+1)) i
    exact ⟨M.labelling s :: w, by simp only [runLoop, h1, Bind.bind, Except.bind, h2]; rfl⟩

theorem runLoop_symbols (M : CTMC ℝ L n) (steps : ℕ) (d : ℕ → Fin n → ℝ) (s : Fin n) (w : List L) (h : M.runLoop steps d s = .ok w) :
    ∀ o ∈ w, o ∈ Set.range M.labelling := by
  induction steps generalizing d s w with
  | zero =>
    simp only [runLoop] at h
    injection h with h
    subst h
    simp
  | succ steps ih =>
    cases w with
    | nil => simp
    | cons o w =>
      obtain ⟨h1, i, -, h2⟩ := (M.runLoop_succ_iff steps d s o w).1 h
      intro o' ho'
      rcases List.mem_cons.1 ho' with rfl | ho'
      · exact ⟨s, h1⟩
      · exact ih _ _ _ h2 o' ho'

theorem simulates (M : CTMC ℝ L n) (hM : M.Valid) (hi : ∑ s, M.initialState s = 1) (steps : ℕ) :
    Simulates (simLaw n) (fun p => M.run steps p.1 p.2) {w | w.length = steps + 1 ∧ ∀ o ∈ w, o ∈ Set.range M.labelling} where
  countable := (countable_lists (Set.countable_range M.labelling)).mono (fun _ hw => hw.2)
  mem := by
    intro p w h
    obtain ⟨c, _, h2⟩ := (Except.bind_eq_ok _ _ _).1 h
    exact ⟨M.runLoop_length _ _ _ _ h2, M.runLoop_symbols _ _ _ _ h2⟩
  meas := by
    intro w
    have e : {p : ℝ × (ℕ → Fin n → ℝ) | M.run steps p.1 p.2 = .ok w}
        = ⋃ i, {r | pick M.initialState r = .ok i} ×ˢ {d | M.runLoop steps d i = .ok w} := by
      ext p
      simp only [Set.mem_ofPred_eq, run, Set.mem_iUnion, Set.mem_prod]
      rw [Except.bind_eq_ok]
    rw [e]
    exact MeasurableSet.iUnion (fun i => (measurable_pick _ i).prod (M.measurable_runLoop steps i w))
  total := by
    have hsub : {r : ℝ | 0 ≤ r ∧ r < 1} ×ˢ Set.univ ⊆ {p : ℝ × (ℕ → Fin n → ℝ) | ∃ w, M.run steps p.1 p.2 = .ok w} := by
      rintro ⟨r, d⟩ ⟨⟨h1, h2⟩, -⟩
      obtain ⟨i, hp, -⟩ := pick_total _ hM.1 hi r h1 h2
      obtain ⟨w, hw⟩ := M.runLoop_total steps d i
      exact ⟨w, by simp only [run, hp, Bind.bind, Except.bind]; exact hw⟩
    refine le_antisymm prob_le_one ((le_of_eq ?_).trans (measure_mono hsub))
    unfold simLaw
    rw [Measure.prod_prod, measure_univ, mul_one]
    unfold uniform
    change 1 = (volume.restrict (Set.Ico 0 1)) (Set.Ico 0 1)
    simp

/-- C84, CTMC, `generateSet(set_size, number_steps)`: the number of copies of a trace has the binomial law of parameters `set_size` and
the probability of the trace in the simulator (C82). -/
theorem generateSet_binomial (M : CTMC ℝ L n) (hM : M.Valid) (hi : ∑ s, M.initialState s = 1) (kind : L → Kind) (steps : ℕ)
    (hs : 1 ≤ steps) (geom : ℕ → ℕ) (w : List L) (hw : w.length = steps + 1) (N m : ℕ) :
    callsLaw (simLaw n)
        {D | ∃ S, generateSet kind (fun j k => M.run k (D j).1 (D j).2) N false none (.int steps) geom = .ok S ∧ S.mult w = m}
      = ENNReal.ofReal (N.choose m * (listProb M.initialState M.simProb (fun s o => if M.labelling s = o then 1 else 0) w ^ m *
          (1 - listProb M.initialState M.simProb (fun s o => if M.labelling s = o then 1 else 0) w) ^ (N - m))) := by
  have h := (M.simulates hM hi steps).binomial (gen_counts kind _ (fun w hw => by have := hw.1; omega)) w _ (by
    cases w with
    | nil => simp at hw
    | cons o os =>
      rw [listProb_eq_sufProb]
      exact Finset.sum_nonneg (fun i _ => mul_nonneg (hM.1 i) (sufProb_nonneg _ _ (M.simProb_nonneg hM.2)
        (fun _ _ => by split_ifs <;> norm_num) _ _))) (M.run_law hM hi steps w hw) N m
  simp only [gen_eq kind _ N false none (.int steps) geom (fun _ => steps) (fun _ => rfl)]
  exact h

/-- C84, CTMC: the proportion of every trace tends to its probability in the simulator, almost surely. -/
theorem generateSet_frequencies (M : CTMC ℝ L n) (hM : M.Valid) (hi : ∑ s, M.initialState s = 1) (kind : L → Kind) (steps : ℕ)
    (hs : 1 ≤ steps) (geom : ℕ → ℕ) :
    ∀ᵐ D ∂callsLaw (simLaw n), ∃ S : ℕ → TSet L,
      (∀ N, generateSet kind (fun j k => M.run k (D j).1 (D j).2) N false none (.int steps) geom = .ok (S N) ∧
        (S N).Countable ∧ (S N).times.sum = N ∧ ∀ w ∈ (S N).sequences, w.length = steps + 1) ∧
      ∀ w : List L, w.length = steps + 1 → Tendsto (fun N : ℕ => ((S N).mult w : ℝ) / N) atTop
        (𝓝 (listProb M.initialState M.simProb (fun s o => if M.labelling s = o then 1 else 0) w)) := by
  have h := (M.simulates hM hi steps).frequencies (gen_counts kind _ (fun w hw => by have := hw.1; omega))
  filter_upwards [h] with D hD
  obtain ⟨S, h1, h2⟩ := hD
  refine ⟨S, fun N => ?_, fun w hw => ?_⟩
  · rw [gen_eq kind _ N false none (.int steps) geom (fun _ => steps) (fun _ => rfl)]
    exact ⟨(h1 N).1, (h1 N).2.1, (h1 N).2.2.1, fun w hw => ((h1 N).2.2.2 w hw).1⟩
  · have := h2 w
    rwa [M.run_law hM hi steps w hw, ENNReal.toReal_ofReal (by
      cases w with
      | nil => simp at hw
      | cons o os =>
        rw [listProb_eq_sufProb]
        exact Finset.sum_nonneg (fun i _ => mul_nonneg (hM.1 i) (sufProb_nonneg _ _ (M.simProb_nonneg hM.2)
          (fun _ _ => by split_ifs <;> norm_num) _ _)))] at this

/-- C84, CTMC: the proportion of every trace tends to its likelihood if all the rates are positive (with rates equal to 0 it tends to
the probability in the simulator, which is not the likelihood, C82). -/
theorem generateSet_likelihood_partial (M : CTMC ℝ L n) (hM : M.Valid) (hi : ∑ s, M.initialState s = 1) (hpos : ∀ s s', 0 < M.matrix s s')
    (kind : L → Kind) (steps : ℕ) (hs : 1 ≤ steps) (geom : ℕ → ℕ) :
    ∀ᵐ D ∂callsLaw (simLaw n), ∃ S : ℕ → TSet L,
      (∀ N, generateSet kind (fun j k => M.run k (D j).1 (D j).2) N false none (.int steps) geom = .ok (S N)) ∧
      ∀ w : List L, w.length = steps + 1 → ∃ p, M.iface.seqProb w = .ok p ∧
        Tendsto (fun N : ℕ => ((S N).mult w : ℝ) / N) atTop (𝓝 p) := by
  filter_upwards [M.generateSet_frequencies hM hi kind steps hs geom] with D hD
  obtain ⟨S, h1, h2⟩ := hD
  refine ⟨S, fun N => (h1 N).1, fun w hw => ?_⟩
  obtain ⟨p, hp, hl⟩ := M.run_law_partial hM hi hpos steps w hw
  refine ⟨p, hp, ?_⟩
  have h3 := h2 w hw
  rw [M.run_law hM hi steps w hw] at hl
  have hp0 : 0 ≤ p := by
    rw [M.seqProb_embedded w (by rintro rfl; simp at hw)] at hp
    injection hp with hp
    rw [← hp]
    cases w with
    | nil => simp at hw
    | cons o os =>
      rw [listProb_eq_sufProb]
      exact Finset.sum_nonneg (fun i _ => mul_nonneg (hM.1 i) (sufProb_nonneg _ _ (fun a b => div_nonneg (hM.2 a b)
        (Finset.sum_nonneg (fun j _ => hM.2 a j))) (fun _ _ => by split_ifs <;> norm_num) _ _))
  have hp1 : 0 ≤ listProb M.initialState M.simProb (fun s o => if M.labelling s = o then 1 else 0) w := by
    cases w with
    | nil => simp at hw
    | cons o os =>
      rw [listProb_eq_sufProb]
      exact Finset.sum_nonneg (fun i _ => mul_nonneg (hM.1 i) (sufProb_nonneg _ _ (M.simProb_nonneg hM.2)
        (fun _ _ => by split_ifs <;> norm_num) _ _))
  rwa [(ENNReal.ofReal_eq_ofReal_iff hp1 hp0).1 hl] at h3

end CTMC
end Jajapy
