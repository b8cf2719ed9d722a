import Verif.Lemmas.ConsistencyCTMC
import Verif.Props.ObservableCTMC
import Verif.Props.Generate
import Verif.Props.CTMCSimEx

set_option linter.unusedSectionVars false

/-!
Property C92: learning a CTMC from timed traces that it generated.
-/

namespace Jajapy

open MeasureTheory ProbabilityTheory Spec Filter Topology Tools BW

namespace CTMC
variable {L : Type} {n : ℕ} [DecidableEq L]

/-- 1 for a jump from `s` to `s'`. -/
noncomputable def jumpReward (s s' c i : Fin n) (_ : ℝ) : ENNReal := if c = s ∧ i = s' then 1 else 0

/-- The time spent in `s`. -/
noncomputable def timeReward (s c _i : Fin n) (t : ℝ) : ENNReal := if c = s then ENNReal.ofReal t else 0

theorem measurable_jumpReward (s s' c i : Fin n) : Measurable (jumpReward s s' c i) := measurable_const

theorem measurable_timeReward (s c i : Fin n) : Measurable (timeReward s c i) := by
  unfold timeReward
  split_ifs
  · exact ENNReal.measurable_ofReal
  · exact measurable_const

theorem lateProb_lt_one (G : CTMC ℝ L n) (s : Fin n) (he : 0 < G.e s) : G.lateProb s < 1 := by
  unfold lateProb
  split_ifs
  · rw [Real.exp_lt_one_iff]
    have : 0 < ∑ j, G.matrix s j := he
    nlinarith
  · norm_num

theorem simProb_eq_shownRate (G : CTMC ℝ L n) (h0 : ∀ s s', 0 ≤ G.matrix s s') (s s' : Fin n) (he : 0 < G.e s) :
    G.simProb s s' = G.shownRate s s' * (G.expectedTime s * (1 - G.lateProb s)) := by
  have hl := G.lateProb_lt_one s he
  have he' : (0:ℝ) < ∑ j, G.matrix s j := he
  unfold simProb shownRate expectedTime
  have ee : G.e s = ∑ j, G.matrix s j := rfl
  rw [ee]
  by_cases h : 0 < G.matrix s s'
  · rw [if_pos h, if_pos h]; field_simp
  · rw [if_neg h, if_neg h]
    by_cases hf : ∀ j < s', 0 < G.matrix s j
    · rw [if_pos hf, if_pos hf]
      have hz : ∃ j, G.matrix s j = 0 := ⟨s', le_antisymm (not_lt.1 h) (h0 s s')⟩
      have hlate : G.lateProb s = Real.exp (-(∑ j, G.matrix s j) * 1024) := by unfold lateProb; rw [if_pos hz]
      rw [← hlate]
      have : 1 - G.lateProb s ≠ 0 := by linarith
      field_simp
    · rw [if_neg hf, if_neg hf, zero_mul]

theorem shownRate_nonneg (G : CTMC ℝ L n) (h0 : ∀ s s', 0 ≤ G.matrix s s') (s s' : Fin n) (he : 0 < G.e s) : 0 ≤ G.shownRate s s' := by
  have h1 := G.simProb_eq_shownRate h0 s s' he
  have h2 := G.simProb_nonneg h0 s s'
  have hl := G.lateProb_lt_one s he
  have : 0 < G.expectedTime s * (1 - G.lateProb s) := mul_pos (by unfold expectedTime; positivity) (by linarith)
  rw [h1] at h2
  exact nonneg_of_mul_nonneg_left h2 this

theorem meanStep_jump (G : CTMC ℝ L n) (h0 : ∀ s s', 0 ≤ G.matrix s s') (s s' c : Fin n) :
    G.meanStep (jumpReward s s') c = if c = s then ENNReal.ofReal (G.simProb s s') else 0 := by
  unfold meanStep jumpReward
  by_cases h : c = s
  · subst h
    simp only [true_and, if_true]
    rw [← G.stepLaw_nextState h0 c s']
    have hm : MeasurableSet {x | G.nextState c x = s'} := (G.measurable_nextState c) (measurableSet_singleton s')
    rw [← one_mul (stepLaw n _), ← lintegral_indicator_const hm]
    refine lintegral_congr (fun x => ?_)
    by_cases hx : G.nextState c x = s'
    · rw [if_pos hx, Set.indicator_of_mem (by exact hx)]
    · rw [if_neg hx, Set.indicator_of_notMem (by exact hx)]
  · simp [h]

theorem meanStep_time (G : CTMC ℝ L n) (h0 : ∀ s s', 0 ≤ G.matrix s s') (s c : Fin n) (he : 0 < G.e s) :
    G.meanStep (timeReward s) c = if c = s then ENNReal.ofReal (G.expectedTime s * (1 - G.lateProb s)) else 0 := by
  unfold meanStep timeReward
  by_cases h : c = s
  · subst h
    simp only [if_true]
    exact G.time_mean h0 c he
  · simp [h]

theorem density_path (M : CTMC ℝ L n) (hinj : Function.Injective M.labelling) (ps : List (Fin n × ℝ)) (last : Fin n) :
    M.density (timed (ps.map (showStep M.labelling)) (M.labelling last)) = M.initialState (firstOf ps last) * along M.dens ps last := by
  have hm : M.lastMask (timed (ps.map (showStep M.labelling)) (M.labelling last)) = (fun s => if s = last then 1 else 0) := by
    funext s
    unfold lastMask
    rw [observations_timed, List.getLast?_append_of_ne_nil _ (by simp)]
    by_cases hs' : s = last
    · rw [if_pos (by rw [hs']; rfl), if_pos hs']
    · rw [if_neg (fun h' => hs' (by injection h' with h'; exact (hinj h').symm)), if_neg hs']
  have e : M.density (timed (ps.map (showStep M.labelling)) (M.labelling last))
      = totalWeight M.initialState (obsTau M.labelling M.dens) (M.lastMask (timed (ps.map (showStep M.labelling)) (M.labelling last)))
        (timedSteps (timed (ps.map (showStep M.labelling)) (M.labelling last))) := rfl
  rw [e, hm, timedSteps_timed, weight_along _ _ hinj]

theorem toReal_sum {X : Type} (l : List X) (f : X → ENNReal) (hf : ∀ x ∈ l, f x ≠ ⊤) : ((l.map f).sum).toReal = (l.map (fun x => (f x).toReal)).sum := by
  induction l with
  | nil => simp
  | cons x l ih =>
    simp only [List.map_cons, List.sum_cons]
    rw [ENNReal.toReal_add (hf x List.mem_cons_self) ?_, ih (fun y hy => hf y (List.mem_cons_of_mem _ hy))]
    have : ∀ l : List X, (∀ x ∈ l, f x ≠ ⊤) → (l.map f).sum ≠ ⊤ := by
      intro l hl
      induction l with
      | nil => simp
      | cons y l ih =>
        simp only [List.map_cons, List.sum_cons]
        exact ENNReal.add_ne_top.2 ⟨hl y List.mem_cons_self, ih (fun z hz => hl z (List.mem_cons_of_mem _ hz))⟩
    exact this l (fun y hy => hf y (List.mem_cons_of_mem _ hy))

theorem total_jump (G : CTMC ℝ L n) (s s' : Fin n) (k : ℕ) (d : ℕ → Fin n → ℝ) (c : Fin n) (hinj : Function.Injective G.labelling) :
    (G.total (jumpReward s s') k d c).toReal =
      (((observations (timed ((G.pathFrom k d c).map (showStep G.labelling)) (G.labelling (G.lastFrom k d c)))).zip
        (observations (timed ((G.pathFrom k d c).map (showStep G.labelling)) (G.labelling (G.lastFrom k d c)))).tail).count (G.labelling s, G.labelling s') : ℕ) := by
  have e : observations (timed ((G.pathFrom k d c).map (showStep G.labelling)) (G.labelling (G.lastFrom k d c)))
      = ((G.pathFrom k d c).map Prod.fst ++ [G.lastFrom k d c]).map G.labelling := by
    rw [observations_timed, List.map_append, List.map_map, List.map_map]
    rfl
  rw [e, count_jumps _ hinj]
  unfold total jumpReward
  rw [toReal_sum _ _ (fun m _ => by split_ifs <;> simp)]
  congr 1
  refine List.map_congr_left (fun m _ => ?_)
  split_ifs <;> simp

theorem sum_moves (ps : List (Fin n × ℝ)) (last : Fin n) (f : Fin n × ℝ → ℝ) : ((movesOf ps last).map (fun m => f m.1)).sum = (ps.map f).sum := by
  induction ps with
  | nil => rfl
  | cons p ps ih => simp only [movesOf, List.map_cons, List.sum_cons, ih]

theorem total_time (G : CTMC ℝ L n) (s : Fin n) (k : ℕ) (d : ℕ → Fin n → ℝ) (c : Fin n) (hinj : Function.Injective G.labelling)
    (hd : ∀ m ∈ movesOf (G.pathFrom k d c) (G.lastFrom k d c), 0 ≤ m.1.2) :
    (G.total (timeReward s) k d c).toReal =
      ((timedSteps (timed ((G.pathFrom k d c).map (showStep G.labelling)) (G.labelling (G.lastFrom k d c)))).map
        (fun q => if q.1 = G.labelling s then q.2 else 0)).sum := by
  rw [timedSteps_timed, List.map_map]
  unfold total timeReward
  rw [toReal_sum _ _ (fun m _ => by split_ifs <;> simp), ← sum_moves _ (G.lastFrom k d c)]
  congr 1
  refine List.map_congr_left (fun m hm => ?_)
  show _ = if G.labelling m.1.1 = G.labelling s then m.1.2 else 0
  by_cases h : m.1.1 = s
  · rw [if_pos h, if_pos (by rw [h]), ENNReal.toReal_ofReal (hd m hm)]
  · rw [if_neg h, if_neg (fun h' => h (hinj h'))]; simp

/-- C92: `G` has pairwise different labels and every state can be left; the sets are generated by `G` with `timed=True`; the initial model `M` has the same
labels and every move of the simulation is possible in it. With probability 1, `fit` succeeds for all set sizes and options; and for every state
that can be reached in fewer than `steps` steps, the learned rates of its transitions that are not fixed tend to the shown rates. -/
theorem learning_limit (G M : CTMC ℝ L n) (hG : G.Valid) (hi : ∑ s, G.initialState s = 1) (he : ∀ s, 0 < G.e s)
    (hinj : Function.Injective G.labelling) (hM : M.Valid) (hlab : M.labelling = G.labelling)
    (hinit : ∀ s, 0 < G.initialState s → 0 < M.initialState s) (hmat : ∀ s s', 0 < G.simProb s s' → 0 < M.matrix s s')
    (kind : Sym L → Kind) (steps : ℕ) (hs : 1 ≤ steps) (geom : ℕ → ℕ) (fixed : Fin n → Fin n → Bool) :
    ∀ᵐ D ∂callsLaw (simLaw n), ∃ S : ℕ → TSet (Sym L),
      (∀ N, generateSet kind (fun j k => G.runTimed k (D j).1 (D j).2) N false none (.int steps) geom = .ok (S N)) ∧
      (∀ N, 1 ≤ N → ∀ (processes : ℕ) (epsilon : ℝ) (maxIt : ℕ), 1 < processes →
        ∃ st, fit (stepTimed processes fixed (S N)) epsilon maxIt M = .ok st) ∧
      ∀ (processes maxIt : ℕ → ℕ) (epsilon : ℕ → ℝ) (st : ℕ → LoopState (CTMC ℝ L n)), (∀ N, 1 ≤ maxIt N) →
        (∀ N, 1 ≤ N → fit (stepTimed (processes N) fixed (S N)) (epsilon N) (maxIt N) M = .ok (st N)) →
        ∀ s, (∃ c, 0 < G.initialState c ∧ ∃ j < steps, G.Walk j c s) → ∀ s', fixed s s' = false →
          Tendsto (fun N => (st N).h.matrix s s') atTop (𝓝 (G.shownRate s s')) := by
  have h0 := hG.2
  -- expectations
  have mJ : ∀ s s', Measurable (fun p => (G.simTotal (jumpReward s s') steps p).toReal) := fun s s' =>
    (G.measurable_simTotal _ (measurable_jumpReward s s') steps).ennreal_toReal
  have mT : ∀ s, Measurable (fun p => (G.simTotal (timeReward s) steps p).toReal) := fun s =>
    (G.measurable_simTotal _ (measurable_timeReward s) steps).ennreal_toReal
  have eJ : ∀ s s', ∫⁻ p, G.simTotal (jumpReward s s') steps p ∂simLaw n
      = ENNReal.ofReal (G.shownRate s s') * ∫⁻ p, G.simTotal (timeReward s) steps p ∂simLaw n := by
    intro s s'
    rw [G.lintegral_simTotal hG hi _ (measurable_jumpReward s s'), G.lintegral_simTotal hG hi _ (measurable_timeReward s), Finset.mul_sum]
    refine Finset.sum_congr rfl (fun i _ => ?_)
    rw [G.meanTotal_ratio _ _ (measurable_jumpReward s s') (measurable_timeReward s) (ENNReal.ofReal (G.shownRate s s')) (fun c => ?_) steps i]
    · ring
    · rw [G.meanStep_jump h0, G.meanStep_time h0 s c (he s)]
      split_ifs
      · rw [← ENNReal.ofReal_mul (G.shownRate_nonneg h0 s s' (he s)), ← G.simProb_eq_shownRate h0 s s' (he s)]
      · simp
  have fT : ∀ s, ∫⁻ p, G.simTotal (timeReward s) steps p ∂simLaw n ≠ ⊤ := by
    intro s
    rw [G.lintegral_simTotal hG hi _ (measurable_timeReward s)]
    refine ENNReal.sum_ne_top.2 (fun i _ => ENNReal.mul_ne_top ENNReal.ofReal_ne_top (G.meanTotal_ne_top _ (measurable_timeReward s) (fun c => ?_) steps i))
    rw [G.meanStep_time h0 s c (he s)]
    split_ifs <;> simp
  have fJ : ∀ s s', ∫⁻ p, G.simTotal (jumpReward s s') steps p ∂simLaw n ≠ ⊤ := by
    intro s s'
    rw [eJ]
    exact ENNReal.mul_ne_top ENNReal.ofReal_ne_top (fT s)
  have pT : ∀ s, (∃ c, 0 < G.initialState c ∧ ∃ j < steps, G.Walk j c s) → 0 < ∫⁻ p, G.simTotal (timeReward s) steps p ∂simLaw n := by
    rintro s ⟨c, hc, j, hj, hw⟩
    rw [G.lintegral_simTotal hG hi _ (measurable_timeReward s)]
    refine lt_of_lt_of_le ?_ (Finset.single_le_sum (f := fun i => ENNReal.ofReal (G.initialState i) * G.meanTotal (timeReward s) steps i)
      (fun i _ => zero_le) (Finset.mem_univ c))
    refine ENNReal.mul_pos (ENNReal.ofReal_pos.2 hc).ne' (G.meanTotal_pos h0 _ (measurable_timeReward s) s ?_ j steps hj c hw).ne'
    rw [G.meanStep_time h0 s s (he s), if_pos rfl, ENNReal.ofReal_pos]
    exact mul_pos (by unfold expectedTime; have := he s; positivity) (by have := G.lateProb_lt_one s (he s); linarith)
  have lim : ∀ᵐ D ∂callsLaw (simLaw n), ∀ s, (∀ s', Tendsto (fun N : ℕ => (∑ j ∈ Finset.range N, (G.simTotal (jumpReward s s') steps (D j)).toReal) / N) atTop
        (𝓝 (∫⁻ p, G.simTotal (jumpReward s s') steps p ∂simLaw n).toReal)) ∧
      Tendsto (fun N : ℕ => (∑ j ∈ Finset.range N, (G.simTotal (timeReward s) steps (D j)).toReal) / N) atTop
        (𝓝 (∫⁻ p, G.simTotal (timeReward s) steps p ∂simLaw n).toReal) := by
    rw [ae_all_iff]
    intro s
    refine Filter.Eventually.and ?_ ?_
    · rw [ae_all_iff]
      intro s'
      have := calls_average (simLaw n) _ (mJ s s') (integrable_toReal_of_lintegral_ne_top (G.measurable_simTotal _ (measurable_jumpReward s s') steps).aemeasurable (fJ s s'))
      rw [integral_toReal (G.measurable_simTotal _ (measurable_jumpReward s s') steps).aemeasurable
        (ae_lt_top (G.measurable_simTotal _ (measurable_jumpReward s s') steps) (fJ s s'))] at this
      exact this
    · have := calls_average (simLaw n) _ (mT s) (integrable_toReal_of_lintegral_ne_top (G.measurable_simTotal _ (measurable_timeReward s) steps).aemeasurable (fT s))
      rw [integral_toReal (G.measurable_simTotal _ (measurable_timeReward s) steps).aemeasurable
        (ae_lt_top (G.measurable_simTotal _ (measurable_timeReward s) steps) (fT s))] at this
      exact this
  filter_upwards [calls_ae (simLaw n) _ (G.good_draws hG hi), lim] with D hD hlim
  choose c hc using fun j => (hD j).1
  have hgood := fun j => (hD j).2
  set tr : ℕ → List (Sym L) := fun j => timed ((G.pathFrom steps (D j).2 (c j)).map (showStep G.labelling)) (G.labelling (G.lastFrom steps (D j).2 (c j))) with htr
  have hrun : ∀ j, G.runTimed steps (D j).1 (D j).2 = .ok (tr j) := by
    intro j
    unfold runTimed
    rw [(hc j).1]
    exact G.runTimedLoop_path steps _ _
  have hlen : ∀ j, (tr j).length = 2 * steps + 1 := by
    intro j
    rw [htr]
    simp only [timed_length, List.length_map, pathFrom_length]
  have hS := fun N => generateSet_spec kind (fun j k => G.runTimed k (D j).1 (D j).2) N false none (.int steps) geom (fun _ => steps) tr
    (fun _ _ => rfl) (fun j _ => hrun j) (fun j _ => by rw [hlen]; omega)
  choose S h1 h2 h3 h4 h5 using hS
  have hmem : ∀ N, ∀ w ∈ (S N).sequences, ∃ j, tr j = w := fun N w hw => by
    obtain ⟨j, -, h⟩ := (h4 N w).1 hw
    exact ⟨j, h⟩
  have hTS : ∀ N, TimedSet (S N) := by
    intro N w hw
    obtain ⟨j, rfl⟩ := hmem N w hw
    exact ⟨isTimed_timed _ _, by rw [hlen]; omega⟩
  have hW : ∀ N, WaitsNonneg (S N) := by
    intro N w hw
    obtain ⟨j, rfl⟩ := hmem N w hw
    intro p hp
    rw [htr] at hp
    simp only [timedSteps_timed, List.mem_map] at hp
    obtain ⟨q, hq, rfl⟩ := hp
    have hg := G.moves_good steps (D j).2 (c j) (hgood j)
    have : ∀ (ps : List (Fin n × ℝ)) (last : Fin n), q ∈ ps → ∃ m ∈ movesOf ps last, m.1 = q := by
      intro ps last h
      induction ps with
      | nil => simp at h
      | cons p ps ih =>
        rcases List.mem_cons.1 h with rfl | h
        · exact ⟨_, List.mem_cons_self, rfl⟩
        · obtain ⟨m, hm, e⟩ := ih h
          exact ⟨m, List.mem_cons_of_mem _ hm, e⟩
    obtain ⟨m, hm, rfl⟩ := this _ (G.lastFrom steps (D j).2 (c j)) hq
    exact (hg m hm).2
  have hpos : ∀ N, ∀ w ∈ (S N).sequences, M.density w ≠ 0 := by
    intro N w hw
    obtain ⟨j, rfl⟩ := hmem N w hw
    rw [htr]
    simp only
    rw [← hlab, M.density_path (by rw [hlab]; exact hinj), firstOf_path]
    refine mul_ne_zero (hinit _ (hc j).2).ne' ((along_ne_zero _ _ _).2 (fun m hm => ?_))
    exact mul_ne_zero (hmat _ _ (G.moves_good steps _ _ (hgood j) m hm).1).ne' (Real.exp_pos _).ne'
  refine ⟨S, h1, fun N hN processes epsilon maxIt hp => ?_, fun processes maxIt epsilon st hmax hfit s hreach s' hf => ?_⟩
  · have hw : tr 0 ∈ (S N).sequences := (h4 N _).2 ⟨0, hN, rfl⟩
    exact fit_total processes hp fixed (S N) epsilon maxIt M hM (hTS N) (hW N) (h2 N).1.1 (h2 N).2.1 (tr 0) hw (hpos N _ hw)
  · have cJ : ∀ N, ((jumpCount (S N) (G.labelling s) (G.labelling s') : ℕ) : ℝ) = ∑ j ∈ Finset.range N, (G.simTotal (jumpReward s s') steps (D j)).toReal := by
      intro N
      unfold jumpCount
      rw [Nat.cast_list_sum, List.map_map]
      have e := TSet.sum_zip_eq (S N) (h2 N).1.1 (fun w => (((observations w).zip (observations w).tail).count (G.labelling s, G.labelling s') : ℕ))
        (S N).sequences.toFinset (fun w hw => List.mem_toFinset.2 hw)
      rw [(S N).sum_traces tr N (h2 N).1.1 (h4 N) (h5 N)] at e
      refine Eq.trans ?_ (e.trans ?_)
      · congr 1
        refine List.map_congr_left (fun p _ => ?_)
        simp
      · refine Finset.sum_congr rfl (fun j _ => ?_)
        rw [G.simTotal_eq _ steps (D j) (c j) (hc j).1, G.total_jump s s' steps _ _ hinj]
    have cT : ∀ N, totalTime (S N) (G.labelling s) = ∑ j ∈ Finset.range N, (G.simTotal (timeReward s) steps (D j)).toReal := by
      intro N
      unfold totalTime
      have e := TSet.sum_zip_eq (S N) (h2 N).1.1 (fun w => ((timedSteps w).map (fun q => if q.1 = G.labelling s then q.2 else 0)).sum)
        (S N).sequences.toFinset (fun w hw => List.mem_toFinset.2 hw)
      rw [(S N).sum_traces tr N (h2 N).1.1 (h4 N) (h5 N)] at e
      refine e.trans (Finset.sum_congr rfl (fun j _ => ?_))
      rw [G.simTotal_eq _ steps (D j) (c j) (hc j).1, G.total_time s steps _ _ hinj (fun m hm => (G.moves_good steps _ _ (hgood j) m hm).2)]
    have hT0 : (∫⁻ p, G.simTotal (timeReward s) steps p ∂simLaw n).toReal ≠ 0 :=
      (ENNReal.toReal_pos (pT s hreach).ne' (fT s)).ne'
    have hl1 := (hlim s).1 s'
    have hl2 := (hlim s).2
    have hq := hl1.div hl2 hT0
    rw [eJ, ENNReal.toReal_mul, ENNReal.toReal_ofReal (G.shownRate_nonneg h0 s s' (he s)), mul_div_assoc, div_self hT0, mul_one] at hq
    refine hq.congr' ?_
    filter_upwards [eventually_ge_atTop 1, hl2.eventually_ne hT0] with N hN hne
    rw [(fit_observed (processes N) fixed (S N) (epsilon N) (maxIt N) (hmax N) M hM (by rw [hlab]; exact hinj) (hTS N) (hW N) (h2 N).1.1 (h2 N).2.1
      (hpos N) (st N) (hfit N hN)).2.2 s s' hf]
    simp only [frequencies, hlab]
    rw [← cT N] at hne
    have hN0 : (N : ℝ) ≠ 0 := by positivity
    rw [if_neg (fun h => hne (by rw [h, zero_div])), cJ, cT]
    simp only [Pi.div_apply]
    rw [div_div_div_cancel_right₀ hN0]

/-- C92: the rate of a transition of positive rate is found exactly, even if the simulator replaces the clock of rate 0 by the constant 1024. -/
theorem shownRate_pos (G : CTMC ℝ L n) (s s' : Fin n) (h : 0 < G.matrix s s') : G.shownRate s s' = G.matrix s s' := if_pos h

/-- C92 fails for the first transition of rate 0 of a state: the learned rate tends to a positive number. -/
theorem shownRate_zero (G : CTMC ℝ L n) (s s' : Fin n) (he : 0 < G.e s) (h : G.matrix s s' = 0) (hf : ∀ j < s', 0 < G.matrix s j) :
    0 < G.shownRate s s' := by
  have he' : (0:ℝ) < ∑ j, G.matrix s j := he
  unfold shownRate
  rw [if_neg (by rw [h]; exact lt_irrefl _), if_pos hf]
  have : Real.exp (-(∑ j, G.matrix s j) * 1024) < 1 := by rw [Real.exp_lt_one_iff]; nlinarith
  have := Real.exp_pos (-(∑ j, G.matrix s j) * 1024)
  exact div_pos (by positivity) (by linarith)

/-! ### The hypotheses can be met -/

/-- Two states, rates 2 and 3, no loops. -/
noncomputable def twoRates : CTMC ℝ ℕ 2 where
  matrix := ![![0, 2], ![3, 0]]
  labelling := ![0, 1]
  initialState := ![1, 0]

/-- An initial model: all rates are 1. -/
noncomputable def unitRates : CTMC ℝ ℕ 2 where
  matrix := fun _ _ => 1
  labelling := ![0, 1]
  initialState := fun _ => 1/2

/-- Sets of traces with three jumps generated by `twoRates`: the rate learned from state 0 to state 1 tends to 2, the rate from 1 to 0 tends to 3; but the
loop of state 0, which does not exist, gets the rate `2 exp(-2048)/(1 - exp(-2048))`. -/
theorem twoRates_learned :
    ∀ᵐ D ∂callsLaw (simLaw 2), ∃ S : ℕ → TSet (Sym ℕ),
      (∀ N, generateSet (fun _ => .str) (fun j k => twoRates.runTimed k (D j).1 (D j).2) N false none (.int 3) (fun _ => 0) = .ok (S N)) ∧
      ∃ st : ℕ → LoopState (CTMC ℝ ℕ 2), (∀ N, 1 ≤ N → fit (stepTimed 4 (fun _ _ => false) (S N)) (1/100) 10 unitRates = .ok (st N)) ∧
        Tendsto (fun N => (st N).h.matrix 0 1) atTop (𝓝 2) ∧ Tendsto (fun N => (st N).h.matrix 1 0) atTop (𝓝 3) ∧
        Tendsto (fun N => (st N).h.matrix 0 0) atTop (𝓝 (2 * Real.exp (-2048) / (1 - Real.exp (-2048)))) := by
  have hv : twoRates.Valid := by
    refine ⟨fun s => ?_, fun s s' => ?_⟩
    · fin_cases s <;> simp [twoRates]
    · fin_cases s <;> fin_cases s' <;> simp [twoRates]
  have he : ∀ s, 0 < twoRates.e s := by
    intro s
    fin_cases s <;> simp [twoRates, e, Fin.sum_univ_two]
  have hinj : Function.Injective twoRates.labelling := by
    intro a b
    fin_cases a <;> fin_cases b <;> simp [twoRates]
  have := twoRates.learning_limit unitRates hv (by simp [twoRates]) he hinj ⟨fun _ => by simp [unitRates], fun _ _ => by simp [unitRates]⟩ rfl
    (fun _ _ => by simp [unitRates]) (fun _ _ _ => by simp [unitRates]) (fun _ => .str) 3 (by norm_num) (fun _ => 0) (fun _ _ => false)
  filter_upwards [this] with D hD
  obtain ⟨S, h1, h2, h3⟩ := hD
  refine ⟨S, h1, ?_⟩
  have h4 : ∀ N, ∃ st, 1 ≤ N → fit (stepTimed 4 (fun _ _ => false) (S N)) (1/100) 10 unitRates = .ok st := by
    intro N
    by_cases hN : 1 ≤ N
    · obtain ⟨st, h⟩ := h2 N hN 4 (1/100) 10 (by norm_num)
      exact ⟨st, fun _ => h⟩
    · exact ⟨⟨unitRates, 0, none⟩, fun h => absurd h hN⟩
  choose st hst using h4
  have h5 := h3 (fun _ => 4) (fun _ => 10) (fun _ => 1/100) st (fun _ => by norm_num) (fun N hN => hst N hN)
  have r0 : ∃ c, 0 < twoRates.initialState c ∧ ∃ j < 3, twoRates.Walk j c 0 := ⟨0, by simp [twoRates], 0, by norm_num, rfl⟩
  have r1 : ∃ c, 0 < twoRates.initialState c ∧ ∃ j < 3, twoRates.Walk j c 1 := ⟨0, by simp [twoRates], 1, by norm_num, 1, by simp [twoRates], rfl⟩
  refine ⟨st, hst, ?_, ?_, ?_⟩
  · have := h5 0 r0 1 rfl
    rwa [twoRates.shownRate_pos 0 1 (by simp [twoRates]), show twoRates.matrix 0 1 = 2 by simp [twoRates]] at this
  · have := h5 1 r1 0 rfl
    rwa [twoRates.shownRate_pos 1 0 (by simp [twoRates]), show twoRates.matrix 1 0 = 3 by simp [twoRates]] at this
  · have := h5 0 r0 0 rfl
    have e : twoRates.shownRate 0 0 = 2 * Real.exp (-2048) / (1 - Real.exp (-2048)) := by
      unfold shownRate
      rw [if_neg (by simp [twoRates]), if_pos (by intro j hj; exact absurd hj (Fin.not_lt_zero j))]
      have : ∑ j, twoRates.matrix 0 j = 2 := by simp [twoRates, Fin.sum_univ_two]
      rw [this]
      norm_num
    rwa [e] at this

end CTMC
end Jajapy
