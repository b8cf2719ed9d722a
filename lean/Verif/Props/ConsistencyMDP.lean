import Verif.Lemmas.ConsistencyMDP
import Verif.Props.Consistency
import Verif.Props.BWMDP

/-!
Property C86 for MDPs.
-/

set_option linter.unusedSectionVars false

namespace Jajapy

open MeasureTheory ProbabilityTheory Spec Filter Topology Tools BW

namespace MDP
variable {σ L : Type} [DecidableEq L] {n : ℕ} {sch : Sched ℝ L σ} {P : Policy σ L} {dom : σ → Prop}

theorem expected_prob (G : MDP ℝ L n) (hn : G.actions.Nodup) (hS : G.Stochastic) (hB : Behaves sch P dom)
    (hq : ∀ s m, dom m → 0 < G.acceptProb P s m) (hinj : Function.Injective G.labelling) (steps : ℕ) (A : Finset L)
    (hA : ∀ s, G.labelling s ∈ A) (hA' : ∀ x ∈ G.actions, x ∈ A) (s : Fin n) (x : L) (hx : x ∈ A) (s' : Fin n) :
    expected (tracesOver A (2 * steps + 1)) (G.runProb P) (fun w => (List.range (w.length / 2)).countP
        (fun k => w[2 * k]? = some (G.labelling s) ∧ w[2 * k + 1]? = some x ∧ w[2 * k + 2]? = some (G.labelling s')))
      = G.prob s x s' * expected (tracesOver A (2 * steps + 1)) (G.runProb P) (fun w => (List.range (w.length / 2)).countP
        (fun k => w[2 * k]? = some (G.labelling s) ∧ w[2 * k + 1]? = some x)) := by
  unfold expected
  have e : ∀ g : List L → ℕ, ∑ w ∈ tracesOver A (2 * steps + 1), G.runProb P w * g w
      = ∑ i, G.initialState i * ∑ w ∈ tracesOver A (2 * steps + 1), G.runSuf P P.start i w * g w := by
    intro g
    have : ∀ w ∈ tracesOver A (2 * steps + 1), G.runProb P w * g w = ∑ i, G.initialState i * (G.runSuf P P.start i w * g w) := by
      intro w hw
      rw [G.runProb_suf P w (by rw [((mem_tracesOver _ _ _).1 hw).1]; omega), Finset.sum_mul]
      exact Finset.sum_congr rfl (fun _ _ => by ring)
    rw [Finset.sum_congr rfl this, Finset.sum_comm]
    exact Finset.sum_congr rfl (fun _ _ => by rw [Finset.mul_sum])
  rw [e, e, Finset.mul_sum]
  refine Finset.sum_congr rfl (fun i _ => ?_)
  rw [expected_uses hn hS hB hq A hA hA' hinj s x hx s' steps P.start hB.start i]
  ring

theorem learning_limit_of_behaves (G M : MDP ℝ L n) (hn : G.actions.Nodup) (hG : G.Stochastic) (hM : M.Stochastic)
    (hB : Behaves sch P dom) (hq : ∀ s m, dom m → 0 < G.acceptProb P s m) (hinj : Function.Injective G.labelling)
    (hlab : M.labelling = G.labelling) (hact : M.actions = G.actions) (kind : L → Kind) (steps : ℕ) (geom : ℕ → ℕ) (st0 : σ)
    (ht : drawsLaw {d | ∃ w, G.Returns sch steps st0 w d} = 1)
    (hpos : ∀ w : List L, w.length = 2 * steps + 1 → 0 < G.runProb P w → M.lik w ≠ 0) :
    ∀ᵐ D ∂callsLaw drawsLaw, ∃ S : ℕ → TSet L,
      (∀ N, ∃ tr, G.Collects sch steps st0 D N tr ∧ generateSetMDP kind (fun j _ => .ok (tr j)) N false none (.int steps) geom = .ok (S N)) ∧
      (∀ N, 1 ≤ N → ∀ (processes : ℕ) (epsilon : ℝ) (maxIt : ℕ), 1 < processes →
        ∃ st, fit (stepMDP processes (S N)) epsilon maxIt M = .ok st) ∧
      ∀ (processes maxIt : ℕ → ℕ) (epsilon : ℕ → ℝ) (st : ℕ → LoopState (MDP ℝ L n)),
        (∀ N, 1 ≤ N → 1 ≤ maxIt N ∧ fit (stepMDP (processes N) (S N)) (epsilon N) (maxIt N) M = .ok (st N)) →
        ∀ s x, (∃ w : List L, w.length = 2 * steps + 1 ∧ 0 < G.runProb P w ∧
            ∃ k < steps, w[2 * k]? = some (G.labelling s) ∧ w[2 * k + 1]? = some x) →
          ∀ s', Tendsto (fun N => (st N).h.prob s x s') atTop (𝓝 (G.prob s x s')) := by
  have hsim := G.simulates hn hG hB steps st0 ht
  filter_upwards [hsim.frequencies (genMDP_counts kind steps geom _), hsim.possible (genMDP_counts kind steps geom _), hsim.all_ok] with D hD hp hok
  obtain ⟨S, h1, h5⟩ := hD
  set A : Finset L := Finset.univ.image G.labelling ∪ G.actions.toFinset with hA
  set F := tracesOver A (2 * steps + 1) with hF
  have h4 : ∀ N, ∀ w ∈ (S N).sequences, w ∈ F := by
    intro N w hw
    obtain ⟨a, b⟩ := (h1 N).2.2.2 w hw
    exact (mem_tracesOver _ _ _).2 ⟨a, fun o ho => by simpa [hA] using b o ho⟩
  have hl : ∀ N, ∀ w ∈ (S N).sequences, w.length = 2 * steps + 1 := fun N w hw => ((mem_tracesOver _ _ _).1 (h4 N w hw)).1
  have hlaw : ∀ w : List L, w.length = 2 * steps + 1 → drawsLaw {d | G.outcome sch steps st0 d = .ok w} = ENNReal.ofReal (G.runProb P w) := by
    intro w hw
    simp only [outcome_ok]
    exact G.run_law_of_behaves hB hn hG steps st0 w hw
  have hnn : ∀ w : List L, w.length = 2 * steps + 1 → 0 ≤ G.runProb P w := fun w hw => G.runProb_nonneg hG hB w (by omega)
  have hlik : ∀ N, ∀ w ∈ (S N).sequences, M.lik w ≠ 0 := by
    intro N w hw
    refine hpos w (hl N w hw) ?_
    have h := hp N (S N) (h1 N).1 w hw
    rw [hlaw w (hl N w hw)] at h
    by_contra hc
    exact h (ENNReal.ofReal_eq_zero.2 (not_lt.1 hc))
  have hlim : ∀ w ∈ F, Tendsto (fun N : ℕ => ((S N).mult w : ℝ) / N) atTop (𝓝 (G.runProb P w)) := by
    intro w hw
    have hw' := ((mem_tracesOver _ _ _).1 hw).1
    have := h5 w
    rwa [hlaw w hw', ENNReal.toReal_ofReal (hnn w hw')] at this
  have h2 : ∀ N, (S N).Countable := fun N => (h1 N).2.1
  refine ⟨S, fun N => ?_, fun N hN processes epsilon maxIt hproc => ?_,
    fun processes maxIt epsilon st hfit s x ⟨w, hw, hw0, k, hk, hks, hkx⟩ s' => ?_⟩
  · obtain ⟨tr, e1, e2⟩ := (G.generated_iff hB kind steps geom st0 D hok N (S N)).2 (h1 N).1
    exact ⟨tr, e1, e2⟩
  · have : ∃ w, w ∈ (S N).sequences := by
      by_contra hc
      push Not at hc
      have h0 : (S N).sequences = [] := List.eq_nil_iff_forall_not_mem.2 hc
      have h6 := (h2 N).1.1
      rw [h0, List.length_nil, List.length_eq_zero_iff] at h6
      have h7 := (h1 N).2.2.1
      rw [h6] at h7
      simp at h7
      omega
    obtain ⟨w, hw⟩ := this
    exact MDP.fit_total processes hproc (S N) epsilon maxIt M (by rw [hact]; exact hn) hM (fun w hw => by have := hl N w hw; omega)
      (h2 N).1.1 (h2 N).2.1 w hw (hlik N w hw)
  · have hwF : w ∈ F := by
      have h6 : drawsLaw {d | G.outcome sch steps st0 d = .ok w} ≠ 0 := by
        rw [hlaw w hw]
        exact fun h => absurd (ENNReal.ofReal_eq_zero.1 h) (not_le.2 hw0)
      obtain ⟨d, hd⟩ := nonempty_of_measure_ne_zero h6
      obtain ⟨a, b⟩ := hsim.mem d w hd
      exact (mem_tracesOver _ _ _).2 ⟨a, fun o ho => by simpa [hA] using b o ho⟩
    have hxA : x ∈ A := ((mem_tracesOver _ _ _).1 hwF).2 x (List.mem_of_getElem? hkx)
    have ltries : Tendsto (fun N : ℕ => ((mdpTries (S N) (G.labelling s) x : ℕ) : ℝ) / N) atTop
        (𝓝 (expected F (G.runProb P) (fun w => (List.range (w.length / 2)).countP
          (fun k => w[2 * k]? = some (G.labelling s) ∧ w[2 * k + 1]? = some x)))) :=
      count_limit S F (G.runProb P) h2 h4 hlim (fun w => (List.range (w.length / 2)).countP
          (fun k => w[2 * k]? = some (G.labelling s) ∧ w[2 * k + 1]? = some x))
    have lmoves : Tendsto (fun N : ℕ => ((mdpMoves (S N) (G.labelling s) x (G.labelling s') : ℕ) : ℝ) / N) atTop
        (𝓝 (expected F (G.runProb P) (fun w => (List.range (w.length / 2)).countP
          (fun k => w[2 * k]? = some (G.labelling s) ∧ w[2 * k + 1]? = some x ∧ w[2 * k + 2]? = some (G.labelling s'))))) :=
      count_limit S F (G.runProb P) h2 h4 hlim (fun w => (List.range (w.length / 2)).countP
          (fun k => w[2 * k]? = some (G.labelling s) ∧ w[2 * k + 1]? = some x ∧ w[2 * k + 2]? = some (G.labelling s')))
    have eT : 0 < expected F (G.runProb P) (fun w => (List.range (w.length / 2)).countP
          (fun k => w[2 * k]? = some (G.labelling s) ∧ w[2 * k + 1]? = some x)) := by
      refine Finset.sum_pos' (fun v hv => mul_nonneg (hnn v ((mem_tracesOver _ _ _).1 hv).1) (Nat.cast_nonneg _)) ⟨w, hwF, ?_⟩
      refine mul_pos hw0 ?_
      have : 0 < (List.range (w.length / 2)).countP (fun k => w[2 * k]? = some (G.labelling s) ∧ w[2 * k + 1]? = some x) :=
        List.countP_pos_iff.2 ⟨k, by rw [List.mem_range]; omega, by simp [hks, hkx]⟩
      exact_mod_cast this
    have lf : Tendsto (fun N => (mdpMoves (S N) (G.labelling s) x (G.labelling s') : ℝ) / mdpTries (S N) (G.labelling s) x) atTop
        (𝓝 (G.prob s x s')) := by
      have := ratio_limit _ _ _ _ lmoves ltries eT.ne'
      rw [hF, G.expected_prob hn hG hB hq hinj steps A (by simp [hA]) (by simp +contextual [hA]) s x hxA s', mul_div_assoc,
        div_self (by rw [← hF]; exact eT.ne'), mul_one] at this
      exact this
    refine lf.congr' ?_
    filter_upwards [ltries.eventually_const_lt eT, eventually_ge_atTop 1] with N hN hN1
    obtain ⟨hmax, hf⟩ := hfit N hN1
    have hMinj : Function.Injective M.labelling := by rw [hlab]; exact hinj
    rw [(MDP.fit_observed (processes N) (S N) (epsilon N) (maxIt N) hmax M (by rw [hact]; exact hn) hM hMinj
      (h2 N).1.1 (h2 N).2.1 (hlik N) (st N) hf).2.2.2 s x s', M.frequencies_prob (by rw [hact]; exact hn) hMinj (S N) (hlik N) s x s', hlab,
      if_neg]
    intro h0
    rw [h0] at hN
    simp at hN

theorem accept_of_uniform (G : MDP ℝ L n) (acts : List L) (ha : ∀ s, ∃ x ∈ acts, G.Allowed s x) (s : Fin n) (m : Unit) :
    0 < G.acceptProb (uniformPolicy acts) s m := by
  obtain ⟨x, hx, hal⟩ := ha s
  have hne : acts ≠ [] := List.ne_nil_of_mem hx
  have hxa : x ∈ G.actions := by
    by_contra hna
    obtain ⟨s', hs'⟩ := hal
    rw [G.prob_not_mem s x s' hna] at hs'
    exact lt_irrefl _ hs'
  unfold acceptProb
  refine Finset.sum_pos' (fun y _ => (uniformScheduler_behaves acts hne).nonneg m trivial y) ⟨x, by simp [hxa, hal], ?_⟩
  simp only [uniformPolicy]
  have h1 : 0 < acts.count x := List.count_pos_iff.2 hx
  have h2 : 0 < acts.length := List.length_pos_of_mem hx
  positivity

theorem accept_of_fm (G : MDP ℝ L n) (F : FMScheduler ℝ L) (N : ℕ) (hF : FMValid F N)
    (ha : ∀ s, ∀ m < N, ∃ x, G.Allowed s x ∧ 0 < (fmPolicy F).propose m x) (s : Fin n) (m : ℕ) (hm : m < N) :
    0 < G.acceptProb (fmPolicy F) s m := by
  obtain ⟨x, hal, hp⟩ := ha s m hm
  have hxa : x ∈ G.actions := by
    by_contra hna
    obtain ⟨s', hs'⟩ := hal
    rw [G.prob_not_mem s x s' hna] at hs'
    exact lt_irrefl _ hs'
  unfold acceptProb
  exact Finset.sum_pos' (fun y _ => (fmScheduler_behaves F N hF).nonneg m hm y) ⟨x, by simp [hxa, hal], hp⟩

/-- C86, MDP with data of a uniform scheduler: `G` has pairwise different labels, the initial model `M` has the same labels and actions
and the traces of `G` are possible for `M`. With probability 1, `fit` succeeds for all set sizes and options; with at least one iteration and
any options, the learned probability of every transition for an action that the traces of `G` use in that state
tends to its probability in `G` as the size of the set grows. -/
theorem learning_limit_uniform (G M : MDP ℝ L n) (hn : G.actions.Nodup) (hG : G.Stochastic) (hM : M.Stochastic)
    (hinj : Function.Injective G.labelling) (hlab : M.labelling = G.labelling) (hact : M.actions = G.actions) (acts : List L)
    (hne : acts ≠ []) (ha : ∀ s, ∃ x ∈ acts, G.Allowed s x) (kind : L → Kind) (steps : ℕ) (geom : ℕ → ℕ)
    (hpos : ∀ w : List L, w.length = 2 * steps + 1 → 0 < G.runProb (uniformPolicy acts) w → M.lik w ≠ 0) :
    ∀ᵐ D ∂callsLaw drawsLaw, ∃ S : ℕ → TSet L,
      (∀ N, ∃ tr, G.Collects (uniformScheduler acts) steps () D N tr ∧
        generateSetMDP kind (fun j _ => .ok (tr j)) N false none (.int steps) geom = .ok (S N)) ∧
      (∀ N, 1 ≤ N → ∀ (processes : ℕ) (epsilon : ℝ) (maxIt : ℕ), 1 < processes →
        ∃ st, fit (stepMDP processes (S N)) epsilon maxIt M = .ok st) ∧
      ∀ (processes maxIt : ℕ → ℕ) (epsilon : ℕ → ℝ) (st : ℕ → LoopState (MDP ℝ L n)),
        (∀ N, 1 ≤ N → 1 ≤ maxIt N ∧ fit (stepMDP (processes N) (S N)) (epsilon N) (maxIt N) M = .ok (st N)) →
        ∀ s x, (∃ w : List L, w.length = 2 * steps + 1 ∧ 0 < G.runProb (uniformPolicy acts) w ∧
            ∃ k < steps, w[2 * k]? = some (G.labelling s) ∧ w[2 * k + 1]? = some x) →
          ∀ s', Tendsto (fun N => (st N).h.prob s x s') atTop (𝓝 (G.prob s x s')) :=
  G.learning_limit_of_behaves M hn hG hM (uniformScheduler_behaves acts hne) (fun s m _ => G.accept_of_uniform acts ha s m) hinj hlab hact
    kind steps geom () (G.run_uniform_returns hn hG acts ha steps) hpos

/-- C86, MDP with data of a finite-memory scheduler. -/
theorem learning_limit_fm (G M : MDP ℝ L n) (hn : G.actions.Nodup) (hG : G.Stochastic) (hM : M.Stochastic)
    (hinj : Function.Injective G.labelling) (hlab : M.labelling = G.labelling) (hact : M.actions = G.actions) (F : FMScheduler ℝ L) (k : ℕ)
    (hF : FMValid F k) (ha : ∀ s, ∀ m < k, ∃ x, G.Allowed s x ∧ 0 < (fmPolicy F).propose m x) (kind : L → Kind) (steps : ℕ)
    (geom : ℕ → ℕ) (st0 : ℕ) (hpos : ∀ w : List L, w.length = 2 * steps + 1 → 0 < G.runProb (fmPolicy F) w → M.lik w ≠ 0) :
    ∀ᵐ D ∂callsLaw drawsLaw, ∃ S : ℕ → TSet L,
      (∀ N, ∃ tr, G.Collects F.sched steps st0 D N tr ∧
        generateSetMDP kind (fun j _ => .ok (tr j)) N false none (.int steps) geom = .ok (S N)) ∧
      (∀ N, 1 ≤ N → ∀ (processes : ℕ) (epsilon : ℝ) (maxIt : ℕ), 1 < processes →
        ∃ st, fit (stepMDP processes (S N)) epsilon maxIt M = .ok st) ∧
      ∀ (processes maxIt : ℕ → ℕ) (epsilon : ℕ → ℝ) (st : ℕ → LoopState (MDP ℝ L n)),
        (∀ N, 1 ≤ N → 1 ≤ maxIt N ∧ fit (stepMDP (processes N) (S N)) (epsilon N) (maxIt N) M = .ok (st N)) →
        ∀ s x, (∃ w : List L, w.length = 2 * steps + 1 ∧ 0 < G.runProb (fmPolicy F) w ∧
            ∃ k < steps, w[2 * k]? = some (G.labelling s) ∧ w[2 * k + 1]? = some x) →
          ∀ s', Tendsto (fun N => (st N).h.prob s x s') atTop (𝓝 (G.prob s x s')) :=
  G.learning_limit_of_behaves M hn hG hM (fmScheduler_behaves F k hF) (fun s m hm => G.accept_of_fm F k hF ha s m hm) hinj hlab hact
    kind steps geom st0 (G.run_fm_returns hn hG F k hF ha steps st0) hpos

end MDP
end Jajapy
