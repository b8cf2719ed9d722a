import Verif.Props.Kinds
import Verif.Props.MDP
import Verif.Props.BWMDP

/-!
Property C108: a Markov chain as an MDP with one action.
-/

set_option autoImplicit false
set_option linter.unusedSectionVars false

namespace Jajapy

open Spec BW

namespace MC
variable {L : Type} [DecidableEq L] {n : ℕ} {x : L} {M : MC ℝ L n} {D : MDP ℝ L n}

theorem IsMDP.nodup (h : M.IsMDP x D) : D.actions.Nodup := by rw [h.actions]; simp

theorem IsMDP.tauP (h : M.IsMDP x D) (s ss : Fin n) (o : L) : D.tauP s ss (o, x) = M.tau s ss o := by
  rw [D.tauP_eq_step h.nodup]
  unfold MDP.step MC.tau
  rw [h.labelling, h.prob]
  by_cases ho : M.labelling s = o
  · simp [ho]
  · simp [ho, Ne.symm ho]

theorem IsMDP.mask (h : M.IsMDP x D) (o : L) (s : Fin n) : D.mask o s = M.b s o := by
  unfold MDP.mask MC.b
  rw [h.labelling]

theorem IsMDP.foldl (h : M.IsMDP x D) (os : List L) (v : Fin n → ℝ) :
    (os.map (fun o => (o, x))).foldl (fwd D.tauP) v = os.foldl (fwd M.tau) v := by
  rw [List.foldl_map]
  congr 1
  funext v o s
  exact Finset.sum_congr rfl (fun ss _ => by rw [h.tauP])

theorem seqLoop_snoc (M : MC ℝ L n) (last : L) (s : Fin n) (os : List L) : ∀ (v : Fin n → ℝ) (o : L),
    M.iface.seqLoop v o (os ++ [last]) s = (o :: os).foldl (fwd M.tau) v s * M.b s last := by
  induction os with
  | nil => intro v o; rfl
  | cons o' os ih =>
    intro v o
    rw [List.cons_append, Iface.seqLoop, ih]
    rfl

theorem seqProb_snoc (M : MC ℝ L n) (os : List L) (last : L) :
    M.iface.seqProb (os ++ [last]) = .ok (∑ s, os.foldl (fwd M.tau) M.initialState s * M.b s last) := by
  cases os with
  | nil => rfl
  | cons o os =>
    rw [List.cons_append, Iface.seqProb]
    congr 1
    exact Finset.sum_congr rfl (fun s _ => M.seqLoop_snoc last s os _ o)

/-- C108: as an MDP with one action the chain gives every trace the same likelihood. -/
theorem likelihood_asMDP (M : MC ℝ L n) (x : L) (D : MDP ℝ L n) (h : M.IsMDP x D) (w : List L) :
    D.seqProb (w.intersperse x) = M.iface.seqProb w := by
  rcases List.eq_nil_or_concat w with rfl | ⟨os, last, rfl⟩
  · rfl
  · rw [List.concat_eq_append, seqProb_snoc, intersperse_snoc]
    unfold MDP.seqProb
    rw [getLast?_alternate, pairs_alternate]
    dsimp only
    congr 1
    refine Finset.sum_congr rfl (fun s _ => ?_)
    rw [h.mask, D.fwdStep_eq, h.foldl, funext h.initial]

theorem avgLogLik_traces {O : Type} (g : List O → List O) (P P' : List O → ℝ) (S S' : TSet O) (h : ∀ w ∈ S.sequences, P' (g w) = P w)
    (h1 : S'.sequences = S.sequences.map g) (h2 : S'.times = S.times) : avgLogLik P' S' = avgLogLik P S := by
  unfold avgLogLik
  have hm : ∀ p ∈ S.sequences.zip S.times, p.1 ∈ S.sequences := fun p hp => (List.of_mem_zip hp).1
  rw [h1, h2]
  congr 1
  rw [List.zip_map_left, List.filter_map, List.map_map]
  have e : (S.sequences.zip S.times).filter ((fun p : List O × ℕ => decide (0 < P' p.1)) ∘ Prod.map g id)
      = (S.sequences.zip S.times).filter (fun p => decide (0 < P p.1)) :=
    List.filter_congr (fun p hp => by simp only [Function.comp, Prod.map, h _ (hm p hp)])
  rw [e]
  congr 1
  refine List.map_congr_left (fun p hp => ?_)
  simp only [Function.comp, Prod.map]
  rw [h _ (hm p (List.mem_of_mem_filter hp))]
  rfl

theorem odd_intersperse (x : L) (w : List L) (hw : w ≠ []) : (w.intersperse x).length % 2 = 1 := by
  rcases List.eq_nil_or_concat w with rfl | ⟨os, last, rfl⟩
  · exact absurd rfl hw
  · rw [List.concat_eq_append, intersperse_snoc, alternate_length]; omega

theorem IsMDP.matrix_nonneg (h : M.IsMDP x D) (h0 : ∀ s s', 0 ≤ M.matrix s s') (s : Fin n) (i : Fin D.actions.length) (s' : Fin n) :
    0 ≤ D.matrix s i s' := by
  rw [← D.prob_getElem h.nodup]
  have : D.actions[i] = x := by
    have h1 : D.actions[i] ∈ D.actions := List.getElem_mem _
    have h2 : ∀ a ∈ D.actions, a = x := by rw [h.actions]; simp
    exact h2 _ h1
  rw [this, h.prob]
  exact h0 s s'

/-- C108: and `logLikelihood` returns the same value on every set. -/
theorem logLikelihood_asMDP (M : MC ℝ L n) (x : L) (D : MDP ℝ L n) (h : M.IsMDP x D) (hi : ∀ s, 0 ≤ M.initialState s)
    (h0 : ∀ s s', 0 ≤ M.matrix s s') (cpus : ℕ) (hc : 2 ≤ cpus) (S : TSet L) (hS : ∀ w ∈ S.sequences, w ≠ []) (hs : S.times.sum ≠ 0) :
    D.logLikelihoodMultiproc cpus (withAction x S) = M.iface.logLikelihoodMultiproc cpus S := by
  rw [D.logLikelihood_spec h.nodup (fun s => by rw [h.initial]; exact hi s) (h.matrix_nonneg h0) cpus hc (withAction x S) hs
    (fun w hw => by
      obtain ⟨w, hm, rfl⟩ := List.mem_map.1 hw
      exact odd_intersperse x w (hS w hm)), M.logLikelihood_spec cpus hc S hS]
  congr 1
  refine avgLogLik_traces (List.intersperse x) _ _ S _ (fun w hw => ?_) rfl rfl
  have := M.likelihood_asMDP x D h w
  rw [M.seqProb_eq_paths w (hS w hw), D.seqProb_eq h.nodup _ (odd_intersperse x w (hS w hw))] at this
  exact Except.ok.inj this

/-! ### One iteration -/

theorem alphas_snoc (tau : Fin n → Fin n → L → ℝ) (l : L) (os : List L) : ∀ v : Fin n → ℝ,
    (alphas tau v (os ++ [l]))[os.length]? = some (os.foldl (fwd tau) v) := by
  induction os with
  | nil => intro v; rfl
  | cons o os ih => intro v; exact ih _

theorem betas_snoc (tau : Fin n → Fin n → L → ℝ) (g : Fin n → ℝ) (l : L) (os : List L) :
    (betas tau g (os ++ [l]))[os.length]? = some (bwd tau g l) := by
  induction os with
  | nil => rfl
  | cons o os ih => exact ih

theorem IsMDP.lik (h : M.IsMDP x D) (w : List L) (hw : w ≠ []) : D.lik (w.intersperse x) = M.lik w := by
  have := M.likelihood_asMDP x D h w
  rw [M.seqProb_eq_paths w hw, D.seqProb_eq h.nodup _ (odd_intersperse x w hw)] at this
  exact Except.ok.inj this

theorem overSet_traces {O : Type} (g : List O → List O) (P P' c c' : List O → ℝ) (S S' : TSet O) (h : ∀ w ∈ S.sequences, P' (g w) = P w)
    (hc : ∀ w ∈ S.sequences, P w ≠ 0 → c' (g w) = c w)
    (h1 : S'.sequences = S.sequences.map g) (h2 : S'.times = S.times) : overSet S' P' c' = overSet S P c := by
  unfold overSet
  have hm : ∀ p ∈ S.sequences.zip S.times, p.1 ∈ S.sequences := fun p hp => (List.of_mem_zip hp).1
  rw [h1, h2, List.zip_map_left, List.filter_map, List.map_map]
  have e : (S.sequences.zip S.times).filter ((fun p : List O × ℕ => decide (P' p.1 ≠ 0)) ∘ Prod.map g id)
      = (S.sequences.zip S.times).filter (fun p => decide (P p.1 ≠ 0)) :=
    List.filter_congr (fun p hp => by simp only [Function.comp, Prod.map, h _ (hm p hp)])
  rw [e]
  congr 1
  refine List.map_congr_left (fun p hp => ?_)
  have h0 : P p.1 ≠ 0 := by simpa using (List.mem_filter.1 hp).2
  simp only [Function.comp, Prod.map]
  rw [hc _ (hm p (List.mem_of_mem_filter hp)) h0]
  rfl

theorem overSet_add {O : Type} (P c c' : List O → ℝ) (S : TSet O) : overSet S P (fun w => c w + c' w) = overSet S P c + overSet S P c' := by
  unfold overSet
  rw [← List.sum_map_add]
  congr 1
  exact List.map_congr_left (fun p _ => mul_add _ _ _)

theorem overSet_mul {O : Type} (P c : List O → ℝ) (a : ℝ) (S : TSet O) : overSet S P (fun w => c w * a) = overSet S P c * a := by
  unfold overSet
  rw [← List.sum_map_mul_right]
  congr 1
  exact List.map_congr_left (fun p _ => (mul_assoc _ _ _).symm)

theorem IsMDP.step (h : M.IsMDP x D) (s ss : Fin n) (o : L) : D.step s ss (o, x) = M.step s ss o := by
  rw [← D.tauP_eq_step h.nodup, h.tauP, M.tau_eq_step]

/-- What one trace contributes. -/
theorem trace_ends (h : M.IsMDP x D) (hm : ∀ s, ∑ s', M.matrix s s' = 1) (w : List L) (hw : w ≠ []) (s : Fin n) :
    expVisits M.initialState M.step (fun _ => 1) (fun _ => 1) w s
      = expVisits D.initialState D.step (mdpLast D.labelling (w.intersperse x)) (fun y => if y.2 = x then 1 else 0) (mdpSteps (w.intersperse x)) s
        + M.expEnd w s ∧
    ∀ ss, expUses M.initialState M.step (fun _ => 1) (fun _ => 1) w s ss
      = expUses D.initialState D.step (mdpLast D.labelling (w.intersperse x)) (fun y => if y.2 = x then 1 else 0) (mdpSteps (w.intersperse x)) s ss
        + M.expEnd w s * M.matrix s ss := by
  have hne : w.intersperse x ≠ [] := MDP.ne_nil_of_odd (odd_intersperse x w hw)
  have hP : M.lik w = ∑ s, M.initialState s * beta0 M.step (fun _ => 1) w s := (M.lik_eq hm w hw).trans (totalWeight_eq _ _ _ _)
  have hQ : M.lik w = ∑ s, D.initialState s * beta0 D.step (maskMDP D (w.intersperse x)) (pairs (w.intersperse x)) s := by
    rw [← h.lik w hw, ← weightMDP_lik D _ (odd_intersperse x w hw)]
    exact (weightMDP_eq D _ hne).trans (totalWeight_eq _ _ _ _)
  rw [← pairs_eq_mdpSteps, ← maskMDP_eq D _ hne]
  have e1 := expVisits_eq M.step (fun _ => 1) M.initialState (fun _ => 1) w s _ hP 1
  have e2 := expVisits_eq D.step (maskMDP D (w.intersperse x)) D.initialState (fun y : L × L => if y.2 = x then (1 : ℝ) else 0) (pairs (w.intersperse x)) s _ hQ 1
  have e3 := fun ss => expUses_eq M.step (fun _ => 1) M.initialState (fun _ => 1) w s ss _ hP 1
  have e4 := fun ss => expUses_eq D.step (maskMDP D (w.intersperse x)) D.initialState (fun y : L × L => if y.2 = x then (1 : ℝ) else 0) (pairs (w.intersperse x)) s ss _ hQ 1
  rw [one_mul] at e1 e2
  simp only [one_mul] at e3 e4
  rw [← e1, ← e2]
  simp only [← e3, ← e4]
  rcases List.eq_nil_or_concat w with rfl | ⟨os, last, rfl⟩
  · exact absurd rfl hw
  · rw [List.concat_eq_append] at *
    have hE : M.expEnd (os ++ [last]) s = os.foldl (fwd M.step) M.initialState s * bwd M.step (fun _ => 1) last s * (1 / M.lik (os ++ [last])) := by
      unfold expEnd
      rw [← weightAt_eq M.step (fun _ => 1) M.initialState (os ++ [last]) _ s (os.foldl (fwd M.step) M.initialState) (bwd M.step (fun _ => 1) last)
        (by simpa using alphas_snoc M.step last os M.initialState) (by simpa using betas_snoc M.step (fun _ => 1) last os), ← M.lik_eq hm _ hw]
      ring
    have hb : ∀ s, bwd M.step (fun _ => 1) last s = M.b s last := by
      intro s
      unfold bwd MC.step MC.b
      simp only [mul_one, ← Finset.mul_sum, hm]
      rw [one_mul]
    have hmask : ∀ s, maskMDP D (List.intersperse x (os ++ [last])) s = bwd M.step (fun _ => 1) last s := by
      intro s
      rw [hb, ← h.mask]
      unfold maskMDP
      rw [intersperse_snoc, getLast?_alternate]
    rw [hE]
    unfold vis use
    have hpairs : pairs (List.intersperse x (os ++ [last])) = os.map (fun o => (o, x)) := by rw [intersperse_snoc, pairs_alternate]
    rw [hpairs]
    refine ⟨?_, fun ss => ?_⟩
    · rw [visits_snoc]
      congr 1
      have := visits_ren (K := ℝ) (tau := M.step) (tau' := D.step) (σ := Equiv.refl (Fin n)) (f := fun o : L => (o, x)) (c := 1)
        (fun s ss o => by rw [h.step]; simp) (fun _ => 1) (fun y : L × L => if y.2 = x then (1 : ℝ) else 0) 1 0 (fun o => by simp)
        (1 / M.lik (os ++ [last])) (1 / M.lik (os ++ [last])) (bwd M.step (fun _ => 1) last) (maskMDP D (List.intersperse x (os ++ [last]))) hmask os s 1
        M.initialState D.initialState (fun s => by rw [h.initial]; simp) (by simp)
      rw [this]
      simp
    · rw [uses_snoc]
      congr 1
      · have := uses_ren (K := ℝ) (tau := M.step) (tau' := D.step) (σ := Equiv.refl (Fin n)) (f := fun o : L => (o, x)) (c := 1)
          (fun s ss o => by rw [h.step]; simp) (fun _ => 1) (fun y : L × L => if y.2 = x then (1 : ℝ) else 0) (fun o => by simp)
          (1 / M.lik (os ++ [last])) (1 / M.lik (os ++ [last])) (bwd M.step (fun _ => 1) last) (maskMDP D (List.intersperse x (os ++ [last]))) hmask os s ss 1
          M.initialState D.initialState (fun s => by rw [h.initial]; simp) (by simp)
        rw [this]
        simp
      · rw [hb]
        unfold MC.step MC.b
        ring

/-- C108: what the two learners count. The chain also counts the visits at the ends of the traces, and distributes them as the model does. -/
theorem counts_asMDP (M : MC ℝ L n) (x : L) (D : MDP ℝ L n) (h : M.IsMDP x D) (hm : ∀ s, ∑ s', M.matrix s s' = 1) (S : TSet L)
    (hS : ∀ w ∈ S.sequences, w ≠ []) (s : Fin n) :
    M.visits S s = D.visits (withAction x S) s x + M.ends S s ∧
    ∀ ss, M.uses S s ss = D.uses (withAction x S) s x ss + M.ends S s * M.matrix s ss := by
  unfold MC.visits MDP.visits MC.uses MDP.uses MC.ends
  constructor
  · rw [overSet_traces (List.intersperse x) M.lik D.lik _ _ S (withAction x S) (fun w hw => h.lik w (hS w hw)) (fun w _ _ => rfl) rfl rfl, ← overSet_add]
    exact overSet_congr S _ _ _ _ (fun _ _ => rfl) (fun w hw _ => (trace_ends h hm w (hS w hw) s).1)
  · intro ss
    rw [overSet_traces (List.intersperse x) M.lik D.lik _ _ S (withAction x S) (fun w hw => h.lik w (hS w hw)) (fun w _ _ => rfl) rfl rfl, ← overSet_mul,
      ← overSet_add]
    exact overSet_congr S _ _ _ _ (fun _ _ => rfl) (fun w hw _ => (trace_ends h hm w (hS w hw) s).2 ss)

theorem ends_nonneg (M : MC ℝ L n) (hi0 : ∀ s, 0 ≤ M.initialState s) (h0 : ∀ s s', 0 ≤ M.matrix s s') (S : TSet L) (s : Fin n) : 0 ≤ M.ends S s := by
  unfold ends overSet
  refine List.sum_nonneg (fun a ha => ?_)
  obtain ⟨p, _, rfl⟩ := List.mem_map.1 ha
  refine mul_nonneg (Nat.cast_nonneg _) (div_nonneg (Finset.sum_nonneg (fun q _ => ?_)) (totalWeight_nonneg _ _ _ (M.step_nonneg h0) hi0 (fun _ => zero_le_one) _))
  exact mul_nonneg (mul_nonneg (hi0 _) (Finset.prod_nonneg (fun k _ => M.step_nonneg h0 _ _ _))) zero_le_one

/-- C108: one iteration, as a chain and as an MDP with one action. Both succeed or both fail; the reported likelihoods agree; the row learned for the
chain is the row learned for the MDP mixed with the row of the model, in the proportions in which the state is left and ends a trace. -/
theorem step_asMDP (M : MC ℝ L n) (x : L) (D : MDP ℝ L n) (h : M.IsMDP x D) (hM : M.Stochastic) (processes : ℕ) (S : TSet L)
    (hS : ∀ w ∈ S.sequences, w ≠ []) (hlen : S.times.length = S.sequences.length) (hne : S.sequences ≠ []) :
    ((∃ r, stepMC processes S M = .ok r) ↔ ∃ r, stepMDP processes (withAction x S) D = .ok r) ∧
    ∀ M' ll D' ll', stepMC processes S M = .ok (M', ll) → stepMDP processes (withAction x S) D = .ok (D', ll') →
      ll' = ll ∧ D'.actions = [x] ∧ ∀ s s', (D.visits (withAction x S) s x + M.ends S s) * M'.matrix s s'
        = D.visits (withAction x S) s x * D'.prob s x s' + M.ends S s * M.matrix s s' := by
  obtain ⟨hi0, hi, h0, hm⟩ := hM
  have hodd : ∀ w ∈ (withAction x S).sequences, w.length % 2 = 1 := by
    intro w hw
    obtain ⟨w, hm, rfl⟩ := List.mem_map.1 hw
    exact odd_intersperse x w (hS w hm)
  have hl : (withAction x S).times.length = (withAction x S).sequences.length := by
    unfold withAction
    simpa using hlen
  obtain ⟨a1, a2⟩ := M.bw_step_outcome processes S hm hS hlen
  obtain ⟨b1, b2, b3⟩ := D.bw_step_outcome processes (withAction x S) h.nodup hodd hl
  have hmem : ∀ P : ℝ → Prop, (∃ w ∈ (withAction x S).sequences, P (D.lik w)) ↔ ∃ w ∈ S.sequences, P (M.lik w) := by
    intro P
    unfold withAction
    simp only [List.mem_map]
    constructor
    · rintro ⟨_, ⟨w, hw, rfl⟩, hp⟩
      exact ⟨w, hw, by rwa [h.lik w (hS w hw)] at hp⟩
    · rintro ⟨w, hw, hp⟩
      exact ⟨_, ⟨w, hw, rfl⟩, by rwa [h.lik w (hS w hw)]⟩
  have hall : (∀ w ∈ (withAction x S).sequences, D.lik w ≠ 0) ↔ ∀ w ∈ S.sequences, M.lik w ≠ 0 := by
    have := not_congr (hmem (fun p => p = 0))
    push Not at this
    exact this
  have hne' : (withAction x S).sequences ≠ [] := by unfold withAction; simpa using hne
  refine ⟨?_, fun M' ll D' ll' hs hd => ?_⟩
  · rcases Nat.lt_or_ge 1 processes with hp | hp
    · by_cases hw : ∃ w ∈ S.sequences, M.lik w ≠ 0
      · exact ⟨fun _ => b1 (Or.inl ⟨hp, (hmem (fun p => p ≠ 0)).2 hw⟩), fun _ => a1 (Or.inl ⟨hp, hw⟩)⟩
      · have hw' := (not_congr (hmem (fun p => p ≠ 0))).2 hw
        push Not at hw hw'
        rw [a2 (Or.inl ⟨hp, hw⟩), b2 ⟨hp, hw'⟩]
        simp
    · by_cases hw : ∃ w ∈ S.sequences, M.lik w = 0
      · rw [a2 (Or.inr ⟨hp, hw⟩), b3 ⟨hp, (hmem (fun p => p = 0)).2 hw⟩]
        simp
      · push Not at hw
        exact ⟨fun _ => b1 (Or.inr ⟨hp, hne', hall.2 hw⟩), fun _ => a1 (Or.inr ⟨hp, hne, hw⟩)⟩
  · obtain ⟨_, _, m3, m4⟩ := M.bw_update_spec processes S M' ll hm hS hs
    obtain ⟨d1, _, _, d3, d4⟩ := D.bw_update_spec processes _ D' ll' h.nodup hodd hd
    refine ⟨?_, d1.trans h.actions, fun s s' => ?_⟩
    · rw [d4, m4]
      exact overSet_traces (List.intersperse x) M.lik D.lik _ _ S (withAction x S) (fun w hw => h.lik w (hS w hw))
        (fun w hw _ => by rw [h.lik w (hS w hw)]) rfl rfl
    · have hU : (∀ ss, 0 ≤ D.uses (withAction x S) s x ss) ∧ ∑ ss, D.uses (withAction x S) s x ss = D.visits (withAction x S) s x := by
        have hx : x ∈ D.actions := by rw [h.actions]; simp
        obtain ⟨i, hi', hx⟩ := List.mem_iff_getElem.mp hx
        have e' : D.visits (withAction x S) s x = denMDP D (withAction x S) s ⟨i, hi'⟩ := by
          rw [← D.visits_eq (withAction x S) hodd s ⟨i, hi'⟩]; simp [hx]
        have e2 : ∀ ss, D.uses (withAction x S) s x ss = numMDP D (withAction x S) s ⟨i, hi'⟩ ss := by
          intro ss; rw [← D.uses_eq (withAction x S) hodd s ⟨i, hi'⟩]; simp [hx]
        rw [e', ← sum_numMDP]
        simp only [e2]
        exact ⟨fun ss => numMDP_nonneg D _ (fun s => by rw [h.initial]; exact hi0 s) (h.matrix_nonneg h0) _ _ _, trivial⟩
      have hV : 0 ≤ D.visits (withAction x S) s x := by
        rw [← hU.2]
        exact Finset.sum_nonneg (fun ss _ => hU.1 ss)
      have hE := M.ends_nonneg hi0 h0 S s
      obtain ⟨c1, c2⟩ := M.counts_asMDP x D h hm S hS s
      rw [m3, d3, ← c1, h.prob]
      split_ifs with k1 k2 k2
      · rw [c1]; ring
      · have : M.ends S s = 0 := by linarith [lt_of_le_of_ne hV (Ne.symm k2)]
        exact absurd (by linarith) k2
      · have hz : D.uses (withAction x S) s x s' = 0 := by
          have := hU.2.trans k2
          exact (Finset.sum_eq_zero_iff_of_nonneg (fun ss _ => hU.1 ss)).1 this s' (Finset.mem_univ _)
        rw [mul_div_cancel₀ _ k1, c2, k2, hz]
        ring
      · rw [mul_div_cancel₀ _ k1, mul_div_cancel₀ _ k2, c2]

/-- C108: the two learners have the same fixed points: one iteration keeps the chain iff it keeps the MDP. -/
theorem fixed_asMDP (M : MC ℝ L n) (x : L) (D : MDP ℝ L n) (h : M.IsMDP x D) (hM : M.Stochastic) (processes : ℕ) (S : TSet L)
    (hS : ∀ w ∈ S.sequences, w ≠ []) (hlen : S.times.length = S.sequences.length) (hne : S.sequences ≠ []) (M' : MC ℝ L n) (ll : ℝ) (D' : MDP ℝ L n)
    (ll' : ℝ) (hs : stepMC processes S M = .ok (M', ll)) (hd : stepMDP processes (withAction x S) D = .ok (D', ll')) :
    (∀ s s', M'.matrix s s' = M.matrix s s') ↔ ∀ s s', D'.prob s x s' = D.prob s x s' := by
  obtain ⟨_, k⟩ := M.step_asMDP x D h hM processes S hS hlen hne
  obtain ⟨_, _, k⟩ := k M' ll D' ll' hs hd
  have hodd : ∀ w ∈ (withAction x S).sequences, w.length % 2 = 1 := by
    intro w hw
    obtain ⟨w, hm, rfl⟩ := List.mem_map.1 hw
    exact odd_intersperse x w (hS w hm)
  obtain ⟨_, _, _, d3, _⟩ := D.bw_update_spec processes _ D' ll' h.nodup hodd hd
  obtain ⟨_, _, m3, _⟩ := M.bw_update_spec processes S M' ll hM.2.2.2 hS hs
  constructor
  · intro hk s s'
    by_cases hv : D.visits (withAction x S) s x = 0
    · rw [d3, if_pos hv]
    · have := k s s'
      rw [hk, add_mul, add_left_inj] at this
      rw [h.prob]
      exact (mul_left_cancel₀ hv this).symm
  · intro hk s s'
    have := k s s'
    rw [hk, h.prob, ← add_mul] at this
    by_cases hv : M.visits S s = 0
    · rw [m3, if_pos hv]
    · rw [(M.counts_asMDP x D h hM.2.2.2 S hS s).1] at hv
      exact mul_left_cancel₀ hv this

end MC
end Jajapy
