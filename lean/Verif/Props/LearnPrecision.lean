import Verif.Lemmas.LearnPrecision
import Verif.Props.ConsistencyEx

/-!
Property C119: how precise what `BW().fit` learns from `N` generated traces is, when the states have pairwise different labels. C86 is the limit.
-/

set_option autoImplicit false
set_option linter.unusedSectionVars false

namespace Jajapy

open MeasureTheory ProbabilityTheory Spec Tools BW

variable {L : Type} [DecidableEq L] {n : ℕ}

theorem stochastic_le_one {m : ℕ} (f : Fin m → ℝ) (h0 : ∀ i, 0 ≤ f i) (h1 : ∑ i, f i ≤ 1) (i : Fin m) : f i ≤ 1 :=
  (Finset.single_le_sum (fun j _ => h0 j) (Finset.mem_univ i)).trans h1

theorem total_ends (S : TSet L) (x : L) : S.total (fun w => if w.getLast? = some x then 1 else 0) = ends S x := by
  unfold TSet.total ends
  congr 2
  funext p
  by_cases h : p.1.getLast? = some x <;> simp [h]

theorem total_visits (S : TSet L) (x : L) : S.total (fun w => w.count x) = leaves S x + ends S x := by
  rw [← total_ends]
  unfold TSet.total leaves
  rw [← List.sum_map_add]
  congr 2
  funext p
  rw [← mul_add, MC.count_split]

namespace MC

/-- C119, Markov chains. `leave` is the expected number of times that a trace leaves the state `s` and `visit` the expected number of its visits. After `k` iterations on
`N` traces, the learned probability of a transition is within `t + (r + u)^k` of the probability in the generating chain, where `r < 1` is the proportion of the visits
of `s` that are at the end of a trace, except for a probability that decreases exponentially with `N`. -/
theorem learning_precision (G M : MC ℝ L n) (hG : G.Stochastic) (hM : M.Stochastic) (hinj : Function.Injective G.labelling)
    (hlab : M.labelling = G.labelling) (kind : L → Kind) (steps : ℕ) (hs : 1 ≤ steps) (geom : ℕ → ℕ)
    (hpos : ∀ w : List L, w.length = steps + 1 → 0 < G.lik w → 0 < M.lik w) (processes : ℕ) (hproc : 1 < processes) (epsilon : ℝ) (maxIt : ℕ) (s s' : Fin n)
    (leave visit : ℝ) (hleave : leave = expected (tracesOver (Finset.univ.image G.labelling) (steps + 1)) G.lik (fun w => w.dropLast.count (G.labelling s)))
    (hvisit : visit = expected (tracesOver (Finset.univ.image G.labelling) (steps + 1)) G.lik (fun w => w.count (G.labelling s)))
    (t u : ℝ) (ht : 0 ≤ t) (ht1 : t ≤ 1) (hu : 0 ≤ u) (hu1 : u ≤ 1) (N : ℕ) (hN : 1 ≤ N) :
    1 - (2 * Real.exp (-(2 * N * (t * leave) ^ 2 / steps ^ 2)) + Real.exp (-(2 * N * (u * visit) ^ 2 / (steps + 1) ^ 2))) ≤
      drawsLaw.real {d | ∃ S st,
        generateSet kind (fun j k => G.run k (fun i => d (j * (steps + 1) + i))) N false none (.int steps) geom = .ok S ∧
        fit (stepMC processes S) epsilon maxIt M = .ok st ∧
        |st.h.matrix s s' - G.matrix s s'| < t + (G.endRate steps s + u) ^ st.counter} := by
  simp only [gen_eq kind _ N false none (.int steps) geom (fun _ => steps) (fun _ => rfl)]
  have hD := G.draws hG steps
  have hr := G.run_reads steps
  have hgen := gen_counts kind {w : List L | w.length = steps + 1 ∧ ∀ o ∈ w, o ∈ Set.range G.labelling} (fun w hw => by have := hw.1; omega)
  have hT := G.traceDist hG steps
  set F := tracesOver (Finset.univ.image G.labelling) (steps + 1) with hF
  have hlen : ∀ w ∈ F, w.length = steps + 1 := fun w hw => ((mem_tracesOver _ _ _).1 hw).1
  have hP : ∀ w ∈ F, 0 ≤ G.lik w := fun w hw => hT.nonneg w (hlen w hw)
  have b1 := (hD.block (Nat.succ_pos steps) hr).ratio hgen (fun w => (w.zip w.tail).count (G.labelling s, G.labelling s')) (fun w => w.dropLast.count (G.labelling s)) steps
    (fun w _ _ => zip_count_le _ _ _) (fun w hw _ => List.count_le_length.trans (by rw [List.length_dropLast, hlen w hw]; omega)) hP (G.matrix s s') (hG.2.2.1 s s')
    (stochastic_le_one _ (hG.2.2.1 s) (hG.2.2.2 s).le s') (by rw [hF]; exact G.expected_matrix hG hinj steps s s') t ht ht1 N hN
  have hcount : ∀ w : List L, (if w.getLast? = some (G.labelling s) then 1 else 0) ≤ w.count (G.labelling s) := by
    intro w
    have := count_split w (G.labelling s)
    omega
  have hv0 : 0 ≤ expected F G.lik (fun w => w.count (G.labelling s)) := Finset.sum_nonneg (fun w hw => mul_nonneg (hP w hw) (Nat.cast_nonneg _))
  have he0 : 0 ≤ expected F G.lik (fun w => if w.getLast? = some (G.labelling s) then 1 else 0) :=
    Finset.sum_nonneg (fun w hw => mul_nonneg (hP w hw) (Nat.cast_nonneg _))
  have hev : expected F G.lik (fun w => if w.getLast? = some (G.labelling s) then 1 else 0) ≤ expected F G.lik (fun w => w.count (G.labelling s)) :=
    Finset.sum_le_sum (fun w hw => mul_le_mul_of_nonneg_left (by exact_mod_cast hcount w) (hP w hw))
  have hr0 : 0 ≤ G.endRate steps s := by
    unfold endRate
    exact div_nonneg he0 hv0
  have b2 := (hD.block (Nat.succ_pos steps) hr).ratio_ge hgen (fun w => if w.getLast? = some (G.labelling s) then 1 else 0) (fun w => w.count (G.labelling s)) (steps + 1)
    (fun w _ _ => hcount w) (fun w hw _ => List.count_le_length.trans (hlen w hw).le) (G.endRate steps s) hr0 (by
      unfold endRate
      rw [← hF]
      rcases hv0.eq_or_lt with h0 | h0
      · rw [← h0] at hev ⊢
        rw [mul_zero]
        exact le_antisymm hev he0
      · rw [div_mul_cancel₀ _ h0.ne']) hv0 u hu hu1 N hN
  rw [← hleave] at b1
  rw [← hvisit] at b2
  push_cast at b2
  have c1 := (stream_real_le (Nat.succ_pos steps) hr (fun s N => gen kind s N) N (fun S => (∀ w ∈ S.sequences, 0 < G.lik w ∧ w ∈ F) ∧
    ¬ (S.total (fun w => w.dropLast.count (G.labelling s)) ≠ 0 ∧
      |(S.total (fun w => (w.zip w.tail).count (G.labelling s, G.labelling s')) : ℝ) / S.total (fun w => w.dropLast.count (G.labelling s)) - G.matrix s s'| < t))).trans b1
  have c2 := (stream_real_le (Nat.succ_pos steps) hr (fun s N => gen kind s N) N (fun S => (∀ w ∈ S.sequences, 0 < G.lik w) ∧
    (G.endRate steps s + u) * (S.total (fun w => w.count (G.labelling s)) : ℝ) ≤ S.total (fun w => if w.getLast? = some (G.labelling s) then 1 else 0))).trans b2
  refine success_ge ((measureReal_union_le (μ := drawsLaw) _ _).trans (add_le_add c1 c2)) ?_
  have hsure := (blocks_law (steps + 1) (Nat.succ_pos steps)).quasiMeasurePreserving.ae ((hD.block (Nat.succ_pos steps) hr).sure hgen N)
  simp only [hr.block] at hsure
  filter_upwards [hsure] with d hd
  obtain ⟨S, e1, e2, e3, e4⟩ := hd
  by_cases h1 : S.total (fun w => w.dropLast.count (G.labelling s)) ≠ 0 ∧
      |(S.total (fun w => (w.zip w.tail).count (G.labelling s, G.labelling s')) : ℝ) / S.total (fun w => w.dropLast.count (G.labelling s)) - G.matrix s s'| < t
  swap
  · exact Or.inl (Or.inl ⟨S, e1, e4, h1⟩)
  by_cases h2 : (G.endRate steps s + u) * (S.total (fun w => w.count (G.labelling s)) : ℝ) ≤ S.total (fun w => if w.getLast? = some (G.labelling s) then 1 else 0)
  · exact Or.inl (Or.inr ⟨S, e1, fun w hw => (e4 w hw).1, h2⟩)
  right
  have hlik : ∀ w ∈ S.sequences, M.lik w ≠ 0 := fun w hw => (hpos w (hlen w (e4 w hw).2) (e4 w hw).1).ne'
  have hex : ∃ w, w ∈ S.sequences := by
    by_contra hc
    push Not at hc
    have h0 : S.sequences = [] := List.eq_nil_iff_forall_not_mem.2 hc
    have h6 := e2.1.1
    rw [h0, List.length_nil, List.length_eq_zero_iff] at h6
    rw [h6] at e3
    simp at e3
    omega
  obtain ⟨w, hw⟩ := hex
  obtain ⟨st, hst⟩ := MC.fit_total processes hproc S epsilon maxIt M hM (fun w hw h0 => by have := hlen w (e4 w hw).2; rw [h0] at this; simp at this)
    e2.1.1 e2.2.1 w hw (hlik w hw)
  refine ⟨S, st, e1, hst, ?_⟩
  have hobs := MC.fit_observed processes S epsilon maxIt M hM (by rw [hlab]; exact hinj) e2.1.1 e2.2.1 hlik st hst s s'
  rw [hlab] at hobs
  rw [total_visits, total_ends] at h2
  have hl0 : leaves S (G.labelling s) ≠ 0 := h1.1
  have hfreq : (M.frequencies S).matrix s s' = (moves S (G.labelling s) (G.labelling s') : ℝ) / leaves S (G.labelling s) := by
    simp only [MC.frequencies, hlab]
    rw [if_neg hl0]
  have hlpos : (0:ℝ) < leaves S (G.labelling s) := by exact_mod_cast Nat.pos_of_ne_zero hl0
  have hmoves : (moves S (G.labelling s) (G.labelling s') : ℝ) ≤ leaves S (G.labelling s) := by
    unfold moves leaves
    norm_cast
    exact List.sum_le_sum (fun q _ => Nat.mul_le_mul_left _ (zip_count_le _ _ _))
  have hfr : |(moves S (G.labelling s) (G.labelling s') : ℝ) / leaves S (G.labelling s) - G.matrix s s'| < t := h1.2
  rw [hobs, hfreq]
  set f : ℝ := (moves S (G.labelling s) (G.labelling s') : ℝ) / leaves S (G.labelling s) with hf
  have f0 : 0 ≤ f := by positivity
  have f1 : f ≤ 1 := by rw [hf, div_le_one hlpos]; exact hmoves
  have m0 := hM.2.2.1 s s'
  have m1 := stochastic_le_one _ (hM.2.2.1 s) (hM.2.2.2 s).le s'
  have hd0 : |M.matrix s s' - f| ≤ 1 := abs_le.2 ⟨by linarith, by linarith⟩
  set r : ℝ := (ends S (G.labelling s) : ℝ) / (leaves S (G.labelling s) + ends S (G.labelling s)) with hrr
  have rr0 : 0 ≤ r := by positivity
  have rr1 : r ≤ G.endRate steps s + u := by
    rw [hrr, div_le_iff₀ (by positivity)]
    push Not at h2
    push_cast at h2
    exact h2.le
  have hpow : r ^ st.counter ≤ (G.endRate steps s + u) ^ st.counter := pow_le_pow_left₀ rr0 rr1 _
  have hprod : |r ^ st.counter * (M.matrix s s' - f)| ≤ (G.endRate steps s + u) ^ st.counter := by
    rw [abs_mul, abs_of_nonneg (by positivity)]
    calc r ^ st.counter * |M.matrix s s' - f| ≤ r ^ st.counter * 1 := mul_le_mul_of_nonneg_left hd0 (by positivity)
      _ ≤ _ := by rw [mul_one]; exact hpow
  have := abs_add_le (f - G.matrix s s') (r ^ st.counter * (M.matrix s s' - f))
  have e : f + r ^ st.counter * (M.matrix s s' - f) - G.matrix s s' = (f - G.matrix s s') + r ^ st.counter * (M.matrix s s' - f) := by ring
  rw [e]
  linarith

end MC

namespace MDP
variable {σ : Type} {sch : Sched ℝ L σ} {P : Policy σ L} {dom : σ → Prop}

/-- How often a trace does the action `x` in the state with the label `o`. -/
def triesIn (o x : L) (w : List L) : ℕ := (List.range (w.length / 2)).countP (fun k => w[2 * k]? = some o ∧ w[2 * k + 1]? = some x)

/-- C119, MDPs: the precision of the learned probabilities, for the pairs of a state and an action that a trace uses at least `v` times in the mean. -/
theorem learning_precision_of_behaves (G M : MDP ℝ L n) (hn : G.actions.Nodup) (hG : G.Stochastic) (hM : M.Stochastic)
    (hB : Behaves sch P dom) (hq : ∀ s m, dom m → 0 < G.acceptProb P s m) (hinj : Function.Injective G.labelling)
    (hlab : M.labelling = G.labelling) (hact : M.actions = G.actions) (kind : L → Kind) (steps : ℕ) (geom : ℕ → ℕ) (st0 : σ)
    (hret : drawsLaw {d | ∃ w, G.Returns sch steps st0 w d} = 1)
    (hpos : ∀ w : List L, w.length = 2 * steps + 1 → 0 < G.runProb P w → M.lik w ≠ 0)
    (processes : ℕ) (hproc : 1 < processes) (epsilon : ℝ) (maxIt : ℕ) (hmax : 1 ≤ maxIt) (U : Finset (Fin n × L)) (hU : ∀ q ∈ U, q.2 ∈ G.actions) (v : ℝ) (hv : 0 ≤ v)
    (hUv : ∀ q ∈ U, v ≤ expected (tracesOver (Finset.univ.image G.labelling ∪ G.actions.toFinset) (2 * steps + 1)) (G.runProb P) (triesIn (G.labelling q.1) q.2))
    (t : ℝ) (ht : 0 ≤ t) (ht1 : t ≤ 1) (N : ℕ) (hN : 1 ≤ N) :
    1 - 2 * U.card * n * Real.exp (-(2 * N * (t * v) ^ 2 / steps ^ 2)) ≤ drawsLaw.real {d | ∃ tr S st, G.CollectsOne sch steps st0 d N tr ∧
      generateSetMDP kind (fun j _ => .ok (tr j)) N false none (.int steps) geom = .ok S ∧
      fit (stepMDP processes S) epsilon maxIt M = .ok st ∧ ∀ q ∈ U, ∀ s', |st.h.prob q.1 q.2 s' - G.prob q.1 q.2 s'| < t} := by
  have hD := G.draws hn hG hB steps st0 hret
  set A : Finset L := Finset.univ.image G.labelling ∪ G.actions.toFinset with hA
  set F := tracesOver A (2 * steps + 1) with hF
  have hlen : ∀ w ∈ F, w.length = 2 * steps + 1 := fun w hw => ((mem_tracesOver _ _ _).1 hw).1
  have hP : ∀ w ∈ F, 0 ≤ G.runProb P w := fun w hw => G.runProb_nonneg hG hB w (by have := hlen w hw; omega)
  letI := simSpace (G.outcome sch steps st0)
  have hgen := genMDP_counts kind steps geom {w : List L | w.length = 2 * steps + 1 ∧ ∀ o ∈ w, o ∈ Set.range G.labelling ∪ {a | a ∈ G.actions}}
  have hone : ∀ q ∈ U, ∀ s', drawsLaw.real {d | ∃ tr S, G.CollectsOne sch steps st0 d N tr ∧
      generateSetMDP kind (fun j _ => .ok (tr j)) N false none (.int steps) geom = .ok S ∧ (∀ w ∈ S.sequences, 0 < G.runProb P w ∧ w ∈ F) ∧
      ¬ (mdpTries S (G.labelling q.1) q.2 ≠ 0 ∧
        |(mdpMoves S (G.labelling q.1) q.2 (G.labelling s') : ℝ) / mdpTries S (G.labelling q.1) q.2 - G.prob q.1 q.2 s'| < t)}
      ≤ 2 * Real.exp (-(2 * N * (t * v) ^ 2 / steps ^ 2)) := by
    intro q hqU s'
    have hp0 : 0 ≤ G.prob q.1 q.2 s' := G.prob_nonneg hG.2.2.1 _ _ _
    have hp1 : G.prob q.1 q.2 s' ≤ 1 := by
      obtain ⟨i, hi, e⟩ := List.getElem_of_mem (hU q hqU)
      rw [← e, show G.prob q.1 G.actions[i] s' = G.matrix q.1 ⟨i, hi⟩ s' from G.prob_getElem hn q.1 ⟨i, hi⟩ s']
      rcases hG.2.2.2 q.1 ⟨i, hi⟩ with h | h
      · exact stochastic_le_one _ (hG.2.2.1 q.1 _) h.le s'
      · exact stochastic_le_one _ (hG.2.2.1 q.1 _) (h.le.trans zero_le_one) s'
    have hxA : q.2 ∈ A := by simp [hA, hU q hqU]
    have b := hD.results.ratio (gen := fun s N => generateSetMDP kind (fun j _ => s j) N false none (.int steps) geom) hgen
      (fun w => (List.range (w.length / 2)).countP (fun k => w[2 * k]? = some (G.labelling q.1) ∧ w[2 * k + 1]? = some q.2 ∧ w[2 * k + 2]? = some (G.labelling s')))
      (triesIn (G.labelling q.1) q.2) steps
      (fun w _ _ => List.countP_mono_left (fun k _ hk => by simp at hk ⊢; exact ⟨hk.1, hk.2.1⟩))
      (fun w hw _ => (List.countP_le_length).trans (by rw [List.length_range, hlen w hw]; omega)) hP (G.prob q.1 q.2 s') hp0 hp1
      (G.expected_prob hn hG hB hq hinj steps A (by simp [hA]) (by simp +contextual [hA]) q.1 q.2 hxA s') t ht ht1 N hN
    refine (G.one_stream_real_le hn hG hB kind steps geom st0 hD.simulates N _ _ b).trans ?_
    have hm : (t * v) ^ 2 ≤ (t * expected F (G.runProb P) (triesIn (G.labelling q.1) q.2)) ^ 2 :=
      pow_le_pow_left₀ (by positivity) (mul_le_mul_of_nonneg_left (hUv q hqU) ht) 2
    have : 2 * N * (t * v) ^ 2 / (steps:ℝ) ^ 2 ≤ 2 * N * (t * expected F (G.runProb P) (triesIn (G.labelling q.1) q.2)) ^ 2 / (steps:ℝ) ^ 2 := by
      gcongr
    have := Real.exp_le_exp.2 (neg_le_neg this)
    linarith
  have hall : drawsLaw.real (⋃ q ∈ U ×ˢ (Finset.univ : Finset (Fin n)), {d | ∃ tr S, G.CollectsOne sch steps st0 d N tr ∧
      generateSetMDP kind (fun j _ => .ok (tr j)) N false none (.int steps) geom = .ok S ∧ (∀ w ∈ S.sequences, 0 < G.runProb P w ∧ w ∈ F) ∧
      ¬ (mdpTries S (G.labelling q.1.1) q.1.2 ≠ 0 ∧
        |(mdpMoves S (G.labelling q.1.1) q.1.2 (G.labelling q.2) : ℝ) / mdpTries S (G.labelling q.1.1) q.1.2 - G.prob q.1.1 q.1.2 q.2| < t)})
      ≤ 2 * U.card * n * Real.exp (-(2 * N * (t * v) ^ 2 / steps ^ 2)) := by
    refine (measureReal_biUnion_finset_le _ _).trans ((Finset.sum_le_sum (fun q hq' => hone q.1 (Finset.mem_product.1 hq').1 q.2)).trans (le_of_eq ?_))
    rw [Finset.sum_const, Finset.card_product, Finset.card_univ, Fintype.card_fin, nsmul_eq_mul]
    push_cast
    ring
  refine success_ge (A := fun d => d ∈ ⋃ q ∈ U ×ˢ (Finset.univ : Finset (Fin n)), _) hall ?_
  have hsure := G.one_stream_sure hn hG hB kind steps geom st0 hD.simulates N (fun S => S.Countable ∧ S.times.sum = N ∧
    ∀ w ∈ S.sequences, 0 < G.runProb P w ∧ w ∈ F) (hD.results.sure (gen := fun s N => generateSetMDP kind (fun j _ => s j) N false none (.int steps) geom) hgen N)
  filter_upwards [hsure] with d hd
  obtain ⟨tr, S, e0, e1, e2, e3, e4⟩ := hd
  by_cases hgood : ∀ q ∈ U, ∀ s', mdpTries S (G.labelling q.1) q.2 ≠ 0 ∧
        |(mdpMoves S (G.labelling q.1) q.2 (G.labelling s') : ℝ) / mdpTries S (G.labelling q.1) q.2 - G.prob q.1 q.2 s'| < t
  swap
  · left
    push Not at hgood
    obtain ⟨q, hqU, s', hbad⟩ := hgood
    simp only [Set.mem_iUnion]
    refine ⟨(q, s'), Finset.mem_product.2 ⟨hqU, Finset.mem_univ _⟩, tr, S, e0, e1, e4, fun hc => ?_⟩
    exact absurd hc.2 (not_lt.2 (hbad hc.1))
  right
  have hlik : ∀ w ∈ S.sequences, M.lik w ≠ 0 := fun w hw => hpos w (hlen w (e4 w hw).2) (e4 w hw).1
  have hex : ∃ w, w ∈ S.sequences := by
    by_contra hc
    push Not at hc
    have h0 : S.sequences = [] := List.eq_nil_iff_forall_not_mem.2 hc
    have h6 := e2.1.1
    rw [h0, List.length_nil, List.length_eq_zero_iff] at h6
    rw [h6] at e3
    simp at e3
    omega
  obtain ⟨w, hw⟩ := hex
  obtain ⟨st, hst⟩ := MDP.fit_total processes hproc S epsilon maxIt M (by rw [hact]; exact hn) hM (fun w hw => by have := hlen w (e4 w hw).2; omega)
    e2.1.1 e2.2.1 w hw (hlik w hw)
  refine ⟨tr, S, st, e0, e1, hst, fun q hqU s' => ?_⟩
  have hMinj : Function.Injective M.labelling := by rw [hlab]; exact hinj
  rw [(MDP.fit_observed processes S epsilon maxIt hmax M (by rw [hact]; exact hn) hM hMinj e2.1.1 e2.2.1 hlik st hst).2.2.2 q.1 q.2 s',
    M.frequencies_prob (by rw [hact]; exact hn) hMinj S hlik q.1 q.2 s', hlab, if_neg (hgood q hqU s').1]
  exact (hgood q hqU s').2

/-- C119, data of an MDP under the uniform scheduler: after at least one iteration on `N` traces, the learned probabilities for all pairs of a state and an action in `U`, each used at
least `v` times by a trace in the mean, are within `t` of those of the generating MDP, except for a probability that decreases exponentially with `N`. -/
theorem learning_precision_uniform (G M : MDP ℝ L n) (hn : G.actions.Nodup) (hG : G.Stochastic) (hM : M.Stochastic)
    (hinj : Function.Injective G.labelling) (hlab : M.labelling = G.labelling) (hact : M.actions = G.actions) (acts : List L)
    (hne : acts ≠ []) (ha : ∀ s, ∃ x ∈ acts, G.Allowed s x) (kind : L → Kind) (steps : ℕ) (geom : ℕ → ℕ)
    (hpos : ∀ w : List L, w.length = 2 * steps + 1 → 0 < G.runProb (uniformPolicy acts) w → M.lik w ≠ 0)
    (processes : ℕ) (hproc : 1 < processes) (epsilon : ℝ) (maxIt : ℕ) (hmax : 1 ≤ maxIt) (U : Finset (Fin n × L)) (hU : ∀ q ∈ U, q.2 ∈ G.actions) (v : ℝ) (hv : 0 ≤ v)
    (hUv : ∀ q ∈ U, v ≤ expected (tracesOver (Finset.univ.image G.labelling ∪ G.actions.toFinset) (2 * steps + 1)) (G.runProb (uniformPolicy acts)) (triesIn (G.labelling q.1) q.2))
    (t : ℝ) (ht : 0 ≤ t) (ht1 : t ≤ 1) (N : ℕ) (hN : 1 ≤ N) :
    1 - 2 * U.card * n * Real.exp (-(2 * N * (t * v) ^ 2 / steps ^ 2)) ≤ drawsLaw.real {d | ∃ tr S st, G.CollectsOne (uniformScheduler acts) steps () d N tr ∧
      generateSetMDP kind (fun j _ => .ok (tr j)) N false none (.int steps) geom = .ok S ∧
      fit (stepMDP processes S) epsilon maxIt M = .ok st ∧ ∀ q ∈ U, ∀ s', |st.h.prob q.1 q.2 s' - G.prob q.1 q.2 s'| < t} :=
  G.learning_precision_of_behaves M hn hG hM (uniformScheduler_behaves acts hne) (fun s m _ => G.accept_of_uniform acts ha s m) hinj hlab hact
    kind steps geom () (G.run_uniform_returns hn hG acts ha steps) hpos processes hproc epsilon maxIt hmax U hU v hv hUv t ht ht1 N hN

/-- C119, data of an MDP under a finite-memory scheduler: after at least one iteration on `N` traces, the learned probabilities for all pairs of a state and an action in `U`, each used at
least `v` times by a trace in the mean, are within `t` of those of the generating MDP, except for a probability that decreases exponentially with `N`. -/
theorem learning_precision_fm (G M : MDP ℝ L n) (hn : G.actions.Nodup) (hG : G.Stochastic) (hM : M.Stochastic)
    (hinj : Function.Injective G.labelling) (hlab : M.labelling = G.labelling) (hact : M.actions = G.actions) (F : FMScheduler ℝ L) (k : ℕ)
    (hF : FMValid F k) (ha : ∀ s, ∀ m < k, ∃ x, G.Allowed s x ∧ 0 < (fmPolicy F).propose m x) (kind : L → Kind) (steps : ℕ) (geom : ℕ → ℕ) (st0 : ℕ)
    (hpos : ∀ w : List L, w.length = 2 * steps + 1 → 0 < G.runProb (fmPolicy F) w → M.lik w ≠ 0)
    (processes : ℕ) (hproc : 1 < processes) (epsilon : ℝ) (maxIt : ℕ) (hmax : 1 ≤ maxIt) (U : Finset (Fin n × L)) (hU : ∀ q ∈ U, q.2 ∈ G.actions) (v : ℝ) (hv : 0 ≤ v)
    (hUv : ∀ q ∈ U, v ≤ expected (tracesOver (Finset.univ.image G.labelling ∪ G.actions.toFinset) (2 * steps + 1)) (G.runProb (fmPolicy F)) (triesIn (G.labelling q.1) q.2))
    (t : ℝ) (ht : 0 ≤ t) (ht1 : t ≤ 1) (N : ℕ) (hN : 1 ≤ N) :
    1 - 2 * U.card * n * Real.exp (-(2 * N * (t * v) ^ 2 / steps ^ 2)) ≤ drawsLaw.real {d | ∃ tr S st, G.CollectsOne (F.sched) steps st0 d N tr ∧
      generateSetMDP kind (fun j _ => .ok (tr j)) N false none (.int steps) geom = .ok S ∧
      fit (stepMDP processes S) epsilon maxIt M = .ok st ∧ ∀ q ∈ U, ∀ s', |st.h.prob q.1 q.2 s' - G.prob q.1 q.2 s'| < t} :=
  G.learning_precision_of_behaves M hn hG hM (fmScheduler_behaves F k hF) (fun s m hm => G.accept_of_fm F k hF ha s m hm) hinj hlab hact
    kind steps geom st0 (G.run_fm_returns hn hG F k hF ha steps st0) hpos processes hproc epsilon maxIt hmax U hU v hv hUv t ht ht1 N hN

end MDP

/-! ### Examples -/

theorem exp_neg_ten {x : ℝ} (h : 10 ≤ x) : Real.exp (-x) ≤ 1 / 1024 := by
  have h1 : (2:ℝ) ≤ Real.exp 1 := by have := Real.add_one_le_exp (1:ℝ); linarith
  have h2 : (1024:ℝ) ≤ Real.exp 10 := by
    rw [show (10:ℝ) = ((10:ℕ):ℝ) * 1 by norm_num, Real.exp_nat_mul]
    calc (1024:ℝ) = 2 ^ 10 := by norm_num
      _ ≤ _ := pow_le_pow_left₀ (by norm_num) h1 10
  rw [Real.exp_neg, inv_eq_one_div]
  exact one_div_le_one_div_of_le (by norm_num) (h2.trans (Real.exp_le_exp.2 h))

/-- 4000 traces of the chain `exMC`: starting with 1/4 (`exMC'`), after `k` iterations the learned probability is within `1/10 + 1/2^k` of 1/2, with a probability of 99%. -/
theorem exMC_learning_sample (maxIt : ℕ) : (99/100 : ℝ) ≤ drawsLaw.real {d | ∃ S st,
      generateSet (fun _ => .str) (fun j k => (exMC ℝ).run k (fun i => d (j * (2 + 1) + i))) 4000 false none (.int 2) (fun _ => 0) = .ok S ∧
      fit (stepMC 4 S) 0 maxIt exMC' = .ok st ∧ |st.h.matrix 0 0 - 1 / 2| < 1 / 10 + (1 / 2) ^ st.counter} := by
  have h := (exMC ℝ).learning_precision exMC' exMC_stochastic_real exMC'_stochastic exMC_inj rfl (fun _ => .str) 2 (by norm_num) (fun _ => 0)
    (fun w _ hp => (MC.possible_of_support _ _ exMC_stochastic_real exMC'_stochastic rfl
      (fun _ h => h) (by intro s s'; fin_cases s <;> fin_cases s' <;> simp [exMC, exMC']) w hp)) 4 (by norm_num) 0 maxIt 0 0 1 (3 / 2)
    (by rw [exMC_expected]; have : (exMC ℝ).labelling 0 = 0 := rfl; simp only [this]; norm_num)
    (by rw [exMC_expected]; have : (exMC ℝ).labelling 0 = 0 := rfl; simp only [this]; norm_num) (1/10) (1/6) (by norm_num) (by norm_num) (by norm_num) (by norm_num)
    4000 (by norm_num)
  rw [exMC_endRate, show (exMC ℝ).matrix 0 0 = 1 / 2 by simp [exMC], show (1:ℝ) / 3 + 1 / 6 = 1 / 2 by norm_num] at h
  refine le_trans ?_ h
  have h1 := exp_neg_ten (x := 2 * ((4000:ℕ):ℝ) * (1 / 10 * 1) ^ 2 / ((2:ℕ):ℝ) ^ 2) (by norm_num)
  have h2 := exp_neg_ten (x := 2 * ((4000:ℕ):ℝ) * (1 / 6 * (3 / 2)) ^ 2 / (((2:ℕ):ℝ) + 1) ^ 2) (by norm_num)
  linarith

theorem exMDP_tries : (1/4 : ℝ) ≤ expected (tracesOver (Finset.univ.image (exMDP ℝ).labelling ∪ (exMDP ℝ).actions.toFinset) (2 * 2 + 1))
    ((exMDP ℝ).runProb (uniformPolicy [10, 11])) (MDP.triesIn 2 11) := by
  unfold expected
  have hm : [2, 11, 1, 10, 1] ∈ tracesOver (Finset.univ.image (exMDP ℝ).labelling ∪ (exMDP ℝ).actions.toFinset) (2 * 2 + 1) := by
    have : (exMDP ℝ).labelling = (![0, 1, 2] : Fin 3 → ℕ) := rfl
    have h2 : (exMDP ℝ).actions = [10, 11] := rfl
    rw [this, h2, mem_tracesOver]
    decide
  refine le_trans ?_ (Finset.single_le_sum (fun w hw => mul_nonneg ((exMDP ℝ).runProb_nonneg MDP.exMDP_stochastic_real.1 (uniformScheduler_behaves [10, 11] (by simp)) w
    (by have := ((mem_tracesOver _ _ _).1 hw).1; omega)) (Nat.cast_nonneg _)) hm)
  rw [MDP.exMDP_runProb, show MDP.triesIn 2 11 [2, 11, 1, 10, 1] = 1 by decide]
  norm_num

/-- 32000 traces of the MDP `exMDP` under the uniform scheduler: one iteration from `exMDP'` gives the probabilities of the action 11 in the state 2 up to 1/10, with a
probability of 99%. -/
theorem exMDP_learning_sample : (99/100 : ℝ) ≤ drawsLaw.real {d | ∃ tr S st, (exMDP ℝ).CollectsOne (uniformScheduler [10, 11]) 2 () d 32000 tr ∧
      generateSetMDP (fun _ => .str) (fun j _ => .ok (tr j)) 32000 false none (.int 2) (fun _ => 0) = .ok S ∧
      fit (stepMDP 4 S) 0 1 exMDP' = .ok st ∧ ∀ s', |st.h.prob 2 11 s' - (exMDP ℝ).prob 2 11 s'| < 1 / 10} := by
  have h := (exMDP ℝ).learning_precision_uniform exMDP' MDP.exMDP_stochastic_real.2 MDP.exMDP_stochastic_real.1 exMDP'_stochastic (by
    have : (exMDP ℝ).labelling = (![0, 1, 2] : Fin 3 → ℕ) := rfl
    rw [this]
    decide) rfl rfl [10, 11] (by simp) (by
      obtain ⟨h1, h2, h3, h4, h5⟩ := MDP.exMDP_allowed
      intro s
      refine ⟨10, by simp, ?_⟩
      fin_cases s
      · exact h5
      · exact h3
      · exact h2) (fun _ => .str) 2 (fun _ => 0) (exMDP_possible _) 4 (by norm_num) 0 1 le_rfl {(2, 11)} (by simp [exMDP]) (1/4) (by norm_num)
      (by
        intro q hq
        rw [Finset.mem_singleton.1 hq]
        exact exMDP_tries) (1/10) (by norm_num) (by norm_num) 32000 (by norm_num)
  simp only [Finset.mem_singleton, forall_eq, Finset.card_singleton] at h
  refine le_trans ?_ h
  have h1 := exp_neg_ten (x := 2 * ((32000:ℕ):ℝ) * (1 / 10 * (1 / 4)) ^ 2 / ((2:ℕ):ℝ) ^ 2) (by norm_num)
  push_cast at h1 ⊢
  linarith

/-- The hypotheses are met with the example of a finite-memory scheduler. -/
example (N : ℕ) (hN : 1 ≤ N) := (exMDP ℝ).learning_precision_fm exMDP' MDP.exMDP_stochastic_real.2 MDP.exMDP_stochastic_real.1 exMDP'_stochastic (by
    have : (exMDP ℝ).labelling = (![0, 1, 2] : Fin 3 → ℕ) := rfl
    rw [this]
    decide) rfl rfl (exFM ℝ) 2 MDP.exFM_valid MDP.exFM_allowed (fun _ => .str) 2 (fun _ => 0) 1 (exMDP_possible _) 4 (by norm_num) 0 1 le_rfl {(2, 11)} (by simp [exMDP])
    (expected (tracesOver (Finset.univ.image (exMDP ℝ).labelling ∪ (exMDP ℝ).actions.toFinset) (2 * 2 + 1)) ((exMDP ℝ).runProb (fmPolicy (exFM ℝ))) (MDP.triesIn 2 11))
    (Finset.sum_nonneg (fun w hw => mul_nonneg ((exMDP ℝ).runProb_nonneg MDP.exMDP_stochastic_real.1 (fmScheduler_behaves (exFM ℝ) 2 MDP.exFM_valid) w
      (by have := ((mem_tracesOver _ _ _).1 hw).1; omega)) (Nat.cast_nonneg _)))
    (fun q hq => by rw [Finset.mem_singleton.1 hq]; exact le_rfl) (1/10) (by norm_num) (by norm_num) N hN

end Jajapy
