import Verif.Props.PLearnFit
import Verif.Lemmas.PWalker

set_option linter.unusedSectionVars false

/-!
Property theorems C98: learning the parameters of a PCTMC from timed traces that it generated.
-/

namespace Jajapy

open MeasureTheory ProbabilityTheory Spec Filter Topology Tools BW

/-- The root of a converging sequence of increasing functions. -/
theorem root_limit {ι : Type} [Fintype ι] (deg : ι → ℕ) (cof : ι → ℝ) (hc : ∀ i, 0 ≤ cof i) (t : ℕ → ι → ℝ) (ht : ∀ N i, 0 ≤ t N i) (τ : ι → ℝ)
    (hτ : ∀ i, Tendsto (fun N => t N i) atTop (𝓝 (τ i))) (o : ℕ → ℝ) (g : ℝ) (hg : 0 ≤ g)
    (ho : Tendsto o atTop (𝓝 (∑ i, deg i * (τ i * (cof i * g ^ deg i))))) (hpos : ∃ i, deg i ≠ 0 ∧ 0 < cof i ∧ 0 < τ i)
    (x : ℕ → ℝ) (hx : ∀ᶠ N in atTop, 0 ≤ x N ∧ ∑ i, deg i * (t N i * (cof i * x N ^ deg i)) = o N) : Tendsto x atTop (𝓝 g) := by
  have hτ0 : ∀ i, 0 ≤ τ i := fun i => ge_of_tendsto' (hτ i) (fun N => ht N i)
  have hlim : ∀ y : ℝ, Tendsto (fun N => ∑ i, deg i * (t N i * (cof i * y ^ deg i))) atTop (𝓝 (∑ i, deg i * (τ i * (cof i * y ^ deg i)))) :=
    fun y => tendsto_finset_sum _ (fun i _ => ((hτ i).mul_const _).const_mul _)
  have hmono : ∀ N (y z : ℝ), 0 ≤ y → y ≤ z → ∑ i, deg i * (t N i * (cof i * y ^ deg i)) ≤ ∑ i, deg i * (t N i * (cof i * z ^ deg i)) :=
    fun N y z hy hyz => Finset.sum_le_sum (fun i _ => mul_le_mul_of_nonneg_left (mul_le_mul_of_nonneg_left
      (mul_le_mul_of_nonneg_left (pow_le_pow_left₀ hy hyz _) (hc i)) (ht N i)) (Nat.cast_nonneg _))
  have hstrict : ∀ y z : ℝ, 0 ≤ y → y < z → ∑ i, deg i * (τ i * (cof i * y ^ deg i)) < ∑ i, deg i * (τ i * (cof i * z ^ deg i)) := by
    intro y z hy hyz
    obtain ⟨i, h1, h2, h3⟩ := hpos
    refine Finset.sum_lt_sum (fun i _ => mul_le_mul_of_nonneg_left (mul_le_mul_of_nonneg_left
      (mul_le_mul_of_nonneg_left (pow_le_pow_left₀ hy hyz.le _) (hc i)) (hτ0 i)) (Nat.cast_nonneg _)) ⟨i, Finset.mem_univ _, ?_⟩
    exact mul_lt_mul_of_pos_left (mul_lt_mul_of_pos_left (mul_lt_mul_of_pos_left (pow_lt_pow_left₀ hyz hy h1) h2) h3)
      (by positivity)
  refine tendsto_order.2 ⟨fun a ha => ?_, fun b hb => ?_⟩
  · by_cases ha0 : a < 0
    · filter_upwards [hx] with N hN
      exact lt_of_lt_of_le ha0 hN.1
    · filter_upwards [hx, (hlim a).eventually_lt ho (hstrict a g (not_lt.1 ha0) ha)] with N hN hlt
      by_contra hc'
      have := hmono N (x N) a hN.1 (not_lt.1 hc')
      rw [hN.2] at this
      exact absurd hlt (not_lt.2 this)
  · filter_upwards [hx, ho.eventually_lt (hlim b) (hstrict g b hg hb)] with N hN hlt
    by_contra hc'
    have := hmono N b (x N) (hg.trans hb.le) (not_lt.1 hc')
    rw [hN.2] at this
    exact absurd hlt (not_lt.2 this)

namespace PCTMC

theorem den_atOne {e : Expr ℝ} {I : Finset String} (hm : e.Monomial (fun q => q ∈ I)) (p : String) (hp : p ∈ I) (ρ : String → ℝ) :
    e.den ρ = e.den (Function.update ρ p 1) * ρ p ^ e.degree p := by
  have := Expr.den_scale I hm (Function.update ρ p 1) ρ (fun q => if q = p then ρ p else 1)
    (fun q _ => by
      by_cases hq : q = p
      · subst hq; simp
      · simp [hq])
    (fun q hq => by
      have : q ≠ p := fun h' => hq (h' ▸ hp)
      simp [this])
  rw [this]
  congr 1
  rw [Finset.prod_eq_single p]
  · rw [if_pos rfl]
  · intro b _ hb
    rw [if_neg hb, one_pow]
  · intro h'; exact absurd hp h'

/-- The data of generated sets: what the sets tend to determines the limit of the values that solve the equations of C97. -/
theorem limit_core (G : PCTMC ℝ) (v : Valuation ℝ) (toUpdate : List String) (hG : G.Live (fun q => (G.values.lookup q).getD 0))
    (hM : ({ G with values := v } : PCTMC ℝ).Estimable (G.names.filter (fun p => p ∉ toUpdate)))
    (hsame : ∀ q, q ∉ toUpdate → v.lookup q = G.values.lookup q) (steps : ℕ) (S : ℕ → TSet (Sym String)) (hw : ∀ N, WaitsNonneg (S N))
    (h3 : ∀ s, Tendsto (fun N : ℕ => totalTime (S N) ((G.chain (fun q => (G.values.lookup q).getD 0)).labelling s) / N) atTop
        (𝓝 ((G.walker _ hG).meanTime steps s)) ∧
      ∀ s', Tendsto (fun N : ℕ => (jumpCount (S N) ((G.chain (fun q => (G.values.lookup q).getD 0)).labelling s)
        ((G.chain (fun q => (G.values.lookup q).getD 0)).labelling s') : ℝ) / N) atTop
          (𝓝 ((G.chain (fun q => (G.values.lookup q).getD 0)).matrix s s' * (G.walker _ hG).meanTime steps s)))
    (p : String) (hn : p ∈ G.names) (hp : p ∈ toUpdate) (ha : G.Alone toUpdate p) (x0 : ℝ) (hx0 : v.lookup p = some x0) (hx0p : 0 < x0)
    (g : ℝ) (hgv : G.values.lookup p = some g) (hg : 0 ≤ g)
    (hreach : ∃ i j : Fin G.matrix.length, (G.rateExpr i j).Occurs p ∧ 0 < G.rateAtOne p i j ∧ ∃ c, 0 < (G.chain (fun _ => 0)).initialState c ∧
      ∃ k < steps, (G.chain (fun q => (G.values.lookup q).getD 0)).Walk k c i)
    (x : ℕ → ℝ) (hx : ∀ᶠ N in atTop, 0 ≤ x N ∧ (({ G with values := v } : PCTMC ℝ).expectedUses (S N) p 1 ≠ 0 →
      ({ G with values := v } : PCTMC ℝ).expectedUses (S N) p (x N) = ({ G with values := v } : PCTMC ℝ).observedUses (S N) p)) :
    Tendsto x atTop (𝓝 g) := by
  set M : PCTMC ℝ := { G with values := v } with hMdef
  set ρ : String → ℝ := fun q => (G.values.lookup q).getD 0 with hρ
  have hpe : p ∈ M.estimated (G.names.filter (fun p => p ∉ toUpdate)) := (M.mem_estimated' toUpdate p).2 ⟨hn, hp⟩
  have hcof : ∀ i j : Fin G.matrix.length, 0 ≤ M.rateAtOne p i j := rateAtOne_nonneg hM hpe (by rw [valOf_of_lookup hx0]; exact hx0p)
  have hone : ∀ i j : Fin G.matrix.length, (G.rateExpr i j).Occurs p → M.rateAtOne p i j = G.rateAtOne p i j := fun i j ho => by
    refine Expr.den_congr _ _ _ (fun q hq => ?_)
    by_cases hqp : q = p
    · subst hqp; simp
    · rw [Function.update_of_ne hqp, Function.update_of_ne hqp]
      by_cases hqn : q ∈ toUpdate
      · exact absurd (ha i j i.2 j.2 ho q hqn hq) hqp
      · show (v.lookup q).getD 0 = (G.values.lookup q).getD 0
        rw [hsame q hqn]
  have hrate : ∀ i j : Fin G.matrix.length, (G.rateExpr i j).Occurs p → (G.chain ρ).matrix i j = M.rateAtOne p i j * g ^ (G.rateExpr i j).degree p :=
    fun i j ho => by
      rw [hone i j ho]
      have := den_atOne (hM.mono i.2 j.2) p hpe ρ
      have hgρ : ρ p = g := by rw [hρ]; simp only [hgv, Option.getD_some]
      rw [hgρ] at this
      exact this
  obtain ⟨i0, j0, ho0, hc0, c0, hc0i, k0, hk0, hw0⟩ := hreach
  have hdeg0 : (G.rateExpr i0 j0).degree p ≠ 0 := (Expr.degree_pos (hM.mono i0.2 j0.2) p hpe ho0).ne'
  have hτ0 : 0 < (G.walker ρ hG).meanTime steps i0 := (G.walker ρ hG).meanTime_pos steps i0 ⟨c0, hc0i, k0, hk0, (path_eq hG k0 c0 i0).2 hw0⟩
  have hpairs : ∀ f : Fin G.matrix.length → Fin G.matrix.length → ℝ, ∑ x : Fin G.matrix.length × Fin G.matrix.length, f x.1 x.2 = ∑ i, ∑ j, f i j := sum_pairs
  have hexp : ∀ N (y : ℝ), ∑ x : Fin G.matrix.length × Fin G.matrix.length, ((G.rateExpr x.1 x.2).degree p : ℝ) *
      (totalTime (S N) ((G.chain ρ).labelling x.1) / N * (M.rateAtOne p x.1 x.2 * y ^ (G.rateExpr x.1 x.2).degree p)) = M.expectedUses (S N) p y / N := by
    intro N y
    rw [hpairs (fun i j => ((G.rateExpr i j).degree p : ℝ) *
      (totalTime (S N) ((G.chain ρ).labelling i) / N * (M.rateAtOne p i j * y ^ (G.rateExpr i j).degree p)))]
    unfold expectedUses
    simp only [Finset.sum_div]
    refine Finset.sum_congr rfl (fun i _ => Finset.sum_congr rfl (fun j _ => ?_))
    show ((G.rateExpr i j).degree p : ℝ) * (totalTime (S N) (G.labelling.getD i "") / N * (M.rateAtOne p i j * y ^ (G.rateExpr i j).degree p))
      = ((G.rateExpr i j).degree p : ℝ) * (totalTime (S N) (G.labelling.getD i "") * (M.rateAtOne p i j * y ^ (G.rateExpr i j).degree p)) / N
    ring
  refine root_limit (fun x : Fin G.matrix.length × Fin G.matrix.length => (G.rateExpr x.1 x.2).degree p) (fun x => M.rateAtOne p x.1 x.2) (fun x => hcof x.1 x.2)
    (fun N x => totalTime (S N) ((G.chain ρ).labelling x.1) / N) (fun N x => div_nonneg (CTMC.totalTime_nonneg _ (hw N) _) (Nat.cast_nonneg _))
    (fun x => (G.walker ρ hG).meanTime steps x.1) (fun x => (h3 x.1).1) (fun N => M.observedUses (S N) p / N) g hg ?_
    ⟨(i0, j0), hdeg0, by rw [hone i0 j0 ho0]; exact hc0, hτ0⟩ _ ?_
  · have e : ∀ N : ℕ, M.observedUses (S N) p / N = ∑ x : Fin G.matrix.length × Fin G.matrix.length, ((G.rateExpr x.1 x.2).degree p : ℝ) *
        ((jumpCount (S N) ((G.chain ρ).labelling x.1) ((G.chain ρ).labelling x.2) : ℝ) / N) := by
      intro N
      rw [hpairs (fun i j => ((G.rateExpr i j).degree p : ℝ) * ((jumpCount (S N) ((G.chain ρ).labelling i) ((G.chain ρ).labelling j) : ℝ) / N))]
      unfold observedUses
      simp only [Finset.sum_div]
      refine Finset.sum_congr rfl (fun i _ => Finset.sum_congr rfl (fun j _ => ?_))
      exact mul_div_assoc _ _ _
    simp only [e]
    refine tendsto_finset_sum _ (fun x _ => ?_)
    by_cases ho : (G.rateExpr x.1 x.2).Occurs p
    · rw [← hrate x.1 x.2 ho, mul_comm ((G.walker ρ hG).meanTime steps x.1)]
      exact ((h3 x.1).2 x.2).const_mul _
    · rw [Expr.degree_zero _ _ ho]; simp
  · have hne : ∀ᶠ N : ℕ in atTop, totalTime (S N) ((G.chain ρ).labelling i0) / N ≠ 0 := (h3 i0).1.eventually_ne hτ0.ne'
    filter_upwards [hx, hne] with N hN hTne
    have h1ne : M.expectedUses (S N) p 1 ≠ 0 := by
      intro hz
      have hz' := hexp N 1
      rw [hz, zero_div, Finset.sum_eq_zero_iff_of_nonneg (fun x _ => mul_nonneg (Nat.cast_nonneg _)
        (mul_nonneg (div_nonneg (CTMC.totalTime_nonneg _ (hw N) _) (Nat.cast_nonneg _)) (mul_nonneg (hcof x.1 x.2) (by simp))))] at hz'
      have := hz' (i0, j0) (Finset.mem_univ _)
      simp only [one_pow, mul_one] at this
      rcases mul_eq_zero.1 this with h' | h'
      · exact hdeg0 (by exact_mod_cast h')
      · rcases mul_eq_zero.1 h' with h' | h'
        · exact hTne h'
        · rw [hone i0 j0 ho0] at h'
          exact hc0.ne' h'
    exact ⟨hN.1, by rw [hexp, hN.2 h1ne]⟩

/-- C98: `G` is an instantiated PCTMC with pairwise different labels in which every state can be left; the sets are generated by `G` with `timed=True`;
the initial model of the learner is `G` with other values (positive for the estimated parameters), in which every transition of `G` is possible. With
probability 1, for every parameter that does not share a transition with another estimated parameter, and that occurs in the rate of a transition out
of a state reachable in fewer than `steps` steps, the returned values tend to the value in `G`, for every number of iterations; and the estimation
returns if no parameter is in the third category. -/
theorem parameters_limit (G : PCTMC ℝ) (v : Valuation ℝ) (toUpdate : List String) (hG : G.Live (fun q => (G.values.lookup q).getD 0))
    (hl : G.labelling.Nodup) (hM : ({ G with values := v } : PCTMC ℝ).Estimable (G.names.filter (fun p => p ∉ toUpdate)))
    (hsame : ∀ q, q ∉ toUpdate → v.lookup q = G.values.lookup q) (hv0 : ∀ p ∈ toUpdate, ∃ x, v.lookup p = some x ∧ 0 < x)
    (hmat : ∀ i j, i < G.matrix.length → j < G.matrix.length → 0 < (G.rateExpr i j).den (fun q => (G.values.lookup q).getD 0) →
      0 < (G.rateExpr i j).den (fun q => (v.lookup q).getD 0))
    (kind : String ⊕ WithTop ℝ → Kind) (steps : ℕ) (hs : 1 ≤ steps) (geom : ℕ → ℕ) :
    ∀ᵐ D ∂callsLaw (simLaw G.matrix.length), ∃ S : ℕ → TSet (Sym String),
      (∀ N, generateSet kind (fun j k => G.runTimed k (D j).1 (fun k => pad ((D j).2 k))) N false none (.int steps) geom = .ok (S N).asTraces) ∧
      (∀ N, 1 ≤ N → ∀ (processes : ℕ) (epsilon : ℝ) (maxIt : ℕ) (C : Cats ℝ), 1 < processes →
        ({ G with values := v } : PCTMC ℝ).sortParameters (G.names.filter (fun p => p ∉ toUpdate)) = .ok C → C.cat3 = [] →
        ∃ d M', ({ G with values := v } : PCTMC ℝ).estimate processes (.timed (S N)) toUpdate epsilon maxIt = .ok (d, M')) ∧
      ∀ (processes maxIt : ℕ → ℕ) (epsilon : ℕ → ℝ) (r : ℕ → List (String × Option ℝ) × PCTMC ℝ), (∀ N, 1 ≤ maxIt N) →
        (∀ N, 1 ≤ N → ({ G with values := v } : PCTMC ℝ).estimate (processes N) (.timed (S N)) toUpdate (epsilon N) (maxIt N) = .ok (r N)) →
        ∀ p ∈ G.names, p ∈ toUpdate → G.Alone toUpdate p → ∀ g, G.values.lookup p = some g → 0 ≤ g →
          (∃ i j : Fin G.matrix.length, (G.rateExpr i j).Occurs p ∧ 0 < G.rateAtOne p i j ∧ ∃ c, 0 < (G.chain (fun _ => 0)).initialState c ∧
            ∃ k < steps, (G.chain (fun q => (G.values.lookup q).getD 0)).Walk k c i) →
          Tendsto (fun N => ((r N).2.values.lookup p).getD 0) atTop (𝓝 g) := by
  set M : PCTMC ℝ := { G with values := v } with hMdef
  set ρ : String → ℝ := fun q => (G.values.lookup q).getD 0 with hρ
  have hinj : Function.Injective (G.chain ρ).labelling := here_injective (M := G) hG.wf hl
  filter_upwards [generated_averages hG hinj kind steps hs geom] with D hD
  obtain ⟨S, h1, h2, h3⟩ := hD
  have hpos : ∀ N, ∀ w ∈ (S N).sequences, M.density w ≠ 0 := fun N =>
    (h2 N).2.2.2.2 M.here rfl (fun s h => h.ne') (fun s s' h => (hmat s s' s.2 s'.2 h).ne')
  refine ⟨S, h1, fun N hN processes epsilon maxIt C hp hC h3 => ?_, fun processes maxIt epsilon r hmax hr p hn hp ha g hgv hg hreach => ?_⟩
  · obtain ⟨w, hw⟩ := List.exists_mem_of_ne_nil _ ((h2 N).2.2.2.1 hN)
    exact estimate_total processes hp (S N) M toUpdate hM epsilon maxIt C hC h3 (h2 N).2.1 (h2 N).2.2.1 (h2 N).1.1.1 (h2 N).1.2.1 w hw (hpos N w hw)
  · obtain ⟨x0, hx0, hx0p⟩ := hv0 p hp
    refine limit_core G v toUpdate hG hM hsame steps S (fun N => (h2 N).2.2.1) h3 p hn hp ha x0 hx0 hx0p g hgv hg hreach _ ?_
    filter_upwards [eventually_ge_atTop 1] with N hN
    obtain ⟨x, _, a1, a2, _, a4⟩ := estimate_observed (processes N) (S N) M toUpdate hM (epsilon N) (maxIt N) (hmax N) hl (h2 N).2.1 (h2 N).2.2.1 (h2 N).1.1.1
      (h2 N).1.2.1 (hpos N) (r N).1 (r N).2 (hr N hN) p hn hp ha x0 hx0 hx0p
    rw [a1]
    simp only [Option.getD_some]
    exact ⟨a2, a4⟩

/-- A label in which time is spent is observed. -/
theorem shows_of_time (S : TSet (Sym String)) (hS : CTMC.TimedSet S) (a : String) (h : totalTime S a ≠ 0) : Shows (.timed S) a := by
  unfold totalTime at h
  by_contra hc
  refine h (List.sum_eq_zero (fun y hy => ?_))
  obtain ⟨q, hq, rfl⟩ := List.mem_map.1 hy
  have hmem := (List.of_mem_zip hq).1
  rw [List.sum_eq_zero, mul_zero]
  intro z hz
  obtain ⟨m, hm, rfl⟩ := List.mem_map.1 hz
  refine if_neg (fun hma => hc ⟨q.1, hmem, ?_⟩)
  obtain ⟨ps, last, he⟩ := exists_timed q.1 (hS _ hmem).1
  rw [he, timedSteps_timed] at hm
  rw [he]
  clear he hz hy hq
  induction ps with
  | nil => simp at hm
  | cons b ps ih =>
    rcases List.mem_cons.1 hm with rfl | hm
    · exact ⟨0, by simp [timed, hma]⟩
    · obtain ⟨k, hk⟩ := ih hm
      exact ⟨k + 1, by rw [show 2 * (k + 1) = 2 * k + 1 + 1 by ring]; simpa [timed] using hk⟩

/-- The type of a generated set of timed traces. -/
theorem generateSet_type (kind : String ⊕ WithTop ℝ → Kind) (hk : (∀ a, kind (.inl a) = .str) ∧ ∀ t, kind (.inr t) = .float)
    (sim : ℕ → ℕ → Py (List (String ⊕ WithTop ℝ))) (N : ℕ) (geo : Bool) (minSize : Option ℕ) (param : SizeParam) (geom : ℕ → ℕ)
    (S : TSet (Sym String)) (hS : CTMC.TimedSet S) (hne : S.sequences ≠ [])
    (h : generateSet kind sim N geo minSize param geom = .ok S.asTraces) : S.type = some 4 := by
  unfold generateSet at h
  obtain ⟨r, -, h⟩ := (Except.bind_eq_ok _ _ _).1 h
  unfold TSet.mk' at h
  split at h
  · rename_i heq
    simp only [Except.ok.injEq] at h
    exact absurd (List.map_eq_nil_iff.1 (congrArg TSet.sequences h).symm) hne
  · rename_i s0 rest heq
    simp only [Bind.bind, Except.bind, pure, Except.pure] at h
    split at h
    · cases h
    · rename_i ty hty
      simp only [Except.ok.injEq] at h
      have hseq := congrArg TSet.sequences h
      have htyp := congrArg TSet.type h
      simp only [TSet.asTraces] at hseq htyp
      rw [heq] at hseq
      cases hs : S.sequences with
      | nil => exact absurd hs hne
      | cons w ws =>
        rw [hs, List.map_cons, List.cons.injEq] at hseq
        obtain ⟨ht, hlen⟩ := hS w (by rw [hs]; exact List.mem_cons_self)
        obtain ⟨ps, last, rfl⟩ := exists_timed w ht
        cases ps with
        | nil => simp [timed] at hlen
        | cons b ps =>
          rw [hseq.1] at hty
          simp only [asTrace, timed, List.map_cons, TSet.inferType] at hty
          rw [if_pos ⟨hk.2 _, hk.1 _⟩] at hty
          injection hty with hty
          rw [← htyp, hty]

/-- C98, for `fit_parameters` (no random values): the same when every state can be reached in fewer than `steps` steps and one label is 'init'. -/
theorem fitParameters_limit (G : PCTMC ℝ) (v : Valuation ℝ) (toUpdate : List String) (hG : G.Live (fun q => (G.values.lookup q).getD 0))
    (hl : G.labelling.Nodup) (hinit : "init" ∈ G.labelling) (hI : G.IndexesInRange)
    (hM : ({ G with values := v } : PCTMC ℝ).Estimable (G.names.filter (fun p => p ∉ toUpdate)))
    (hsame : ∀ q, q ∉ toUpdate → v.lookup q = G.values.lookup q) (hv0 : ∀ p ∈ toUpdate, ∃ x, v.lookup p = some x ∧ 0 < x)
    (hmat : ∀ i j, i < G.matrix.length → j < G.matrix.length → 0 < (G.rateExpr i j).den (fun q => (G.values.lookup q).getD 0) →
      0 < (G.rateExpr i j).den (fun q => (v.lookup q).getD 0))
    (kind : String ⊕ WithTop ℝ → Kind) (hk : (∀ a, kind (.inl a) = .str) ∧ ∀ t, kind (.inr t) = .float) (steps : ℕ) (hs : 1 ≤ steps)
    (hreach : ∀ i : Fin G.matrix.length, ∃ c, 0 < (G.chain (fun _ => 0)).initialState c ∧
      ∃ k < steps, (G.chain (fun q => (G.values.lookup q).getD 0)).Walk k c i) (geom : ℕ → ℕ) :
    ∀ᵐ D ∂callsLaw (simLaw G.matrix.length), ∃ S : ℕ → TSet (Sym String),
      (∀ N, generateSet kind (fun j k => G.runTimed k (D j).1 (fun k => pad ((D j).2 k))) N false none (.int steps) geom = .ok (S N).asTraces) ∧
      ∀ (processes maxIt : ℕ → ℕ) (epsilon : ℕ → ℝ) (r : ℕ → List (String × Option ℝ) × PCTMC ℝ), (∀ N, 1 ≤ maxIt N) →
        (∀ᶠ N in atTop, ({ G with values := v } : PCTMC ℝ).fitParameters (processes N) (.timed (S N)) toUpdate (epsilon N) (maxIt N) none none []
          = .ok (some (r N))) →
        ∀ p ∈ toUpdate, G.Alone toUpdate p → ∀ g, G.values.lookup p = some g → 0 ≤ g →
          (∃ i j : Fin G.matrix.length, (G.rateExpr i j).Occurs p ∧ 0 < G.rateAtOne p i j) →
          Tendsto (fun N => ((r N).2.values.lookup p).getD 0) atTop (𝓝 g) ∧
          ∀ᶠ N in atTop, ∃ x, (p, some x) ∈ (r N).1 ∧ (r N).2.values.lookup p = some x := by
  set M : PCTMC ℝ := { G with values := v } with hMdef
  set ρ : String → ℝ := fun q => (G.values.lookup q).getD 0 with hρ
  have hinj : Function.Injective (G.chain ρ).labelling := here_injective (M := G) hG.wf hl
  filter_upwards [generated_averages hG hinj kind steps hs geom] with D hD
  obtain ⟨S, h1, h2, h3⟩ := hD
  have hpos : ∀ N, ∀ w ∈ (S N).sequences, M.density w ≠ 0 := fun N =>
    (h2 N).2.2.2.2 M.here rfl (fun s h => h.ne') (fun s s' h => (hmat s s' s.2 s'.2 h).ne')
  refine ⟨S, h1, fun processes maxIt epsilon r hmax hr p hp ha g hgv hg hocc => ?_⟩
  obtain ⟨x0, hx0, hx0p⟩ := hv0 p hp
  obtain ⟨i, j, ho, hc⟩ := hocc
  obtain ⟨N0, hN0⟩ := hr.exists
  have hn : p ∈ G.names := (fitParameters_inv (d := (r N0).1) (M' := (r N0).2) hN0).1 p hp
  have hshow : ∀ᶠ N in atTop, ∀ s : Fin G.matrix.length, totalTime (S N) ((G.chain ρ).labelling s) ≠ 0 := by
    rw [eventually_all]
    intro s
    obtain ⟨c0, hc0i, k0, hk0, hw0⟩ := hreach s
    have hτ0 : 0 < (G.walker ρ hG).meanTime steps s := (G.walker ρ hG).meanTime_pos steps s ⟨c0, hc0i, k0, hk0, (path_eq hG k0 c0 s).2 hw0⟩
    filter_upwards [(h3 s).1.eventually_ne hτ0.ne'] with N hN h0
    exact hN (by rw [h0, zero_div])
  have key : ∀ᶠ N in atTop, ∃ x, (p, some x) ∈ (r N).1 ∧ (r N).2.values.lookup p = some x ∧ 0 ≤ x ∧ (M.expectedUses (S N) p 1 = 0 → x = x0) ∧
      (M.expectedUses (S N) p 1 ≠ 0 → M.expectedUses (S N) p x = M.observedUses (S N) p) := by
    filter_upwards [eventually_ge_atTop 1, hr, hshow] with N hN hrN hsh
    have hall : ∀ a ∈ M.labelling, Shows (.timed (S N)) a := by
      intro a ha'
      obtain ⟨k, hk', rfl⟩ := List.getElem_of_mem ha'
      have hk2 : k < G.matrix.length := by rw [← hG.wf.labels]; exact hk'
      have := shows_of_time (S N) (h2 N).2.1 _ (hsh ⟨k, hk2⟩)
      have e : (G.chain ρ).labelling ⟨k, hk2⟩ = M.labelling[k] := by
        show G.labelling.getD k "" = G.labelling[k]
        rw [List.getD_eq_getElem?_getD, List.getElem?_eq_getElem hk']; rfl
      rw [e] at this
      exact this
    exact fitParameters_observed (processes N) (S N) (generateSet_type kind hk _ _ _ _ _ _ _ (h2 N).2.1 ((h2 N).2.2.2.1 hN) (h1 N)) M hI toUpdate hM
      (epsilon N) (maxIt N) (hmax N) [] hall hinit hl (h2 N).2.1 (h2 N).2.2.1 (h2 N).1.1.1 (h2 N).1.2.1 (hpos N) (r N).1 (r N).2 hrN p hn hp ha x0 hx0 hx0p
  refine ⟨limit_core G v toUpdate hG hM hsame steps S (fun N => (h2 N).2.2.1) h3 p hn hp ha x0 hx0 hx0p g hgv hg ⟨i, j, ho, hc, hreach i⟩ _ ?_, ?_⟩
  · filter_upwards [key] with N hN
    obtain ⟨x, _, a1, a2, _, a4⟩ := hN
    rw [a1]
    simp only [Option.getD_some]
    exact ⟨a2, a4⟩
  · filter_upwards [key] with N hN
    obtain ⟨x, a0, a1, _⟩ := hN
    exact ⟨x, a0, a1⟩

end PCTMC
end Jajapy
