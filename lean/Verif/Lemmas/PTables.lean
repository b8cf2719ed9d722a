import Verif.Lemmas.PUpdate
import Verif.Lemmas.PGain
import Verif.Lemmas.GainCT
import Verif.Props.BWCTMC

/-!
The tables that the workers compute for a PCTMC, and the shape of an iteration.
-/

set_option linter.unusedSectionVars false

namespace Jajapy

open Spec BW Finset

theorem sum_pos_of_mem {X : Type} (L : List X) (g : X → ℝ) (h0 : ∀ x ∈ L, 0 ≤ g x) (hn : ¬ 0 < (L.map g).sum) :
    ∀ x ∈ L, g x = 0 := by
  intro x hx
  by_contra hne
  exact hn (sum_map_pos L g h0 x hx (lt_of_le_of_ne (h0 x hx) (Ne.symm hne)))

theorem vis_zero {O : Type} {n : ℕ} (tau : Fin n → Fin n → O → ℝ) (v f : Fin n → ℝ) (φ : O → ℝ) (c : ℝ) (os : List O) (s : Fin n)
    (h : ∀ ss, ∀ o ∈ os, tau s ss o = 0) : vis tau v f φ c os s = 0 := by
  rw [← sum_use]
  exact Finset.sum_eq_zero (fun ss _ => use_zero _ _ _ _ _ _ _ _ (h ss))

namespace PCTMC

section
variable {n : ℕ}

/-- The tables of a timed trace, without the test. -/
noncomputable def tbCT (H : CTMC ℝ String n) (x : List (Sym String) × ℕ) : Tables n where
  time := (wkCT H (fun _ _ => false) x).den
  uses := (wkCT H (fun _ _ => false) x).num
  seen := fun s ss => 0 < ((timedSteps x.1).map (H.rateStep s ss)).sum
  proba := H.density x.1
  times := x.2

theorem tablesTimed_eq (H : CTMC ℝ String n) (x : List (Sym String) × ℕ) (hw : IsTimed x.1) (hl : 2 ≤ x.1.length) :
    tablesTimed H x.1 x.2 = .ok (if H.density x.1 = 0 then none else some (tbCT H x)) := by
  unfold tablesTimed
  rw [processWorkTimed_eq H _ x hw hl]
  obtain ⟨ps, last, he⟩ := exists_timed x.1 hw
  rw [he, splitTimed_timed, ← he]
  simp only [bind, Except.bind, pure, Except.pure]
  congr 1
  split_ifs with h0
  · rfl
  · simp only [Option.map_some, tbCT]
    congr 2
    funext s ss
    rw [he, timedSteps_timed, List.map_map]
    congr 3
    funext p
    exact H.tauTimed_symStep s ss p

theorem tbCT_uses (H : CTMC ℝ String n) (x : List (Sym String) × ℕ) (s ss : Fin n) : (tbCT H x).uses s ss
    = use H.rateStep H.initialState (H.lastMask x.1) (fun _ => 1) (x.2 / H.density x.1) (timedSteps x.1) s ss := by
  simp only [tbCT, wkCT]
  exact if_neg Bool.false_ne_true

theorem tbCT_good (H : CTMC ℝ String n) (hH : H.Valid) (x : List (Sym String) × ℕ) (hw : ∀ p ∈ timedSteps x.1, 0 ≤ p.2) :
    (tbCT H x).Good H := by
  have hc : (0:ℝ) ≤ x.2 / H.density x.1 := div_nonneg (Nat.cast_nonneg _) (H.density_nonneg hH _)
  refine ⟨?_, ?_, ?_, ?_, ?_⟩
  · intro s
    exact vis_nonneg _ _ _ (H.rateStep_nonneg hH.2) hH.1 (H.lastMask_nonneg _) _ _ hc _ hw s
  · intro s ss
    rw [tbCT_uses]
    exact use_nonneg _ _ _ (H.rateStep_nonneg hH.2) hH.1 (H.lastMask_nonneg _) _ _ hc _ (fun _ _ => zero_le_one) s ss
  · intro s ss hs h0
    apply lt_irrefl (0:ℝ)
    refine lt_of_lt_of_eq hs (List.sum_eq_zero ?_)
    intro a ha
    obtain ⟨p, _, rfl⟩ := List.mem_map.1 ha
    unfold CTMC.rateStep
    rw [h0, zero_mul, ite_self]
  · intro s ss hs
    have hz := sum_pos_of_mem _ _ (fun p _ => H.rateStep_nonneg hH.2 s ss p) hs
    by_cases h0 : H.matrix s ss = 0
    · exact Or.inl h0
    · right
      have hlab : ∀ p ∈ timedSteps x.1, H.labelling s ≠ p.1 := by
        intro p hp hl
        have := hz p hp
        unfold CTMC.rateStep at this
        rw [if_pos hl] at this
        rcases mul_eq_zero.1 this with h | h
        · exact h0 h
        · exact (Real.exp_pos _).ne' h
      have hz' : ∀ ss', ∀ p ∈ timedSteps x.1, H.rateStep s ss' p = 0 := by
        intro ss' p hp
        unfold CTMC.rateStep
        rw [if_neg (hlab p hp)]
      refine ⟨vis_zero _ _ _ _ _ _ _ hz', ?_⟩
      rw [tbCT_uses]
      exact use_zero _ _ _ _ _ _ _ _ (hz' ss)
  · intro s ss h0
    rw [tbCT_uses]
    refine use_zero _ _ _ _ _ _ _ _ (fun o _ => ?_)
    unfold CTMC.rateStep
    rw [h0, zero_mul, ite_self]

theorem tables_timed (H : CTMC ℝ String n) (S : TSet (Sym String)) (hS : CTMC.TimedSet S) :
    tables H (.timed S) = .ok ((S.sequences.zip S.times).map (fun x => if H.density x.1 = 0 then none else some (tbCT H x))) := by
  unfold tables
  refine List.mapM_ok _ _ _ (fun x hx => ?_)
  have h1 := hS _ (List.of_mem_zip hx).1
  exact tablesTimed_eq H x h1.1 h1.2

theorem timeSum_timed (H : CTMC ℝ String n) (S : TSet (Sym String)) (s : Fin n) :
    timeSum ((possCT H S).map (tbCT H)) s = denCT H S s := by
  unfold timeSum; rw [List.map_map]; rfl

theorem usesSum_timed (H : CTMC ℝ String n) (S : TSet (Sym String)) (s ss : Fin n) :
    usesSum ((possCT H S).map (tbCT H)) s ss = numCT H S s ss := by
  unfold usesSum; rw [List.map_map]; rfl

/-! ### Untimed traces -/

/-- The tables of an untimed trace, without the test. -/
noncomputable def tbMC (H : CTMC ℝ String n) (x : List String × ℕ) : Tables n where
  time := fun s => (wkMC H.embedded x).den s / H.e s
  uses := (wkMC H.embedded x).num
  seen := fun s ss => 0 < (x.1.map (H.tau s ss)).sum
  proba := totalWeight H.embedded.initialState H.embedded.step (fun _ => 1) x.1
  times := x.2

theorem wkMC_den (H : MC ℝ String n) (x : List String × ℕ) (s : Fin n) : (wkMC H x).den s = vis H.step H.initialState (fun _ => 1)
    (fun _ => 1) (x.2 / totalWeight H.initialState H.step (fun _ => 1) x.1) x.1 s := rfl

theorem tbMC_uses (H : CTMC ℝ String n) (x : List String × ℕ) (s ss : Fin n) : (tbMC H x).uses s ss
    = use H.embedded.step H.embedded.initialState (fun _ => 1) (fun _ => 1)
      (x.2 / totalWeight H.embedded.initialState H.embedded.step (fun _ => 1) x.1) x.1 s ss := rfl

theorem tablesUntimed_eq (H : CTMC ℝ String n) (x : List String × ℕ) (hl : 2 ≤ x.1.length) :
    tablesUntimed H x.1 x.2 = .ok (if totalWeight H.embedded.initialState H.embedded.step (fun _ => 1) x.1 = 0 then none
      else some (tbMC H x)) := by
  have e : processWorkUntimed H (fun _ _ => false) x.1 x.2 = .ok (processWorkMC H.embedded x.1 x.2) := by
    unfold processWorkUntimed processWorkMC
    rw [if_neg (by omega), H.tau_embedded]
    rfl
  unfold tablesUntimed
  rw [e, processWorkMC_eq]
  simp only [bind, Except.bind, pure, Except.pure]
  congr 1
  split_ifs with h0
  · rfl
  · rfl

theorem tbMC_good (H : CTMC ℝ String n) (hH : H.Valid) (he : ∀ s, ∑ j, H.matrix s j ≠ 0) (x : List String × ℕ) :
    (tbMC H x).Good H := by
  have hep : ∀ s, 0 < H.e s := fun s => lt_of_le_of_ne (Finset.sum_nonneg (fun j _ => hH.2 s j)) (Ne.symm (he s))
  have hm0 : ∀ s ss, 0 ≤ H.embedded.matrix s ss := fun s ss => div_nonneg (hH.2 s ss) (hep s).le
  have hst := H.embedded.step_nonneg hm0
  have hi : ∀ s, 0 ≤ H.embedded.initialState s := hH.1
  have hc : (0:ℝ) ≤ x.2 / totalWeight H.embedded.initialState H.embedded.step (fun _ => 1) x.1 :=
    div_nonneg (Nat.cast_nonneg _) (totalWeight_nonneg _ _ _ hst hi (fun _ => zero_le_one) _)
  have htau : H.tau = H.embedded.step := by rw [← H.tau_embedded, MC.tau_eq_step]
  refine ⟨?_, ?_, ?_, ?_, ?_⟩
  · intro s
    exact div_nonneg (vis_nonneg _ _ _ hst hi (fun _ => zero_le_one) _ _ hc _ (fun _ _ => zero_le_one) s) (hep s).le
  · intro s ss
    exact use_nonneg _ _ _ hst hi (fun _ => zero_le_one) _ _ hc _ (fun _ _ => zero_le_one) s ss
  · intro s ss hs h0
    apply lt_irrefl (0:ℝ)
    refine lt_of_lt_of_eq hs (List.sum_eq_zero ?_)
    intro a ha
    obtain ⟨p, _, rfl⟩ := List.mem_map.1 ha
    unfold CTMC.tau CTMC.l
    rw [h0, ite_self, zero_div]
  · intro s ss hs
    have hs' : ¬ 0 < (x.1.map (H.embedded.step s ss)).sum := by rw [← htau]; exact hs
    have hz := sum_pos_of_mem _ _ (fun p _ => hst s ss p) hs'
    by_cases h0 : H.matrix s ss = 0
    · exact Or.inl h0
    · right
      have hlab : ∀ o ∈ x.1, H.labelling s ≠ o := by
        intro o ho hl
        have := hz o ho
        rw [← htau] at this
        unfold CTMC.tau CTMC.l at this
        rw [if_neg (not_not.2 hl)] at this
        rcases div_eq_zero_iff.1 this with h | h
        · exact h0 h
        · exact (hep s).ne' h
      have hz' : ∀ ss', ∀ o ∈ x.1, H.embedded.step s ss' o = 0 := by
        intro ss' o ho
        rw [← htau]
        unfold CTMC.tau CTMC.l
        rw [if_pos (hlab o ho), zero_div]
      refine ⟨?_, by rw [tbMC_uses]; exact use_zero _ _ _ _ _ _ _ _ (hz' ss)⟩
      show (wkMC H.embedded x).den s / _ = 0
      rw [wkMC_den, vis_zero _ _ _ _ _ _ _ hz', zero_div]
  · intro s ss h0
    rw [tbMC_uses]
    refine use_zero _ _ _ _ _ _ _ _ (fun o _ => ?_)
    rw [← htau]
    unfold CTMC.tau CTMC.l
    rw [h0, ite_self, zero_div]

theorem tables_untimed (H : CTMC ℝ String n) (S : TSet String) (hS : ∀ w ∈ S.sequences, 2 ≤ w.length) :
    tables H (.untimed S) = .ok ((S.sequences.zip S.times).map (fun x =>
      if totalWeight H.embedded.initialState H.embedded.step (fun _ => 1) x.1 = 0 then none else some (tbMC H x))) := by
  unfold tables
  exact List.mapM_ok _ _ _ (fun x hx => tablesUntimed_eq H x (hS _ (List.of_mem_zip hx).1))

theorem timeSum_untimed (H : CTMC ℝ String n) (S : TSet String) (s : Fin n) :
    timeSum ((possMC H.embedded S).map (tbMC H)) s = denMC H.embedded S s / H.e s := by
  unfold timeSum denMC
  rw [List.map_map, div_eq_mul_inv, ← List.sum_map_mul_right]
  rfl

theorem usesSum_untimed (H : CTMC ℝ String n) (S : TSet String) (s ss : Fin n) :
    usesSum ((possMC H.embedded S).map (tbMC H)) s ss = numMC H.embedded S s ss := by
  unfold usesSum numMC; rw [List.map_map]; rfl

end

/-! ### The rates after the update -/

section
variable {M : PCTMC ℝ} {fixed : List String}

/-- The factors of an update. -/
structure Scaled (M : PCTMC ℝ) (fixed : List String) (v : Valuation ℝ) (u : String → ℝ) : Prop where
  same : ∀ p, p ∉ M.estimated fixed → v.lookup p = M.values.lookup p
  new : ∀ p ∈ M.estimated fixed, v.lookup p = some (valOf M.values p * u p)
  nonneg : ∀ p ∈ M.estimated fixed, 0 ≤ u p

theorem exists_scaled {T : Fin M.nb → ℝ} {N : Fin M.nb → Fin M.nb → ℝ} {v : Valuation ℝ}
    (h1 : ∀ p, p ∉ M.estimated fixed → v.lookup p = M.values.lookup p)
    (h2 : ∀ p ∈ M.estimated fixed, ∃ x, v.lookup p = some x ∧ Factor M (M.estimated fixed) T N p x) :
    ∃ u, Scaled M fixed v u ∧ ∀ p ∈ M.estimated fixed, (u p = 1 ∧ M.spent T p = 0) ∨ (M.spent T p ≠ 0 ∧ Balance M (M.estimated fixed) T N p (u p)) := by
  have hch : ∀ p, ∃ u, p ∈ M.estimated fixed → 0 ≤ u ∧ v.lookup p = some (valOf M.values p * u) ∧
      ((u = 1 ∧ M.spent T p = 0) ∨ (M.spent T p ≠ 0 ∧ Balance M (M.estimated fixed) T N p u)) := by
    intro p
    by_cases hp : p ∈ M.estimated fixed
    · obtain ⟨x, hx, u, hu, rfl, hb⟩ := h2 p hp
      exact ⟨u, fun _ => ⟨hu, hx, hb⟩⟩
    · exact ⟨0, fun h => absurd h hp⟩
  choose u hu using hch
  exact ⟨u, ⟨h1, fun p hp => (hu p hp).2.1, fun p hp => (hu p hp).1⟩, fun p hp => (hu p hp).2.2⟩

theorem Scaled.valOf {v : Valuation ℝ} {u : String → ℝ} (h : Scaled M fixed v u) :
    (∀ p ∈ M.estimated fixed, valOf v p = Jajapy.valOf M.values p * u p) ∧
    (∀ p, p ∉ M.estimated fixed → valOf v p = Jajapy.valOf M.values p) := by
  constructor
  · intro p hp
    have := h.new p hp
    unfold Jajapy.valOf at this ⊢
    rw [this]; rfl
  · intro p hp
    unfold Jajapy.valOf
    rw [h.same p hp]

theorem Scaled.den {v : Valuation ℝ} {u : String → ℝ} (h : Scaled M fixed v u) (hM : M.Estimable fixed) {i j : ℕ}
    (hi : i < M.matrix.length) (hj : j < M.matrix.length) :
    (M.rateExpr i j).den (Jajapy.valOf v) = (M.rateExpr i j).den (Jajapy.valOf M.values) *
      ∏ p ∈ M.estimated fixed, u p ^ (M.rateExpr i j).degree p :=
  Expr.den_scale _ (hM.mono hi hj) _ _ _ h.valOf.1 h.valOf.2

/-- The chain of the values `v`. -/
noncomputable def withVal (M : PCTMC ℝ) (v : Valuation ℝ) : CTMC ℝ String M.nb := ({ M with values := v } : PCTMC ℝ).here

/-- The rates after the update. -/
theorem Scaled.rate {v : Valuation ℝ} {u : String → ℝ} (h : Scaled M fixed v u) (hM : M.Estimable fixed) (s ss : Fin M.nb) :
    (M.withVal v).matrix s ss
      = M.here.matrix s ss * ∏ p ∈ M.estimated fixed, u p ^ (M.rateExpr s ss).degree p :=
  h.den hM s.2 ss.2

theorem Scaled.estimable {v : Valuation ℝ} {u : String → ℝ} (h : Scaled M fixed v u) (hM : M.Estimable fixed) :
    ({ M with values := v } : PCTMC ℝ).Estimable fixed where
  wf := ⟨hM.wf.square, hM.wf.labels, hM.wf.init, hM.wf.bound, hM.wf.declared⟩
  full := by
    intro p hp
    by_cases hI : p ∈ M.estimated fixed
    · exact (isSome_known _ _).1 (by rw [h.new p hI]; rfl)
    · exact (isSome_known _ _).1 (by rw [h.same p hI]; exact (isSome_known _ _).2 (hM.full p hp))
  names := hM.names
  indexes := hM.indexes
  monomial := hM.monomial
  valid := by
    intro ρ hρ
    refine ⟨hM.here_valid.1, fun s ss => ?_⟩
    have e : (M.rateExpr s ss).den ρ = (M.rateExpr s ss).den (Jajapy.valOf v) := by
      refine Expr.den_congr _ _ _ (fun p hp => ?_)
      have hk : (v.lookup p).isSome := by
        by_cases hI : p ∈ M.estimated fixed
        · rw [h.new p hI]; rfl
        · rw [h.same p hI]; exact (isSome_known _ _).2 (hM.known s.2 ss.2 p hp)
      obtain ⟨x, hx⟩ := Option.isSome_iff_exists.1 hk
      rw [hρ p x hx]
      unfold Jajapy.valOf
      rw [hx]; rfl
    show 0 ≤ (M.rateExpr s ss).den ρ
    rw [e, h.den hM s.2 ss.2]
    exact mul_nonneg (hM.here_valid.2 s ss) (Finset.prod_nonneg (fun p hp => pow_nonneg (h.nonneg p hp) _))
  nonneg := by
    intro p hp hf x hx
    have hI := (mem_estimated M fixed p).2 ⟨hp, hf⟩
    rw [h.new p hI] at hx
    injection hx with hx
    rw [← hx]
    exact mul_nonneg (hM.current_nonneg hI) (h.nonneg p hI)

theorem Scaled.sorted {v : Valuation ℝ} {u : String → ℝ} {C : Cats ℝ} (h : Scaled M fixed v u) (hM : M.Estimable fixed)
    (hC : Sorted M fixed C) : Sorted { M with values := v } fixed C where
  power := hC.power
  total := hC.total
  mem1 := hC.mem1
  mem2 := hC.mem2
  mem3 := hC.mem3
  all := hC.all
  cat1 := hC.cat1
  cat2 := hC.cat2
  nonempty := hC.nonempty
  coeff := by
    intro p hp q hq
    have hI := hC.mem1 p hp
    have hb := (hM.mem_indexes hI q.1 q.2).1 hq
    have h1 := hC.cat1 p hp q hq
    show C.coeff q.1 q.2 * Jajapy.valOf v p = (M.rateExpr q.1 q.2).den (Jajapy.valOf v)
    rw [h.den hM hb.1 hb.2.1, h.valOf.1 p hI, ← hC.coeff p hp q hq]
    have hprod : ∏ p ∈ M.estimated fixed, u p ^ (M.rateExpr q.1 q.2).degree p = u p := by
      rw [Finset.prod_eq_single_of_mem p hI, h1.1, pow_one]
      intro p' hp' hne
      have : (M.rateExpr q.1 q.2).degree p' = 0 := by
        have ht := h1.2
        unfold totalDegree at ht
        have h2 := Finset.sum_le_sum_of_subset (f := fun p => (M.rateExpr q.1 q.2).degree p)
          (show {p, p'} ⊆ M.estimated fixed by
            intro y hy
            rcases Finset.mem_insert.1 hy with rfl | hy
            · exact hI
            · rw [Finset.mem_singleton.1 hy]; exact hp')
        rw [Finset.sum_pair (f := fun p => (M.rateExpr q.1 q.2).degree p) hne.symm, ht, h1.1] at h2
        omega
      rw [this, pow_zero]
    rw [hprod]
    ring

/-- The gain of an update whose factors satisfy the balance equations. -/
theorem Scaled.gain {v : Valuation ℝ} {u : String → ℝ} (h : Scaled M fixed v u) (hM : M.Estimable fixed)
    (T : Fin M.nb → ℝ) (N : Fin M.nb → Fin M.nb → ℝ) (hT : ∀ s, 0 ≤ T s) (hN : ∀ s ss, 0 ≤ N s ss)
    (hz : ∀ s ss, M.here.matrix s ss = 0 → N s ss = 0)
    (hb : ∀ p ∈ M.estimated fixed, u p = 1 ∨ Balance M (M.estimated fixed) T N p (u p)) :
    (∀ s ss, 0 < M.here.matrix s ss → 0 < N s ss → 0 < (M.withVal v).matrix s ss) ∧
    ∑ s, T s * (∑ ss, (M.withVal v).matrix s ss - ∑ ss, M.here.matrix s ss)
      ≤ ∑ s, ∑ ss, Real.log ((M.withVal v).matrix s ss / M.here.matrix s ss) * N s ss := by
  obtain ⟨k1, k2⟩ := PEst.gain_nonneg (Finset.univ : Finset (Fin M.nb × Fin M.nb)) (M.estimated fixed)
    (fun x p => (M.rateExpr x.1 x.2).degree p) (fun x => N x.1 x.2) (fun x => T x.1) (fun x => M.here.matrix x.1 x.2) u
    (fun x _ => hN _ _) (fun x _ => hT _) (fun x _ => hM.here_valid.2 _ _) h.nonneg hb
  have hpos : ∀ s ss, 0 < N s ss → 0 < ∏ p ∈ M.estimated fixed, u p ^ (M.rateExpr s ss).degree p := by
    intro s ss hn
    refine Finset.prod_pos (fun p hp => ?_)
    rcases Nat.eq_zero_or_pos ((M.rateExpr s ss).degree p) with h0 | h0
    · rw [h0, pow_zero]; exact one_pos
    · exact pow_pos (k1 (s, ss) (Finset.mem_univ _) hn p hp h0) _
  refine ⟨fun s ss hm hn => ?_, ?_⟩
  · rw [h.rate hM]
    exact mul_pos hm (hpos s ss hn)
  · rw [Fintype.sum_prod_type, Fintype.sum_prod_type] at k2
    have e1 : ∀ s, T s * (∑ ss, (M.withVal v).matrix s ss - ∑ ss, M.here.matrix s ss)
        = ∑ ss, T s * (M.here.matrix s ss * (∏ p ∈ M.estimated fixed, u p ^ (M.rateExpr s ss).degree p) - M.here.matrix s ss) := by
      intro s
      rw [← Finset.sum_sub_distrib, Finset.mul_sum]
      exact Finset.sum_congr rfl (fun ss _ => by rw [h.rate hM])
    have e2 : ∀ s ss, Real.log ((M.withVal v).matrix s ss / M.here.matrix s ss) * N s ss
        = N s ss * Real.log (∏ p ∈ M.estimated fixed, u p ^ (M.rateExpr s ss).degree p) := by
      intro s ss
      by_cases hm : M.here.matrix s ss = 0
      · rw [hz s ss hm]; ring
      · rw [h.rate hM, mul_div_cancel_left₀ _ hm, mul_comm]
    rw [Finset.sum_congr rfl (fun s _ => e1 s), Finset.sum_congr rfl (fun s _ => Finset.sum_congr rfl (fun ss _ => e2 s ss))]
    exact k2

/-- What an iteration does, given the tables of the traces. -/
theorem step_spec (h : M.Estimable fixed) {C : Cats ℝ} (hC : Sorted M fixed C) {ts : List (Tables M.nb)}
    (hts : ∀ t ∈ ts, t.Good M.here) (M' : PCTMC ℝ) (ll : ℝ) (hu : M.update C (ts.map (M.work C M.here)) = .ok (M', ll)) :
    ∃ v u, M' = { M with values := v } ∧ Scaled M fixed v u ∧
      (∀ p ∈ M.estimated fixed, (u p = 1 ∧ M.spent (timeSum ts) p = 0) ∨
        (M.spent (timeSum ts) p ≠ 0 ∧ Balance M (M.estimated fixed) (timeSum ts) (usesSum ts) p (u p))) ∧
      ll = (ts.map (fun t => Real.log t.proba * t.times)).sum := by
  obtain ⟨h1, h2, h3, h4⟩ := update_spec h hC hts M' ll hu
  obtain ⟨u, hu1, hu2⟩ := exists_scaled h2 h3
  exact ⟨M'.values, u, h1, hu1, hu2, h4⟩

end
end PCTMC
end Jajapy
