import Verif.Lemmas.PSort
import Verif.Lemmas.EM
import Verif.Props.PCTMC
import Mathlib.Analysis.Polynomial.Basic

/-!
What `_update_PCTMC` does with the tables of the traces: every estimated parameter is multiplied by a factor that is 1 or
solves a balance equation.
-/

set_option linter.unusedSectionVars false

namespace Jajapy

open Spec Polynomial

/-! ### The greatest root -/

/-- No coefficient but the constant one is negative, and that one is not positive. -/
def RootForm (P : ℝ[X]) : Prop := P.coeff 0 ≤ 0 ∧ ∀ k, 1 ≤ k → 0 ≤ P.coeff k

theorem RootForm.list (l : List ℝ[X]) (h : ∀ P ∈ l, RootForm P) : RootForm l.sum := by
  induction l with
  | nil => exact ⟨by simp, by simp⟩
  | cons P l ih =>
    have h1 := h P List.mem_cons_self
    have h2 := ih (fun Q hQ => h Q (List.mem_cons_of_mem _ hQ))
    rw [List.sum_cons]
    refine ⟨?_, fun k hk => ?_⟩
    · rw [coeff_add]; exact add_nonpos h1.1 h2.1
    · rw [coeff_add]; exact add_nonneg (h1.2 k hk) (h2.2 k hk)

theorem RootForm.term (c : ℕ) (hc : 1 ≤ c) (a b : ℝ) (ha : 0 ≤ a) (hb : 0 ≤ b) : RootForm (monomial c b - C a) := by
  refine ⟨?_, fun k hk => ?_⟩
  · rw [coeff_sub, coeff_monomial, if_neg (by omega), coeff_C_zero]; linarith
  · rw [coeff_sub, coeff_monomial, coeff_C_ne_zero (by omega)]
    split_ifs <;> simp [hb]

theorem maxRoot_spec (P : ℝ[X]) (hP : RootForm P) (x : ℝ) (h : PCTMC.maxRoot P = .ok x) : 0 ≤ x ∧ P.eval x = 0 ∧ P ≠ 0 := by
  unfold PCTMC.maxRoot at h
  split_ifs at h with hex him
  injection h with h
  obtain ⟨hz, hmax⟩ := hex.choose_spec
  generalize hex.choose = z at h him hz hmax
  have hmap : ∀ y : ℝ, (P.map Complex.ofRealHom).eval (y : ℂ) = ((P.eval y : ℝ) : ℂ) := by
    intro y
    have := Polynomial.eval_map_apply (f := Complex.ofRealHom) (p := P) y
    simpa using this
  have hne : P.map Complex.ofRealHom ≠ 0 := (mem_roots'.1 hz).1
  have hroot : (P.map Complex.ofRealHom).eval z = 0 := (mem_roots'.1 hz).2
  have hzr : z = ((z.re : ℝ) : ℂ) := Complex.ext rfl (by simpa using him)
  have hev : P.eval z.re = 0 := by
    rw [hzr, hmap] at hroot
    exact_mod_cast hroot
  subst h
  have hP0 : P ≠ 0 := by rintro rfl; exact hne (Polynomial.map_zero _)
  refine ⟨?_, hev, hP0⟩
  have hdeg : 0 < P.degree := by
    by_contra hd
    rw [Polynomial.eq_C_of_degree_le_zero (not_lt.1 hd), eval_C] at hev
    apply hP0
    rw [Polynomial.eq_C_of_degree_le_zero (not_lt.1 hd), hev, C_0]
  have hlead : 0 ≤ P.leadingCoeff := hP.2 _ (by
    have := natDegree_pos_iff_degree_pos.2 hdeg; omega)
  have htend := P.tendsto_atTop_of_leadingCoeff_nonneg hdeg hlead
  obtain ⟨y, hy1, hy2⟩ := ((htend.eventually_ge_atTop 0).and (Filter.eventually_ge_atTop 0)).exists
  obtain ⟨w, hw, hw0⟩ : ∃ w ∈ Set.Icc 0 y, P.eval w = 0 := by
    have hc : ContinuousOn (fun t => P.eval t) (Set.Icc 0 y) := P.continuous.continuousOn
    have := intermediate_value_Icc hy2 hc
    have h0 : (0:ℝ) ∈ Set.Icc (P.eval 0) (P.eval y) := by
      refine ⟨?_, hy1⟩
      rw [← coeff_zero_eq_eval_zero]; exact hP.1
    exact this h0
  have hwr : ((w : ℝ) : ℂ) ∈ (P.map Complex.ofRealHom).roots := by
    rw [mem_roots']
    refine ⟨hne, ?_⟩
    show eval _ _ = 0
    rw [hmap, hw0]; simp
  rcases hmax _ hwr with h | h
  · exact le_trans hw.1 (le_of_lt (by simpa using h))
  · have := h.1
    rw [Complex.ofReal_re] at this
    rw [← this]; exact hw.1

/-! ### The tables -/

namespace PCTMC

/-- What the theorems use of the tables of a trace. -/
structure Tables.Good {n : ℕ} (H : CTMC ℝ String n) (t : Tables n) : Prop where
  time : ∀ s, 0 ≤ t.time s
  uses : ∀ s ss, 0 ≤ t.uses s ss
  seen : ∀ s ss, t.seen s ss → H.matrix s ss ≠ 0
  unseen : ∀ s ss, ¬ t.seen s ss → H.matrix s ss = 0 ∨ (t.time s = 0 ∧ t.uses s ss = 0)
  zero : ∀ s ss, H.matrix s ss = 0 → t.uses s ss = 0

variable {M : PCTMC ℝ} {fixed : List String}

/-- The chain of the current values. -/
noncomputable def here (M : PCTMC ℝ) : CTMC ℝ String M.nb := M.chain (valOf M.values)

theorem current_eq (M : PCTMC ℝ) (p : String) : M.current p = valOf M.values p := rfl

theorem Estimable.known (h : M.Estimable fixed) {i j : ℕ} (hi : i < M.matrix.length) (hj : j < M.matrix.length) (p : String)
    (hp : (M.rateExpr i j).Occurs p) : Known M.values p :=
  h.full p (h.wf.declared _ (M.rateExpr_mem h.wf hi hj) p hp)

theorem hypothesis_full (hM : M.WF) (hF : M.Full) : M.hypothesis = .ok M.here := by
  have hknown : ∀ {i j : ℕ}, i < M.nb → j < M.nb → ∀ p, (M.rateExpr i j).Occurs p → Known M.values p :=
    fun hi hj p hp => hF p (hM.declared _ (M.rateExpr_mem hM hi hj) p hp)
  unfold hypothesis
  rw [mapM_range _ (fun s => (List.range M.nb).map (fun ss => (M.rateExpr s ss).eval M.values))]
  swap
  · intro s hs
    exact mapM_range _ _ (fun ss hss => M.evaluate_eq hM hs hss)
  have hev : ∀ s ss, s < M.nb → ss < M.nb → (M.rateExpr s ss).eval M.values = some ((M.rateExpr s ss).den (valOf M.values)) :=
    fun s ss hs hss => Expr.eval_some _ _ (hknown hs hss) _ (valOf_extends _)
  show (if (((List.range M.nb).map (fun s => (List.range M.nb).map (fun ss => (M.rateExpr s ss).eval M.values))).all
    (fun row => row.all (fun x => x.isSome))) = true then _ else _) = _
  rw [if_pos]
  · congr 1
    unfold here chain
    congr 1
    funext i j
    have hi := i.2
    have hj := j.2
    simp [hi, hj, hev i j hi hj]
  · rw [List.all_eq_true]
    intro row hrow
    obtain ⟨s, hs, rfl⟩ := List.mem_map.1 hrow
    rw [List.all_eq_true]
    intro x hx
    obtain ⟨ss, hss, rfl⟩ := List.mem_map.1 hx
    rw [hev s ss (List.mem_range.1 hs) (List.mem_range.1 hss)]
    rfl

theorem Estimable.hypothesis_eq (h : M.Estimable fixed) : M.hypothesis = .ok M.here := hypothesis_full h.wf h.full

theorem Estimable.current_nonneg (h : M.Estimable fixed) {p : String} (hp : p ∈ M.estimated fixed) : 0 ≤ valOf M.values p := by
  rw [mem_estimated] at hp
  unfold valOf
  cases hl : M.values.lookup p with
  | none => simp
  | some x => exact h.nonneg p hp.1 hp.2 x hl

theorem Estimable.here_valid (h : M.Estimable fixed) : M.here.Valid := h.valid _ (valOf_extends _)

theorem at1_fin {n : ℕ} (f : Fin n → ℝ) (s : Fin n) : at1 f s = f s := by
  unfold at1; rw [dif_pos s.2]

theorem at2_fin {n : ℕ} (f : Fin n → Fin n → ℝ) (s ss : Fin n) : at2 f s ss = f s ss := by
  unfold at2; rw [dif_pos ⟨s.2, ss.2⟩]

/-- A sum over the transitions recorded for `p`. -/
theorem Estimable.sum_indexes (h : M.Estimable fixed) {p : String} (hp : p ∈ M.estimated fixed) (f : ℕ × ℕ → ℝ)
    (g : Fin M.nb → Fin M.nb → ℝ)
    (hfg : ∀ (i j : Fin M.nb), (i.1, j.1) ∈ M.indexesOf p → f (i, j) = (M.rateExpr i j).degree p * g i j) :
    ((M.indexesOf p).map f).sum = ∑ x : Fin M.nb × Fin M.nb, (M.rateExpr x.1 x.2).degree p * g x.1 x.2 := by
  have hnd := (h.indexes p ((mem_estimated M fixed p).1 hp).1 ((mem_estimated M fixed p).1 hp).2).1
  rw [← List.sum_toFinset _ hnd]
  have hsub : ∑ x : Fin M.nb × Fin M.nb, ((M.rateExpr x.1 x.2).degree p : ℝ) * g x.1 x.2
      = ∑ x ∈ Finset.univ.filter (fun x : Fin M.nb × Fin M.nb => (x.1.1, x.2.1) ∈ M.indexesOf p),
        ((M.rateExpr x.1 x.2).degree p : ℝ) * g x.1 x.2 := by
    symm
    refine Finset.sum_subset (Finset.filter_subset _ _) (fun x _ hx => ?_)
    rw [Finset.mem_filter] at hx
    rw [Expr.degree_zero]
    · simp
    · intro ho
      exact hx ⟨Finset.mem_univ _, (h.mem_indexes hp _ _).2 ⟨x.1.2, x.2.2, ho⟩⟩
  rw [hsub]
  symm
  refine Finset.sum_bij (fun x _ => (x.1.1, x.2.1)) ?_ ?_ ?_ ?_
  · intro x hx
    exact List.mem_toFinset.2 (Finset.mem_filter.1 hx).2
  · intro x _ y _ hxy
    simp only [Prod.mk.injEq] at hxy
    exact Prod.ext (Fin.ext hxy.1) (Fin.ext hxy.2)
  · intro q hq
    have hq' := List.mem_toFinset.1 hq
    have hb := (h.mem_indexes hp q.1 q.2).1 hq'
    exact ⟨(⟨q.1, hb.1⟩, ⟨q.2, hb.2.1⟩), Finset.mem_filter.2 ⟨Finset.mem_univ _, hq'⟩, rfl⟩
  · intro x hx
    exact (hfg x.1 x.2 (Finset.mem_filter.1 hx).2).symm

variable {C : Cats ℝ} {t : Tables M.nb}

theorem seen_iff (s ss : Fin M.nb) : t.seenAt s ss ↔ t.seen s ss :=
  ⟨fun ⟨_, _, h⟩ => h, fun h => ⟨s.2, ss.2, h⟩⟩

open Classical in
theorem work_den1 (h : M.Estimable fixed) (hC : Sorted M fixed C) (ht : t.Good M.here) {p : String} (hp : p ∈ C.cat1) :
    (M.work C M.here t).den1 p * valOf M.values p
      = ∑ x : Fin M.nb × Fin M.nb, (M.rateExpr x.1 x.2).degree p * (t.time x.1 * M.here.matrix x.1 x.2) := by
  rw [← h.sum_indexes (hC.mem1 p hp) (fun q => (if t.seenAt q.1 q.2
    then C.coeff q.1 q.2 * at1 t.time q.1 else 0) * valOf M.values p) (fun i j => t.time i * M.here.matrix i j)]
  · show List.sum _ * _ = _
    rw [← List.sum_map_mul_right]
  · intro i j hij
    have h1 := hC.cat1 p hp _ hij
    have h2 := hC.coeff p hp _ hij
    simp only [seen_iff, at1_fin] at h1 h2 ⊢
    rw [h1.1, Nat.cast_one, one_mul]
    have hm : M.here.matrix i j = (M.rateExpr i j).den (valOf M.values) := rfl
    split_ifs with hs
    · rw [hm, ← h2]; ring
    · rcases ht.unseen i j hs with h0 | h0
      · rw [h0]; ring
      · rw [h0.1]; ring

open Classical in
theorem work_num1 (h : M.Estimable fixed) (hC : Sorted M fixed C) (ht : t.Good M.here) {p : String} (hp : p ∈ C.cat1) :
    (M.work C M.here t).num1 p = ∑ x : Fin M.nb × Fin M.nb, (M.rateExpr x.1 x.2).degree p * t.uses x.1 x.2 := by
  refine h.sum_indexes (hC.mem1 p hp) _ (fun i j => t.uses i j) ?_
  intro i j hij
  have h1 := hC.cat1 p hp _ hij
  simp only [seen_iff, at2_fin] at h1 ⊢
  rw [h1.1, Nat.cast_one, one_mul]
  split_ifs with hs
  · rfl
  · rcases ht.unseen i j hs with h0 | h0
    · exact (ht.zero i j h0).symm
    · exact h0.2.symm

open Classical in
/-- A parameter of the first category whose value is 0: nothing is counted. -/
theorem work_den1_zero (h : M.Estimable fixed) (hC : Sorted M fixed C) (ht : t.Good M.here) {p : String} (hp : p ∈ C.cat1)
    (h0 : valOf M.values p = 0) : (M.work C M.here t).den1 p = 0 := by
  have := h.sum_indexes (hC.mem1 p hp) (fun q => (if t.seenAt q.1 q.2
    then C.coeff q.1 q.2 * at1 t.time q.1 else 0)) (fun i j => 0) ?_
  · simp only [mul_zero, Finset.sum_const_zero] at this
    exact this
  · intro i j hij
    have h2 := hC.coeff p hp _ hij
    simp only [seen_iff, at1_fin] at h2 ⊢
    rw [h0, mul_zero] at h2
    rw [if_neg (fun hs => ht.seen i j hs h2.symm), mul_zero]

theorem work_den2 (h : M.Estimable fixed) (hC : Sorted M fixed C) {p : String} (hp : p ∈ M.estimated fixed) :
    (M.work C M.here t).den2 p
      = ∑ x : Fin M.nb × Fin M.nb, (M.rateExpr x.1 x.2).degree p * (t.time x.1 * M.here.matrix x.1 x.2) := by
  refine h.sum_indexes hp _ (fun i j => t.time i * M.here.matrix i j) ?_
  intro i j _
  simp only [at1_fin, at2_fin]
  rw [hC.power i j i.2 j.2 p hp]
  ring

theorem work_num2 (h : M.Estimable fixed) (hC : Sorted M fixed C) {p : String} (hp : p ∈ M.estimated fixed) :
    (M.work C M.here t).num2 p = ∑ x : Fin M.nb × Fin M.nb, (M.rateExpr x.1 x.2).degree p * t.uses x.1 x.2 := by
  refine h.sum_indexes hp _ (fun i j => t.uses i j) ?_
  intro i j _
  simp only [at2_fin]
  rw [hC.power i j i.2 j.2 p hp]

theorem work_terms (h : M.Estimable fixed) (hC : Sorted M fixed C) {p : String} (hp : p ∈ M.estimated fixed) (y : ℝ) :
    ((M.work C M.here t).terms p).eval y
      = ∑ x : Fin M.nb × Fin M.nb, (M.rateExpr x.1 x.2).degree p *
        (t.time x.1 * M.here.matrix x.1 x.2 * (y / valOf M.values p) ^ (M.totalDegree (M.estimated fixed) x.1 x.2) - t.uses x.1 x.2) := by
  rw [← h.sum_indexes hp (fun q => (monomial (C.total q.1 q.2)
    (C.power q.1 q.2 p * at2 M.here.matrix q.1 q.2 * at1 t.time q.1 / M.current p ^ C.total q.1 q.2)
      - Polynomial.C (C.power q.1 q.2 p * at2 t.uses q.1 q.2)).eval y)
      (fun i j => t.time i * M.here.matrix i j * (y / valOf M.values p) ^ (M.totalDegree (M.estimated fixed) i j) - t.uses i j)]
  · show Polynomial.eval y (List.sum _) = _
    rw [Polynomial.eval_listSum, List.map_map]
    rfl
  · intro i j _
    simp only [at1_fin, at2_fin, eval_sub, eval_monomial, eval_C, current_eq]
    rw [hC.power i j i.2 j.2 p hp, hC.total i j i.2 j.2, div_pow]
    ring

theorem terms_rootForm (h : M.Estimable fixed) (hC : Sorted M fixed C) (ht : t.Good M.here) {p : String}
    (hp : p ∈ M.estimated fixed) : RootForm ((M.work C M.here t).terms p) := by
  refine RootForm.list _ ?_
  intro P hP
  obtain ⟨q, hq, rfl⟩ := List.mem_map.1 hP
  have hb := (h.mem_indexes hp q.1 q.2).1 hq
  obtain ⟨i, j⟩ := q
  obtain ⟨hi, hj, ho⟩ := hb
  dsimp only at hi hj ho ⊢
  have e1 : at2 M.here.matrix i j = M.here.matrix ⟨i, hi⟩ ⟨j, hj⟩ := at2_fin M.here.matrix ⟨i, hi⟩ ⟨j, hj⟩
  have e2 : at2 t.uses i j = t.uses ⟨i, hi⟩ ⟨j, hj⟩ := at2_fin t.uses ⟨i, hi⟩ ⟨j, hj⟩
  have e3 : at1 t.time i = t.time ⟨i, hi⟩ := at1_fin t.time ⟨i, hi⟩
  rw [e1, e2, e3]
  have hd := Expr.degree_pos (h.mono hi hj) p hp ho
  refine RootForm.term _ ?_ _ _ ?_ ?_
  · rw [hC.total i j hi hj]
    unfold totalDegree
    have := Finset.single_le_sum (f := fun p => (M.rateExpr i j).degree p) (fun _ _ => Nat.zero_le _) hp
    omega
  · exact mul_nonneg (Nat.cast_nonneg _) (ht.uses _ _)
  · refine div_nonneg (mul_nonneg (mul_nonneg (Nat.cast_nonneg _) (h.here_valid.2 _ _)) (ht.time _)) (pow_nonneg ?_ _)
    exact h.current_nonneg hp

/-! ### The update -/

theorem sum_map_sub {α : Type} (l : List α) (f g : α → ℝ) :
    (l.map (fun x => f x - g x)).sum = (l.map f).sum - (l.map g).sum := by
  induction l with
  | nil => simp
  | cons a l ih => simp only [List.map_cons, List.sum_cons, ih]; ring

/-- The sums of the tables over the traces. -/
noncomputable def timeSum {n : ℕ} (ts : List (Tables n)) (s : Fin n) : ℝ := (ts.map (fun t => t.time s)).sum
noncomputable def usesSum {n : ℕ} (ts : List (Tables n)) (s ss : Fin n) : ℝ := (ts.map (fun t => t.uses s ss)).sum

/-- The balance equation of the parameter `p` multiplied by `u`. -/
def Balance (M : PCTMC ℝ) (I : Finset String) (T : Fin M.nb → ℝ) (N : Fin M.nb → Fin M.nb → ℝ) (p : String) (u : ℝ) : Prop :=
  ∑ x : Fin M.nb × Fin M.nb, (M.rateExpr x.1 x.2).degree p * N x.1 x.2
    = ∑ x : Fin M.nb × Fin M.nb, (M.rateExpr x.1 x.2).degree p * (T x.1 * M.here.matrix x.1 x.2 * u ^ (M.totalDegree I x.1 x.2))

/-- The expected number of uses of the transitions of `p`, each counted with the degree of `p`, given the times. -/
noncomputable def spent (M : PCTMC ℝ) (T : Fin M.nb → ℝ) (p : String) : ℝ :=
  ∑ x : Fin M.nb × Fin M.nb, (M.rateExpr x.1 x.2).degree p * (T x.1 * M.here.matrix x.1 x.2)

/-- What a new value may be. -/
def Factor (M : PCTMC ℝ) (I : Finset String) (T : Fin M.nb → ℝ) (N : Fin M.nb → Fin M.nb → ℝ) (p : String) (x : ℝ) : Prop :=
  ∃ u, 0 ≤ u ∧ x = valOf M.values p * u ∧ ((u = 1 ∧ M.spent T p = 0) ∨ (M.spent T p ≠ 0 ∧ Balance M I T N p u))

theorem sum_time {ts : List (Tables M.nb)} (d : Fin M.nb × Fin M.nb → ℝ) :
    (ts.map (fun t => ∑ x : Fin M.nb × Fin M.nb, d x * (t.time x.1 * M.here.matrix x.1 x.2))).sum
      = ∑ x : Fin M.nb × Fin M.nb, d x * (timeSum ts x.1 * M.here.matrix x.1 x.2) := by
  rw [← BW.sum_map_comm]
  refine Finset.sum_congr rfl (fun x _ => ?_)
  rw [BW.sum_map_mul, List.sum_map_mul_right]
  rfl

theorem sum_uses {ts : List (Tables M.nb)} (d : Fin M.nb × Fin M.nb → ℝ) :
    (ts.map (fun t => ∑ x : Fin M.nb × Fin M.nb, d x * t.uses x.1 x.2)).sum
      = ∑ x : Fin M.nb × Fin M.nb, d x * usesSum ts x.1 x.2 := by
  rw [← BW.sum_map_comm]
  refine Finset.sum_congr rfl (fun x _ => ?_)
  rw [BW.sum_map_mul]
  rfl

theorem timeSum_nonneg {ts : List (Tables M.nb)} (hts : ∀ t ∈ ts, t.Good M.here) (s : Fin M.nb) : 0 ≤ timeSum ts s :=
  BW.sum_map_nonneg _ _ (fun t ht => (hts t ht).time s)

theorem usesSum_nonneg {ts : List (Tables M.nb)} (hts : ∀ t ∈ ts, t.Good M.here) (s ss : Fin M.nb) : 0 ≤ usesSum ts s ss :=
  BW.sum_map_nonneg _ _ (fun t ht => (hts t ht).uses s ss)

theorem usesSum_zero {ts : List (Tables M.nb)} (hts : ∀ t ∈ ts, t.Good M.here) (s ss : Fin M.nb)
    (h0 : M.here.matrix s ss = 0) : usesSum ts s ss = 0 := by
  unfold usesSum
  rw [List.sum_eq_zero]
  intro a ha
  obtain ⟨t, ht, rfl⟩ := List.mem_map.1 ha
  exact (hts t ht).zero s ss h0

section
variable {ts : List (Tables M.nb)}

theorem value1_factor (h : M.Estimable fixed) (hC : Sorted M fixed C) (hts : ∀ t ∈ ts, t.Good M.here) {p : String}
    (hp : p ∈ C.cat1) :
    Factor M (M.estimated fixed) (timeSum ts) (usesSum ts) p
      (M.value1 ((ts.map (M.work C M.here)).map (fun w => w.den1 p)).sum ((ts.map (M.work C M.here)).map (fun w => w.num1 p)).sum p) := by
  rw [List.map_map, List.map_map]
  have hI := hC.mem1 p hp
  have hden : (ts.map ((fun w : Work => w.den1 p) ∘ M.work C M.here)).sum * valOf M.values p
      = ∑ x : Fin M.nb × Fin M.nb, ((M.rateExpr x.1 x.2).degree p : ℝ) * (timeSum ts x.1 * M.here.matrix x.1 x.2) := by
    rw [← List.sum_map_mul_right, ← sum_time]
    congr 1
    exact List.map_congr_left (fun t ht => work_den1 h hC (hts t ht) hp)
  have hnum : (ts.map ((fun w : Work => w.num1 p) ∘ M.work C M.here)).sum
      = ∑ x : Fin M.nb × Fin M.nb, ((M.rateExpr x.1 x.2).degree p : ℝ) * usesSum ts x.1 x.2 := by
    rw [← sum_uses]
    congr 1
    exact List.map_congr_left (fun t ht => work_num1 h hC (hts t ht) hp)
  have hzero : valOf M.values p = 0 → (ts.map ((fun w : Work => w.den1 p) ∘ M.work C M.here)).sum = 0 := by
    intro h0
    rw [List.sum_eq_zero]
    intro a ha
    obtain ⟨t, ht, rfl⟩ := List.mem_map.1 ha
    exact work_den1_zero h hC (hts t ht) hp h0
  generalize (ts.map ((fun w : Work => w.den1 p) ∘ M.work C M.here)).sum = den at hden hzero ⊢
  generalize (ts.map ((fun w : Work => w.num1 p) ∘ M.work C M.here)).sum = num at hnum ⊢
  unfold value1
  split_ifs with hd
  · exact ⟨1, zero_le_one, by rw [current_eq, div_one, mul_one], Or.inl ⟨rfl, by unfold spent; rw [← hden, hd, zero_mul]⟩⟩
  · have hp0 : valOf M.values p ≠ 0 := fun h0 => hd (hzero h0)
    have hdp : den * valOf M.values p ≠ 0 := mul_ne_zero hd hp0
    refine ⟨num / (den * valOf M.values p), ?_, by field_simp, Or.inr ⟨by unfold spent; rw [← hden]; exact hdp, ?_⟩⟩
    · rw [hden, hnum]
      refine div_nonneg (Finset.sum_nonneg (fun x _ => mul_nonneg (Nat.cast_nonneg _) (usesSum_nonneg hts _ _)))
        (Finset.sum_nonneg (fun x _ => mul_nonneg (Nat.cast_nonneg _) (mul_nonneg (timeSum_nonneg hts _) (h.here_valid.2 _ _))))
    · unfold Balance
      have e : ∀ x : Fin M.nb × Fin M.nb, ((M.rateExpr x.1 x.2).degree p : ℝ) * (timeSum ts x.1 * M.here.matrix x.1 x.2 *
          (num / (den * valOf M.values p)) ^ (M.totalDegree (M.estimated fixed) x.1 x.2))
          = ((M.rateExpr x.1 x.2).degree p : ℝ) * (timeSum ts x.1 * M.here.matrix x.1 x.2) * (num / (den * valOf M.values p)) := by
        intro x
        by_cases ho : (M.rateExpr x.1 x.2).Occurs p
        · rw [(hC.cat1 p hp _ ((h.mem_indexes hI _ _).2 ⟨x.1.2, x.2.2, ho⟩)).2, pow_one]
          ring
        · rw [Expr.degree_zero _ _ ho]; simp
      rw [Finset.sum_congr rfl (fun x _ => e x), ← Finset.sum_mul, ← hnum, ← hden, mul_div_cancel₀ _ hdp]

theorem value2_factor (h : M.Estimable fixed) (hC : Sorted M fixed C) (hts : ∀ t ∈ ts, t.Good M.here) {p : String}
    (hp : p ∈ C.cat2) (x : ℝ)
    (hx : M.value2 C ((ts.map (M.work C M.here)).map (fun w => w.den2 p)).sum ((ts.map (M.work C M.here)).map (fun w => w.num2 p)).sum p
      = .ok x) :
    Factor M (M.estimated fixed) (timeSum ts) (usesSum ts) p x := by
  rw [List.map_map, List.map_map] at hx
  have hI := hC.mem2 p hp
  have hden : (ts.map ((fun w : Work => w.den2 p) ∘ M.work C M.here)).sum
      = ∑ x : Fin M.nb × Fin M.nb, ((M.rateExpr x.1 x.2).degree p : ℝ) * (timeSum ts x.1 * M.here.matrix x.1 x.2) := by
    rw [← sum_time]
    congr 1
    exact List.map_congr_left (fun t _ => work_den2 h hC hI)
  have hnum : (ts.map ((fun w : Work => w.num2 p) ∘ M.work C M.here)).sum
      = ∑ x : Fin M.nb × Fin M.nb, ((M.rateExpr x.1 x.2).degree p : ℝ) * usesSum ts x.1 x.2 := by
    rw [← sum_uses]
    congr 1
    exact List.map_congr_left (fun t _ => work_num2 h hC hI)
  have hnn : 0 ≤ (ts.map ((fun w : Work => w.num2 p) ∘ M.work C M.here)).sum := by
    rw [hnum]
    exact Finset.sum_nonneg (fun x _ => mul_nonneg (Nat.cast_nonneg _) (usesSum_nonneg hts _ _))
  have hdn : 0 ≤ (ts.map ((fun w : Work => w.den2 p) ∘ M.work C M.here)).sum := by
    rw [hden]
    exact Finset.sum_nonneg (fun x _ => mul_nonneg (Nat.cast_nonneg _) (mul_nonneg (timeSum_nonneg hts _) (h.here_valid.2 _ _)))
  generalize (ts.map ((fun w : Work => w.den2 p) ∘ M.work C M.here)).sum = den at hden hx hdn
  generalize (ts.map ((fun w : Work => w.num2 p) ∘ M.work C M.here)).sum = num at hnum hx hnn
  unfold value2 at hx
  dsimp only at hx
  split_ifs at hx with hd hc
  · injection hx with hx
    exact ⟨1, zero_le_one, by rw [← hx, current_eq, div_one, mul_one], Or.inl ⟨rfl, by unfold spent; rw [← hden, hd]⟩⟩
  · injection hx with hx
    have hall := hC.cat2 p hp
    have hhead := h.indexes p ((mem_estimated M fixed p).1 hI).1 ((mem_estimated M fixed p).1 hI).2
    have hne := hC.nonempty p hI
    obtain ⟨q, l, hql⟩ := List.exists_cons_of_ne_nil hne
    have hqm : q ∈ M.indexesOf p := by rw [hql]; exact List.mem_cons_self
    have hq := (h.mem_indexes hI q.1 q.2).1 hqm
    have hhd : (M.indexesOf p).headD (0, 0) = q := by rw [hql]; rfl
    rw [hhd] at hx hc hall
    have htot := hC.total q.1 q.2 hq.1 hq.2.1
    rw [htot] at hx hc
    generalize M.totalDegree (M.estimated fixed) q.1 q.2 = c at hx hc hall
    have hpow : ∀ y : ℝ, 0 ≤ y → (y ^ (1 / (c : ℝ))) ^ c = y := by
      intro y hy
      rw [one_div]
      exact Real.rpow_inv_natCast_pow hy hc
    refine ⟨num ^ (1 / (c : ℝ)) / den ^ (1 / (c : ℝ)), div_nonneg (Real.rpow_nonneg hnn _) (Real.rpow_nonneg hdn _),
      by rw [← hx, current_eq]; ring, Or.inr ⟨by unfold spent; rw [← hden]; exact hd, ?_⟩⟩
    unfold Balance
    have e : ∀ x : Fin M.nb × Fin M.nb, ((M.rateExpr x.1 x.2).degree p : ℝ) * (timeSum ts x.1 * M.here.matrix x.1 x.2 *
        (num ^ (1 / (c : ℝ)) / den ^ (1 / (c : ℝ))) ^ (M.totalDegree (M.estimated fixed) x.1 x.2))
        = ((M.rateExpr x.1 x.2).degree p : ℝ) * (timeSum ts x.1 * M.here.matrix x.1 x.2) * (num / den) := by
      intro x
      by_cases ho : (M.rateExpr x.1 x.2).Occurs p
      · rw [hall _ ((h.mem_indexes hI _ _).2 ⟨x.1.2, x.2.2, ho⟩), div_pow, hpow _ hnn, hpow _ hdn]
        ring
      · rw [Expr.degree_zero _ _ ho]; simp
    rw [Finset.sum_congr rfl (fun x _ => e x), ← Finset.sum_mul, ← hnum, ← hden, mul_div_cancel₀ _ hd]

theorem value3_factor (h : M.Estimable fixed) (hC : Sorted M fixed C) (hts : ∀ t ∈ ts, t.Good M.here) {p : String}
    (hp : p ∈ C.cat3) (x : ℝ) (hx : M.value3 ((ts.map (M.work C M.here)).map (fun w => w.terms p)).sum p = .ok x) :
    Factor M (M.estimated fixed) (timeSum ts) (usesSum ts) p x := by
  rw [List.map_map] at hx
  have hI := hC.mem3 p hp
  unfold value3 at hx
  split_ifs at hx with hp0
  rw [current_eq] at hp0
  have hform : RootForm (ts.map ((fun w : Work => w.terms p) ∘ M.work C M.here)).sum := by
    refine RootForm.list _ ?_
    intro P hP
    obtain ⟨t, ht, rfl⟩ := List.mem_map.1 hP
    exact terms_rootForm h hC (hts t ht) hI
  obtain ⟨hx0, hxr, hP0⟩ := maxRoot_spec _ hform x hx
  have e : ∀ x, (ts.map ((fun w : Work => w.terms p) ∘ M.work C M.here)).sum.eval x
      = ∑ y : Fin M.nb × Fin M.nb, (((M.rateExpr y.1 y.2).degree p : ℝ) * (x / valOf M.values p) ^ (M.totalDegree (M.estimated fixed) y.1 y.2))
          * (timeSum ts y.1 * M.here.matrix y.1 y.2)
        - ∑ y : Fin M.nb × Fin M.nb, ((M.rateExpr y.1 y.2).degree p : ℝ) * usesSum ts y.1 y.2 := by
    intro x
    rw [Polynomial.eval_listSum, List.map_map, ← sum_time, ← sum_uses, ← sum_map_sub]
    congr 1
    refine List.map_congr_left (fun t _ => ?_)
    show Polynomial.eval x ((M.work C M.here t).terms p) = _
    rw [work_terms h hC hI x, ← Finset.sum_sub_distrib]
    exact Finset.sum_congr rfl (fun y _ => by ring)
  refine ⟨x / valOf M.values p, div_nonneg hx0 (h.current_nonneg hI), by field_simp, Or.inr ⟨fun hz => hP0 ?_, ?_⟩⟩
  · unfold spent at hz
    rw [Finset.sum_eq_zero_iff_of_nonneg (fun y _ => mul_nonneg (Nat.cast_nonneg _) (mul_nonneg (timeSum_nonneg hts _) (h.here_valid.2 _ _)))] at hz
    refine Polynomial.funext (fun y => ?_)
    have e0 : ∀ y : ℝ, ∑ z : Fin M.nb × Fin M.nb, (((M.rateExpr z.1 z.2).degree p : ℝ) * (y / valOf M.values p) ^ (M.totalDegree (M.estimated fixed) z.1 z.2))
          * (timeSum ts z.1 * M.here.matrix z.1 z.2) = 0 := by
      intro y
      refine Finset.sum_eq_zero (fun z hz' => ?_)
      have := hz z hz'
      rw [mul_right_comm, this, zero_mul]
    rw [e x, e0] at hxr
    rw [e y, e0, hxr, eval_zero]
  rw [e] at hxr
  unfold Balance
  rw [← sub_eq_zero.1 hxr]
  exact Finset.sum_congr rfl (fun y _ => by ring)

theorem Estimable.ratesOK (h : M.Estimable fixed) : M.RatesOK M.values := by
  intro i j hi hj _ _ ρ hρ
  exact (h.valid ρ hρ).2 ⟨i, hi⟩ ⟨j, hj⟩

theorem update_spec (h : M.Estimable fixed) (hC : Sorted M fixed C) (hts : ∀ t ∈ ts, t.Good M.here) (M' : PCTMC ℝ) (ll : ℝ)
    (hu : M.update C (ts.map (M.work C M.here)) = .ok (M', ll)) :
    M' = { M with values := M'.values } ∧ (∀ p, p ∉ M.estimated fixed → M'.values.lookup p = M.values.lookup p) ∧
    (∀ p ∈ M.estimated fixed, ∃ x, M'.values.lookup p = some x ∧ Factor M (M.estimated fixed) (timeSum ts) (usesSum ts) p x) ∧
    ll = (ts.map (fun t => Real.log t.proba * t.times)).sum := by
  unfold update at hu
  simp only at hu
  obtain ⟨v2, hv2, hu⟩ := (Except.bind_eq_ok _ _ _).1 hu
  obtain ⟨v3, hv3, hu⟩ := (Except.bind_eq_ok _ _ _).1 hu
  obtain ⟨⟨b, M1⟩, hi, hu⟩ := (Except.bind_eq_ok _ _ _).1 hu
  simp only [pure, Except.pure, Except.ok.injEq, Prod.mk.injEq] at hu
  obtain ⟨rfl, hll⟩ := hu
  generalize hv1 : C.cat1.map (fun p => M.value1 ((ts.map (M.work C M.here)).map (fun w => w.den1 p)).sum
    ((ts.map (M.work C M.here)).map (fun w => w.num1 p)).sum p) = v1 at hi
  obtain ⟨M2, h1, h2, h3⟩ := (M.instantiate_spec h.wf (C.cat1 ++ C.cat2 ++ C.cat3) (v1 ++ v2 ++ v3)).1 h.ratesOK
  rw [h1] at hi
  simp only [Except.ok.injEq, Prod.mk.injEq] at hi
  obtain ⟨_, rfl⟩ := hi
  obtain ⟨l2, z2⟩ := List.mapM_inv _ _ _ hv2
  obtain ⟨l3, z3⟩ := List.mapM_inv _ _ _ hv3
  have l1 : v1.length = C.cat1.length := by rw [← hv1, List.length_map]
  have hzip : (C.cat1 ++ C.cat2 ++ C.cat3).zip (v1 ++ v2 ++ v3) = C.cat1.zip v1 ++ C.cat2.zip v2 ++ C.cat3.zip v3 := by
    rw [List.zip_append (by simp [l1, l2]), List.zip_append l1.symm]
  have hfst : ((C.cat1 ++ C.cat2 ++ C.cat3).zip (v1 ++ v2 ++ v3)).map (·.1) = C.cat1 ++ C.cat2 ++ C.cat3 := by
    exact List.map_fst_zip (by simp [l1, l2, l3])
  refine ⟨h2, ?_, ?_, ?_⟩
  · intro p hp
    rw [h3, assign_not_mem]
    rw [hfst]
    simp only [List.mem_append, not_or]
    exact ⟨⟨fun h' => hp (hC.mem1 p h'), fun h' => hp (hC.mem2 p h')⟩, fun h' => hp (hC.mem3 p h')⟩
  · intro p hp
    obtain ⟨x, hx, he⟩ := assign_mem (fun q => M.values.lookup q) ((C.cat1 ++ C.cat2 ++ C.cat3).zip (v1 ++ v2 ++ v3)) p (by
      rw [hfst]
      simp only [List.mem_append]
      rcases hC.all p hp with h' | h' | h'
      · exact Or.inl (Or.inl h')
      · exact Or.inl (Or.inr h')
      · exact Or.inr h')
    refine ⟨x, by rw [h3, he], ?_⟩
    rw [hzip, List.mem_append, List.mem_append] at hx
    rcases hx with (hx | hx) | hx
    · have hp1 := (List.of_mem_zip hx).1
      have : x = M.value1 ((ts.map (M.work C M.here)).map (fun w => w.den1 p)).sum
          ((ts.map (M.work C M.here)).map (fun w => w.num1 p)).sum p := by
        rw [← hv1, List.zip_map_right, List.mem_map] at hx
        obtain ⟨⟨a, b⟩, hab, hxe⟩ := hx
        have : a = b := by
          rw [List.mem_iff_getElem] at hab
          obtain ⟨i, hi, he⟩ := hab
          rw [List.getElem_zip] at he
          injection he with e1 e2
          rw [← e1, ← e2]
        subst this
        injection hxe with e1 e2
        simp only [id] at e1
        subst e1
        exact e2.symm
      rw [this]
      exact value1_factor h hC hts hp1
    · exact value2_factor h hC hts (List.of_mem_zip hx).1 x (z2 _ hx)
    · exact value3_factor h hC hts (List.of_mem_zip hx).1 x (z3 _ hx)
  · rw [← hll]
    unfold BW.logLik
    rw [List.map_map, List.map_map]
    rfl

end

end PCTMC
end Jajapy
