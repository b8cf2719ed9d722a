import Verif.Lemmas.PExpr

/-!
What `_sortParameters` computes on the models of the theorems.
-/

set_option linter.unusedSectionVars false

namespace Jajapy

open Spec

theorem List.mapM_inv {α β : Type} (f : α → Py β) (l : List α) (r : List β) (h : l.mapM f = .ok r) :
    r.length = l.length ∧ ∀ x ∈ l.zip r, f x.1 = .ok x.2 := by
  induction l generalizing r with
  | nil =>
    simp only [List.mapM_nil] at h
    injection h with h
    subst h
    simp
  | cons a l ih =>
    rw [List.mapM_cons] at h
    obtain ⟨b, hb, h⟩ := (Except.bind_eq_ok _ _ _).1 h
    obtain ⟨bs, hbs, h⟩ := (Except.bind_eq_ok _ _ _).1 h
    injection h with h
    subst h
    obtain ⟨h1, h2⟩ := ih bs hbs
    refine ⟨by simp [h1], ?_⟩
    intro x hx
    rw [List.zip_cons_cons, List.mem_cons] at hx
    rcases hx with rfl | hx
    · exact hb
    · exact h2 x hx

/-- A function of the first component that relates all the pairs of a zip. -/
theorem List.mapM_mem {α β : Type} (f : α → Py β) (l : List α) (r : List β) (h : l.mapM f = .ok r) (x : α) (hx : x ∈ l) :
    ∃ y ∈ r, f x = .ok y := by
  obtain ⟨h1, h2⟩ := List.mapM_inv f l r h
  obtain ⟨i, hi, rfl⟩ := List.mem_iff_getElem.1 hx
  refine ⟨r[i], List.getElem_mem _, h2 (l[i], r[i]) ?_⟩
  rw [List.mem_iff_getElem]
  exact ⟨i, by simp [h1, hi], by simp⟩

namespace PCTMC

/-- The estimated parameters. -/
def estimated {K : Type} (M : PCTMC K) (fixed : List String) : Finset String := (M.names.filter (fun p => p ∉ fixed)).toFinset

theorem mem_estimated {K : Type} (M : PCTMC K) (fixed : List String) (p : String) :
    p ∈ M.estimated fixed ↔ p ∈ M.names ∧ p ∉ fixed := by
  unfold estimated
  rw [List.mem_toFinset, List.mem_filter]
  simp

variable {M : PCTMC ℝ} {fixed : List String}

theorem Estimable.mono (h : M.Estimable fixed) {i j : ℕ} (hi : i < M.matrix.length) (hj : j < M.matrix.length) :
    (M.rateExpr i j).Monomial (fun p => p ∈ M.estimated fixed) := by
  have := h.monomial i j hi hj
  simpa only [mem_estimated] using this

theorem Estimable.mem_indexes (h : M.Estimable fixed) {p : String} (hp : p ∈ M.estimated fixed) (i j : ℕ) :
    (i, j) ∈ M.indexesOf p ↔ i < M.matrix.length ∧ j < M.matrix.length ∧ (M.rateExpr i j).Occurs p := by
  rw [mem_estimated] at hp
  exact (h.indexes p hp.1 hp.2).2 i j

theorem Estimable.powerAt_eq (h : M.Estimable fixed) {i j : ℕ} (hi : i < M.matrix.length) (hj : j < M.matrix.length)
    (p : String) (hp : p ∈ M.names) :
    M.powerAt fixed i j p = .ok (if p ∈ M.estimated fixed then (M.rateExpr i j).degree p else 0) := by
  unfold powerAt
  by_cases hf : p ∈ fixed
  · rw [if_pos (Or.inl hf), if_neg (by rw [mem_estimated]; exact fun h' => h'.2 hf)]
  · have hI : p ∈ M.estimated fixed := (mem_estimated M fixed p).2 ⟨hp, hf⟩
    rw [if_pos hI]
    by_cases ho : (M.rateExpr i j).Occurs p
    · rw [if_neg (by
        rintro (h1 | h1)
        · exact hf h1
        · exact h1 ((h.mem_indexes hI i j).2 ⟨hi, hj, ho⟩))]
      rw [M.transitionExpression_eq h.wf hi hj]
      exact Expr.power_eq (h.mono hi hj) p hI ho
    · rw [if_pos (Or.inr (fun h1 => ho ((h.mem_indexes hI i j).1 h1).2.2)), Expr.degree_zero _ _ ho]

/-- The sum of the exponents of the estimated parameters in the rate from `i` to `j`. -/
def totalDegree {K : Type} [Field K] (M : PCTMC K) (I : Finset String) (i j : ℕ) : ℕ := ∑ p ∈ I, (M.rateExpr i j).degree p

theorem Estimable.totalPower_eq (h : M.Estimable fixed) {i j : ℕ} (hi : i < M.matrix.length) (hj : j < M.matrix.length)
    (power : ℕ → ℕ → String → ℕ)
    (hpow : ∀ p ∈ M.names, power i j p = if p ∈ M.estimated fixed then (M.rateExpr i j).degree p else 0) :
    M.totalPower power i j = .ok (M.totalDegree (M.estimated fixed) i j) := by
  unfold totalPower
  rw [M.involved_eq h.wf hi hj]
  have hdecl : ∀ p ∈ (M.rateExpr i j).free, p ∈ M.names := fun p hp =>
    h.wf.declared _ (M.rateExpr_mem h.wf hi hj) p ((Expr.mem_free _ _).1 hp)
  show (if ∀ p ∈ (M.rateExpr i j).free, p ∈ M.names then (.ok ((M.rateExpr i j).free.map (power i j)).sum : Py ℕ)
    else .error .valueError) = _
  rw [if_pos hdecl]
  congr 1
  unfold totalDegree
  rw [List.map_congr_left (fun p hp => hpow p (hdecl p hp)), ← List.sum_toFinset _ (Expr.free_nodup _)]
  rw [← Finset.sum_filter]
  refine Finset.sum_subset_zero_on_sdiff ?_ ?_ (fun _ _ => rfl)
  · intro p hp
    exact (Finset.mem_filter.1 hp).2
  · intro p hp
    rw [Finset.mem_sdiff, Finset.mem_filter, List.mem_toFinset] at hp
    exact Expr.degree_zero _ _ (fun ho => hp.2 ⟨(Expr.mem_free _ _).2 ho, hp.1⟩)

/-- What the theorems use of the result of `_sortParameters`. -/
structure Sorted (M : PCTMC ℝ) (fixed : List String) (C : Cats ℝ) : Prop where
  power : ∀ i j, i < M.matrix.length → j < M.matrix.length → ∀ p ∈ M.estimated fixed, C.power i j p = (M.rateExpr i j).degree p
  total : ∀ i j, i < M.matrix.length → j < M.matrix.length → C.total i j = M.totalDegree (M.estimated fixed) i j
  mem1 : ∀ p ∈ C.cat1, p ∈ M.estimated fixed
  mem2 : ∀ p ∈ C.cat2, p ∈ M.estimated fixed
  mem3 : ∀ p ∈ C.cat3, p ∈ M.estimated fixed
  all : ∀ p ∈ M.estimated fixed, p ∈ C.cat1 ∨ p ∈ C.cat2 ∨ p ∈ C.cat3
  cat1 : ∀ p ∈ C.cat1, ∀ q ∈ M.indexesOf p, (M.rateExpr q.1 q.2).degree p = 1 ∧ M.totalDegree (M.estimated fixed) q.1 q.2 = 1
  cat2 : ∀ p ∈ C.cat2, ∀ q ∈ M.indexesOf p, M.totalDegree (M.estimated fixed) q.1 q.2
    = M.totalDegree (M.estimated fixed) ((M.indexesOf p).headD (0, 0)).1 ((M.indexesOf p).headD (0, 0)).2
  nonempty : ∀ p ∈ M.estimated fixed, M.indexesOf p ≠ []
  coeff : ∀ p ∈ C.cat1, ∀ q ∈ M.indexesOf p, C.coeff q.1 q.2 * valOf M.values p = (M.rateExpr q.1 q.2).den (valOf M.values)

theorem coefficients_inv (M : PCTMC ℝ) (l : List (String × ℕ × ℕ)) (c0 c : ℕ → ℕ → ℝ) (P : ℕ → ℕ → ℝ → Prop)
    (hl : ∀ x ∈ l, ∀ e v, M.transitionExpression x.2.1 x.2.2 = .ok e → e.coefficient M.values x.1 = .ok v → P x.2.1 x.2.2 v)
    (hc : l.foldlM (fun c x => do
      let v ← (← M.transitionExpression x.2.1 x.2.2).coefficient M.values x.1
      return fun s ss => if (s, ss) = x.2 then v else c s ss) c0 = (.ok c : Py _)) :
    ∀ q : ℕ × ℕ, (q ∈ l.map (·.2) ∨ P q.1 q.2 (c0 q.1 q.2)) → P q.1 q.2 (c q.1 q.2) := by
  induction l generalizing c0 with
  | nil =>
    intro q hq
    rw [List.foldlM_nil] at hc
    injection hc with hc
    subst hc
    simpa using hq
  | cons x l ih =>
    rw [List.foldlM_cons] at hc
    obtain ⟨c1, hc1, hc⟩ := (Except.bind_eq_ok _ _ _).1 hc
    obtain ⟨e, he, hc1⟩ := (Except.bind_eq_ok _ _ _).1 hc1
    obtain ⟨v, hv, hc1⟩ := (Except.bind_eq_ok _ _ _).1 hc1
    injection hc1 with hc1
    subst hc1
    have hP := hl x List.mem_cons_self e v he hv
    intro q hq
    refine ih _ (fun y hy => hl y (List.mem_cons_of_mem _ hy)) hc q ?_
    by_cases hqx : q = x.2
    · right
      subst hqx
      simpa using hP
    · rcases hq with hq | hq
      · rw [List.map_cons, List.mem_cons] at hq
        rcases hq with hq | hq
        · exact absurd hq hqx
        · exact Or.inl hq
      · right
        rw [if_neg (by simpa using hqx)]
        exact hq

theorem sortParameters_spec (h : M.Estimable fixed) (C : Cats ℝ) (hs : M.sortParameters fixed = .ok C) : Sorted M fixed C := by
  unfold sortParameters at hs
  simp only at hs
  obtain ⟨_, _, hs⟩ := (Except.bind_eq_ok _ _ _).1 hs
  obtain ⟨cats, hcats, hs⟩ := (Except.bind_eq_ok _ _ _).1 hs
  obtain ⟨coeff, hcoeff, hs⟩ := (Except.bind_eq_ok _ _ _).1 hs
  injection hs with hs
  have hfree : ∀ p, p ∈ M.names.filter (fun p => p ∉ fixed) ↔ p ∈ M.estimated fixed := by
    intro p; unfold estimated; rw [List.mem_toFinset]
  generalize hF : M.names.filter (fun p => p ∉ fixed) = free at hcats hcoeff hs hfree
  have hpow : ∀ i j, i < M.matrix.length → j < M.matrix.length → ∀ p ∈ M.names,
      (M.powerAt fixed i j p).toOption.getD 0 = if p ∈ M.estimated fixed then (M.rateExpr i j).degree p else 0 := by
    intro i j hi hj p hp
    rw [h.powerAt_eq hi hj p hp]
    rfl
  have htot : ∀ i j, i < M.matrix.length → j < M.matrix.length →
      M.totalPower (fun s ss p => (M.powerAt fixed s ss p).toOption.getD 0) i j = .ok (M.totalDegree (M.estimated fixed) i j) :=
    fun i j hi hj => h.totalPower_eq hi hj _ (hpow i j hi hj)
  obtain ⟨hlen, hz⟩ := List.mapM_inv _ _ _ hcats
  have hmem : ∀ k p, p ∈ ((free.zip cats).filter (fun x => x.2 = k)).map (·.1) →
      p ∈ M.estimated fixed ∧ M.category (fun s ss p => (M.powerAt fixed s ss p).toOption.getD 0) p = .ok k := by
    intro k p hp
    obtain ⟨x, hx, rfl⟩ := List.mem_map.1 hp
    obtain ⟨hx1, hx2⟩ := List.mem_filter.1 hx
    have hx2 : x.2 = k := by simpa using hx2
    refine ⟨(hfree _).1 (List.of_mem_zip hx1).1, ?_⟩
    rw [← hx2]
    exact hz x hx1
  -- what a category tells
  have hcat : ∀ p ∈ M.estimated fixed, ∀ k,
      M.category (fun s ss p => (M.powerAt fixed s ss p).toOption.getD 0) p = .ok k →
      M.indexesOf p ≠ [] ∧ (k = 1 ∨ k = 2 ∨ k = 3) ∧
      (k = 1 → ∀ q ∈ M.indexesOf p, (M.rateExpr q.1 q.2).degree p = 1 ∧ M.totalDegree (M.estimated fixed) q.1 q.2 = 1) ∧
      (k = 2 → ∀ q ∈ M.indexesOf p, M.totalDegree (M.estimated fixed) q.1 q.2
        = M.totalDegree (M.estimated fixed) ((M.indexesOf p).headD (0, 0)).1 ((M.indexesOf p).headD (0, 0)).2) := by
    intro p hp k hk
    have hin : ∀ q ∈ M.indexesOf p, q.1 < M.matrix.length ∧ q.2 < M.matrix.length := fun q hq =>
      ⟨((h.mem_indexes hp q.1 q.2).1 hq).1, ((h.mem_indexes hp q.1 q.2).1 hq).2.1⟩
    unfold category at hk
    have hcs : (M.indexesOf p).mapM (fun q => M.totalPower (fun s ss p => (M.powerAt fixed s ss p).toOption.getD 0) q.1 q.2)
        = .ok ((M.indexesOf p).map (fun q => M.totalDegree (M.estimated fixed) q.1 q.2)) :=
      List.mapM_ok _ _ _ (fun q hq => htot q.1 q.2 (hin q hq).1 (hin q hq).2)
    rw [hcs] at hk
    generalize hCS : (M.indexesOf p).map (fun q => M.totalDegree (M.estimated fixed) q.1 q.2) = cs at hk
    have hk' : (if M.indexesOf p = [] then (.error .valueError : Py ℕ)
      else if (∀ q ∈ M.indexesOf p, (M.powerAt fixed q.1 q.2 p).toOption.getD 0 = 1) ∧
        (∀ c ∈ cs, c = 1) then .ok 1
      else if ∀ c ∈ cs, c = cs.headD 0 then .ok 2 else .ok 3) = .ok k := hk
    subst hCS
    split_ifs at hk' with h1 h2 h3
    · injection hk' with hk'
      subst hk'
      refine ⟨h1, Or.inl rfl, fun _ q hq => ⟨?_, h2.2 _ (List.mem_map.2 ⟨q, hq, rfl⟩)⟩, by intro h'; omega⟩
      have := h2.1 q hq
      rw [hpow _ _ (hin q hq).1 (hin q hq).2 p ((mem_estimated M fixed p).1 hp).1, if_pos hp] at this
      exact this
    · injection hk' with hk'
      subst hk'
      refine ⟨h1, Or.inr (Or.inl rfl), by intro h'; omega, fun _ q hq => ?_⟩
      have := h3 _ (List.mem_map.2 ⟨q, hq, rfl⟩)
      rw [this]
      cases hl : M.indexesOf p with
      | nil => exact absurd hl h1
      | cons a l => rfl
    · injection hk' with hk'
      subst hk'
      exact ⟨h1, Or.inr (Or.inr rfl), by intro h'; omega, by intro h'; omega⟩
  subst hs
  refine ⟨?_, ?_, fun p hp => (hmem 1 p hp).1, fun p hp => (hmem 2 p hp).1, fun p hp => (hmem 3 p hp).1, ?_, ?_, ?_, ?_, ?_⟩
  · intro i j hi hj p hp
    show (M.powerAt fixed i j p).toOption.getD 0 = _
    rw [hpow i j hi hj p ((mem_estimated M fixed p).1 hp).1, if_pos hp]
  · intro i j hi hj
    show (M.totalPower _ i j).toOption.getD 0 = _
    rw [htot i j hi hj]
    rfl
  · intro p hp
    obtain ⟨k, hk, hk'⟩ := List.mapM_mem _ _ _ hcats p ((hfree p).2 hp)
    obtain ⟨i, hi, hip⟩ := List.mem_iff_getElem.1 ((hfree p).2 hp)
    have hi' : i < cats.length := by rw [hlen]; exact hi
    have hzi : (free[i], cats[i]) ∈ free.zip cats := List.mem_iff_getElem.2 ⟨i, by simp [hlen, hi], by simp⟩
    have hc := hz _ hzi
    rw [hip] at hc hzi
    have hin : ∀ k, cats[i] = k → p ∈ ((free.zip cats).filter (fun x => x.2 = k)).map (·.1) := by
      intro k hk
      exact List.mem_map.2 ⟨(p, cats[i]), List.mem_filter.2 ⟨hzi, by simp [hk]⟩, rfl⟩
    rcases (hcat p hp _ hc).2.1 with h1 | h1 | h1
    · exact Or.inl (hin 1 h1)
    · exact Or.inr (Or.inl (hin 2 h1))
    · exact Or.inr (Or.inr (hin 3 h1))
  · intro p hp
    exact (hcat p (hmem 1 p hp).1 1 (hmem 1 p hp).2).2.2.1 rfl
  · intro p hp
    exact (hcat p (hmem 2 p hp).1 2 (hmem 2 p hp).2).2.2.2 rfl
  · intro p hp
    obtain ⟨k, hk, hk'⟩ := List.mapM_mem _ _ _ hcats p ((hfree p).2 hp)
    exact (hcat p hp k hk').1
  · intro p hp q hq
    have hpI := (hmem 1 p hp).1
    have hq1 := (hcat p hpI 1 (hmem 1 p hp).2).2.2.1 rfl q hq
    have hoc := (h.mem_indexes hpI q.1 q.2).1 hq
    unfold coefficients at hcoeff
    refine coefficients_inv M _ _ _ (fun i j v => i = q.1 → j = q.2 → v * valOf M.values p = (M.rateExpr i j).den (valOf M.values))
      ?_ hcoeff q (Or.inl ?_) rfl rfl
    · intro x hx e v he hv h1 h2
      obtain ⟨p', hp', hx⟩ := List.mem_flatMap.1 hx
      obtain ⟨q', hq', rfl⟩ := List.mem_map.1 hx
      simp only at he hv h1 h2
      have hpI' := (hmem 1 p' hp').1
      have hoc' := (h.mem_indexes hpI' q'.1 q'.2).1 hq'
      -- the same transition: the same parameter
      have hpp : p' = p := by
        by_contra hne
        have hqq : q' = q := Prod.ext h1 h2
        subst hqq
        have hd := Expr.degree_pos (h.mono hoc.1 hoc.2.1) p' hpI' hoc'.2.2
        have hsum : (M.rateExpr q'.1 q'.2).degree p + (M.rateExpr q'.1 q'.2).degree p' ≤ M.totalDegree (M.estimated fixed) q'.1 q'.2 := by
          unfold totalDegree
          rw [← Finset.sum_pair (f := fun p => (M.rateExpr q'.1 q'.2).degree p) (fun h => hne h.symm)]
          refine Finset.sum_le_sum_of_subset ?_
          intro r hr
          rcases Finset.mem_insert.1 hr with rfl | hr
          · exact hpI
          · rw [Finset.mem_singleton.1 hr]; exact hpI'
        omega
      subst hpp
      rw [M.transitionExpression_eq h.wf hoc'.1 hoc'.2.1] at he
      injection he with he
      subst he
      refine Expr.coefficient_eq M.values p' hpI' (h.mono hoc'.1 hoc'.2.1) hoc'.2.2 ?_ v hv
      rw [h1, h2]; exact hq1.1
    · rw [List.mem_map]
      exact ⟨(p, q), List.mem_flatMap.2 ⟨p, hp, List.mem_map.2 ⟨q, hq, rfl⟩⟩, rfl⟩

end PCTMC
end Jajapy
