import Verif.Model.PReduce
import Verif.Spec.PReduce
import Verif.Lemmas.PCTMC

/-!
Lemmas about the removal of states and expressions.
-/

set_option linter.unusedSectionVars false

namespace Jajapy.PCTMC

open Spec

variable {K : Type} [Field K] [LinearOrder K]

/-- The index in the matrix. -/
def entry (M : PCTMC K) (i j : ℕ) : ℕ := (M.matrix.getD i []).getD j 0

theorem rateExpr_entry (M : PCTMC K) (i j : ℕ) : M.rateExpr i j = M.exprs.getD (M.entry i j) (.num 0) := rfl

/-- The former id of the state `a`, after the removal of `s`. -/
def skip (s a : ℕ) : ℕ := if a < s then a else a + 1

theorem getD_eraseIdx {α : Type} (l : List α) (s a : ℕ) (d : α) : (l.eraseIdx s).getD a d = l.getD (skip s a) d := by
  unfold skip
  simp only [List.getD_eq_getElem?_getD, List.getElem?_eraseIdx]
  split_ifs <;> rfl

/-- The shape kept by the removals. -/
structure Shape (M : PCTMC K) : Prop where
  square : ∀ row ∈ M.matrix, row.length = M.matrix.length
  labels : M.labelling.length = M.matrix.length
  init : M.initialState.length = M.matrix.length

theorem WF.shape {M : PCTMC K} (h : M.WF) : M.Shape := ⟨h.square, h.labels, h.init⟩

theorem removeState_length (M : PCTMC K) {s : ℕ} (hs : s < M.matrix.length) :
    (M.removeState s).matrix.length = M.matrix.length - 1 := by
  simp only [removeState, List.length_map, List.length_eraseIdx, if_pos hs]

theorem removeState_shape (M : PCTMC K) (hM : M.Shape) {s : ℕ} (hs : s < M.matrix.length) : (M.removeState s).Shape := by
  refine ⟨?_, ?_, ?_⟩
  · rw [removeState_length M hs]
    intro row hrow
    simp only [removeState, List.mem_map] at hrow
    obtain ⟨r, hr, rfl⟩ := hrow
    have := hM.square r (List.mem_of_mem_eraseIdx hr)
    rw [List.length_eraseIdx, if_pos (by omega), this]
  · rw [removeState_length M hs]
    simp only [removeState, List.length_eraseIdx, hM.labels, if_pos hs]
  · rw [removeState_length M hs]
    simp only [removeState, List.length_eraseIdx, hM.init, if_pos hs]

theorem removeState_entry (M : PCTMC K) (s a b : ℕ) : (M.removeState s).entry a b = M.entry (skip s a) (skip s b) := by
  unfold entry
  have : (M.removeState s).matrix.getD a [] = (M.matrix.getD (skip s a) []).eraseIdx s := by
    rw [← getD_eraseIdx]
    simp only [removeState, List.getD_eq_getElem?_getD, List.getElem?_map]
    cases (M.matrix.eraseIdx s)[a]? <;> simp
  rw [this, getD_eraseIdx]

theorem skip_injective (s : ℕ) {a b : ℕ} (h : skip s a = skip s b) : a = b := by
  unfold skip at h
  split_ifs at h <;> omega

theorem skip_lt_iff {s n a : ℕ} (hs : s < n) : skip s a < n ↔ a < n - 1 := by
  unfold skip
  split_ifs <;> omega

theorem skip_ne (s a : ℕ) : skip s a ≠ s := by
  unfold skip
  split_ifs <;> omega

theorem exists_skip {s k : ℕ} (h : k ≠ s) : ∃ a, skip s a = k := by
  by_cases hk : k < s
  · exact ⟨k, by unfold skip; rw [if_pos hk]⟩
  · exact ⟨k - 1, by unfold skip; rw [if_neg (by omega)]; omega⟩

theorem mem_shift (s : ℕ) (l : List (ℕ × ℕ)) (a b : ℕ) : (a, b) ∈ l.filterMap (shiftPair s) ↔ (skip s a, skip s b) ∈ l := by
  rw [List.mem_filterMap]
  constructor
  · rintro ⟨⟨x, y⟩, hm, h⟩
    unfold shiftPair at h
    simp only at h
    by_cases hc : x = s ∨ y = s
    · rw [if_pos hc] at h; cases h
    · rw [if_neg hc] at h
      push Not at hc
      injection h with h
      injection h with h1 h2
      have : (skip s a, skip s b) = (x, y) := by
        unfold skip
        rw [← h1, ← h2]
        congr 1
        · split_ifs <;> omega
        · split_ifs <;> omega
      rw [this]; exact hm
  · intro h
    refine ⟨_, h, ?_⟩
    unfold shiftPair
    rw [if_neg (by simp only; push Not; exact ⟨skip_ne s a, skip_ne s b⟩)]
    unfold skip
    congr 2
    · split_ifs <;> omega
    · split_ifs <;> omega

/-- The ids that are left. -/
def without (n s : ℕ) : List ℕ := (List.range (n - 1)).map (skip s)

theorem Restricts.refl (M : PCTMC K) (hM : M.Shape) (hI : M.IndexesInRange) : Restricts M M (List.range M.matrix.length) := by
  refine ⟨List.pairwise_lt_range, fun k hk => List.mem_range.1 hk, by simp, hM.square, ?_, ?_, ?_, ?_, ⟨rfl, ?_⟩, rfl, rfl⟩
  · intro a b ha hb; simp
  · intro a b ha hb; simp
  · apply List.ext_getElem
    · simp [hM.labels]
    · intro i h1 h2; simp [List.getD_eq_getElem?_getD, List.getElem?_eq_getElem h1]
  · apply List.ext_getElem
    · simp [hM.init]
    · intro i h1 h2; simp [List.getD_eq_getElem?_getD, List.getElem?_eq_getElem h1]
  · intro p a b
    constructor
    · intro h
      have hp : p < M.indexes.length := by
        by_contra hc
        rw [List.getD_eq_getElem?_getD, List.getElem?_eq_none (not_lt.1 hc)] at h
        simp at h
      rw [List.getD_eq_getElem?_getD, List.getElem?_eq_getElem hp, Option.getD_some] at h
      obtain ⟨h1, h2⟩ := hI _ (List.getElem_mem hp) _ h
      refine ⟨by simpa using h1, by simpa using h2, ?_⟩
      simp only [List.getElem_range]
      rw [List.getD_eq_getElem?_getD, List.getElem?_eq_getElem hp, Option.getD_some]
      exact h
    · rintro ⟨_, _, h⟩
      simpa using h

theorem removeState_inRange (M : PCTMC K) (hI : M.IndexesInRange) {s : ℕ} (hs : s < M.matrix.length) :
    (M.removeState s).IndexesInRange := by
  intro l hl p hp
  simp only [removeState, List.mem_map] at hl
  obtain ⟨l', hl', rfl⟩ := hl
  obtain ⟨a, b⟩ := p
  obtain ⟨h1, h2⟩ := hI l' hl' _ ((mem_shift s l' a b).1 hp)
  rw [removeState_length M hs]
  exact ⟨(skip_lt_iff hs).1 h1, (skip_lt_iff hs).1 h2⟩

theorem removeState_edge (M : PCTMC K) {s : ℕ} (hs : s < M.matrix.length) (a b : ℕ) :
    (M.removeState s).Edge a b ↔ M.Edge (skip s a) (skip s b) := by
  unfold Edge
  rw [removeState_length M hs, skip_lt_iff hs, skip_lt_iff hs]
  have := M.removeState_entry s a b
  unfold entry at this
  rw [this]

/-- Removing one state after having restricted. -/
theorem Restricts.after {M M1 M2 : PCTMC K} {s : ℕ} {keep : List ℕ} (hM : M.Shape) (hs : s < M.matrix.length)
    (h1 : M1 = M.removeState s) (h2 : Restricts M2 M1 keep) : Restricts M2 M (keep.map (skip s)) := by
  have hlen := removeState_length M hs
  have hk : ∀ a (ha : a < (keep.map (skip s)).length), a < keep.length := fun a ha => by simpa using ha
  have hget : ∀ {α : Type} (f : PCTMC K → List α) (d : α), (∀ N, f (N.removeState s) = (f N).eraseIdx s) →
      keep.map (fun k => (f M1).getD k d) = (keep.map (skip s)).map (fun k => (f M).getD k d) := by
    intro α f d hf
    rw [List.map_map]
    apply List.map_congr_left
    intro k _
    rw [h1, hf, getD_eraseIdx]
    rfl
  refine ⟨?_, ?_, ?_, h2.square, ?_, ?_, ?_, ?_, ⟨?_, ?_⟩, ?_, ?_⟩
  · rw [List.pairwise_map]
    exact h2.sorted.imp (fun h => by unfold skip; split_ifs <;> omega)
  · intro k hk
    obtain ⟨a, ha, rfl⟩ := List.mem_map.1 hk
    have := h2.inRange a ha
    rw [h1, hlen] at this
    exact (skip_lt_iff hs).2 this
  · rw [h2.size, List.length_map]
  · intro a b ha hb
    rw [h2.edge a b (hk a ha) (hk b hb), h1, removeState_edge M hs, List.getElem_map, List.getElem_map]
  · intro a b ha hb
    rw [h2.rate a b (hk a ha) (hk b hb), h1, rateExpr_entry, rateExpr_entry, removeState_entry, List.getElem_map, List.getElem_map]
    rfl
  · rw [h2.labels]
    exact hget (fun N => N.labelling) "" (fun _ => rfl)
  · rw [h2.init]
    exact hget (fun N => N.initialState) 0 (fun _ => rfl)
  · rw [h2.used.1, h1]
    simp [removeState]
  · intro p a b
    rw [h2.used.2 p a b]
    have hp : M1.indexes.getD p [] = (M.indexes.getD p []).filterMap (shiftPair s) := by
      rw [h1]
      simp only [removeState, List.getD_eq_getElem?_getD, List.getElem?_map]
      cases M.indexes[p]? <;> simp
    rw [hp]
    constructor
    · rintro ⟨ha, hb, h⟩
      refine ⟨by simpa using ha, by simpa using hb, ?_⟩
      rw [List.getElem_map, List.getElem_map]
      exact (mem_shift _ _ _ _).1 h
    · rintro ⟨ha, hb, h⟩
      refine ⟨by simpa using ha, by simpa using hb, ?_⟩
      rw [List.getElem_map, List.getElem_map] at h
      exact (mem_shift _ _ _ _).2 h
  · rw [h2.names, h1]; rfl
  · rw [h2.values, h1]; rfl

/-- The loop, for any test: the result is the model restricted to some states, none of which fails the test; and the states
that are protected from the removals are kept. -/
theorem removeLoop_spec (bad : PCTMC K → ℕ → Bool) (R : PCTMC K → ℕ → Prop)
    (hbad : ∀ M : PCTMC K, M.Shape → ∀ s < M.matrix.length, bad M s = true → ¬ R M s)
    (hstep : ∀ M : PCTMC K, M.Shape → ∀ s < M.matrix.length, bad M s = true → ∀ a, R M (skip s a) → R (M.removeState s) a)
    (M : PCTMC K) (s : ℕ) (hM : M.Shape) (hI : M.IndexesInRange) (hs : ∀ i < s, i < M.matrix.length → bad M i = false) :
    ∃ keep, Restricts (removeLoop bad M s) M keep ∧
      (∀ i < (removeLoop bad M s).matrix.length, bad (removeLoop bad M s) i = false) ∧
      (∀ k < M.matrix.length, R M k → k ∈ keep) ∧ (removeLoop bad M s).Shape := by
  induction M, s using removeLoop.induct bad with
  | case1 M s h hb ih =>
    rw [removeLoop, dif_pos h, if_pos hb]
    obtain ⟨keep, h1, h2, h3, h4⟩ := ih (removeState_shape M hM h) (removeState_inRange M hI h) (by omega)
    refine ⟨keep.map (skip s), h1.after hM h rfl, h2, ?_, h4⟩
    intro k hk hR
    have hks : k ≠ s := fun e => hbad M hM s h hb (e ▸ hR)
    obtain ⟨a, rfl⟩ := exists_skip hks
    refine List.mem_map.2 ⟨a, h3 a ?_ (hstep M hM s h hb a hR), rfl⟩
    rw [removeState_length M h]
    exact (skip_lt_iff h).1 hk
  | case2 M s h hb ih =>
    rw [removeLoop, dif_pos h, if_neg hb]
    apply ih hM hI
    intro i hi hi'
    by_cases he : i = s
    · subst he; simpa using hb
    · exact hs i (by omega) hi'
  | case3 M s h =>
    rw [removeLoop, dif_neg h]
    refine ⟨_, Restricts.refl M hM hI, fun i hi => hs i (by omega) hi, fun k hk _ => List.mem_range.2 hk, hM⟩

/-! ### The expressions -/

theorem dropExpr_entry (M : PCTMC K) (t i j : ℕ) :
    (M.dropExpr t).entry i j = if M.entry i j > t then M.entry i j - 1 else M.entry i j := by
  unfold entry
  have : (M.dropExpr t).matrix.getD i [] = (M.matrix.getD i []).map (fun x => if x > t then x - 1 else x) := by
    simp only [dropExpr, List.getD_eq_getElem?_getD, List.getElem?_map]
    cases M.matrix[i]? <;> simp
  rw [this]
  simp only [List.getD_eq_getElem?_getD, List.getElem?_map]
  cases (M.matrix[i]?.getD [])[j]? <;> simp

theorem uses_iff (M : PCTMC K) (hsq : ∀ row ∈ M.matrix, row.length = M.matrix.length) (t : ℕ) :
    M.uses t = true ↔ ∃ i j, i < M.matrix.length ∧ j < M.matrix.length ∧ M.entry i j = t := by
  unfold uses
  rw [List.any_eq_true]
  constructor
  · rintro ⟨row, hr, h⟩
    obtain ⟨x, hx, he⟩ := List.any_eq_true.1 h
    obtain ⟨i, hi, rfl⟩ := List.mem_iff_getElem.1 hr
    obtain ⟨j, hj, rfl⟩ := List.mem_iff_getElem.1 hx
    refine ⟨i, j, hi, by rw [← hsq _ hr]; exact hj, ?_⟩
    unfold entry
    rw [List.getD_eq_getElem?_getD, List.getD_eq_getElem?_getD, List.getElem?_eq_getElem hi, Option.getD_some,
      List.getElem?_eq_getElem hj, Option.getD_some]
    simpa using he
  · rintro ⟨i, j, hi, hj, he⟩
    have hj' : j < (M.matrix[i]).length := by rw [hsq _ (List.getElem_mem hi)]; exact hj
    refine ⟨M.matrix[i], List.getElem_mem hi, List.any_eq_true.2 ⟨M.matrix[i][j], List.getElem_mem hj', ?_⟩⟩
    unfold entry at he
    rw [List.getD_eq_getElem?_getD, List.getD_eq_getElem?_getD, List.getElem?_eq_getElem hi, Option.getD_some,
      List.getElem?_eq_getElem hj', Option.getD_some] at he
    simpa using he

theorem dropExpr_rate (M : PCTMC K) (t i j : ℕ) (h : M.entry i j ≠ t) : (M.dropExpr t).rateExpr i j = M.rateExpr i j := by
  rw [rateExpr_entry, rateExpr_entry, dropExpr_entry]
  show (M.exprs.eraseIdx t).getD _ _ = _
  rw [getD_eraseIdx]
  congr 1
  unfold skip
  split_ifs <;> omega

theorem dropExpr_length (M : PCTMC K) (t : ℕ) : (M.dropExpr t).matrix.length = M.matrix.length := by simp [dropExpr]

theorem dropExpr_square (M : PCTMC K) (hsq : ∀ row ∈ M.matrix, row.length = M.matrix.length) (t : ℕ) :
    ∀ row ∈ (M.dropExpr t).matrix, row.length = (M.dropExpr t).matrix.length := by
  rw [dropExpr_length]
  intro row hrow
  simp only [dropExpr, List.mem_map] at hrow
  obtain ⟨r, hr, rfl⟩ := hrow
  rw [List.length_map]
  exact hsq r hr

theorem dropUnused_eq (M : PCTMC K) (t : ℕ) (ht : 1 ≤ t) (hsq : ∀ row ∈ M.matrix, row.length = M.matrix.length)
    (hu : ∀ x, 1 ≤ x → x < t → M.uses x = true) :
    SameRates (M.dropUnused t) M ∧
    (∀ i j, i < M.matrix.length → j < M.matrix.length → ((M.dropUnused t).entry i j = 0 ↔ M.entry i j = 0)) ∧
    (∀ x, 1 ≤ x → x < (M.dropUnused t).exprs.length → (M.dropUnused t).uses x = true) := by
  induction M, t using dropUnused.induct with
  | case1 M t h hb ih =>
    rw [dropUnused, dif_pos h, if_pos hb]
    have hne : ∀ i j, i < M.matrix.length → j < M.matrix.length → M.entry i j ≠ t := by
      intro i j hi hj he
      have := (M.uses_iff hsq t).2 ⟨i, j, hi, hj, he⟩
      rw [hb] at this
      cases this
    obtain ⟨h1, h2, h3⟩ := ih ht (dropExpr_square M hsq t) (by
      intro x hx hxt
      obtain ⟨i, j, hi, hj, he⟩ := (M.uses_iff hsq x).1 (hu x hx hxt)
      rw [uses_iff _ (dropExpr_square M hsq t)]
      refine ⟨i, j, by rwa [dropExpr_length], by rwa [dropExpr_length], ?_⟩
      rw [dropExpr_entry, if_neg (by omega), he])
    refine ⟨⟨h1.size.trans (dropExpr_length M t), h1.square, ?_, ?_, ?_⟩, ?_, h3⟩
    · intro i j hi hj
      rw [h1.rate i j (by rwa [dropExpr_length]) (by rwa [dropExpr_length]), dropExpr_rate M t i j (hne i j hi hj)]
    · exact h1.sub.trans (List.eraseIdx_sublist _ _)
    · have := h1.rest
      generalize (M.dropExpr t).dropUnused t = N at this
      cases N; cases M
      simp only [dropExpr, PCTMC.mk.injEq] at this ⊢
      simp_all
    · intro i j hi hj
      rw [h2 i j (by rwa [dropExpr_length]) (by rwa [dropExpr_length]), dropExpr_entry]
      split_ifs <;> omega
  | case2 M t h hb ih =>
    rw [dropUnused, dif_pos h, if_neg hb]
    apply ih (by omega) hsq
    intro x hx hxt
    by_cases he : x = t
    · subst he; simpa using hb
    · exact hu x hx (by omega)
  | case3 M t h =>
    rw [dropUnused, dif_neg h]
    exact ⟨⟨rfl, hsq, fun _ _ _ _ => rfl, List.Sublist.refl _, rfl⟩, fun _ _ _ _ => Iff.rfl, fun x h1 h2 => hu x h1 (by omega)⟩

/-- A restriction followed by a renumbering of the expressions. -/
theorem Restricts.renumber {M M1 M2 : PCTMC K} {keep : List ℕ} (h : Restricts M1 M keep) (h2 : SameRates M2 M1)
    (h0 : ∀ i j, i < M1.matrix.length → j < M1.matrix.length → (M2.entry i j = 0 ↔ M1.entry i j = 0)) :
    Restricts M2 M keep := by
  have hr := h2.rest
  have e1 : M2.labelling = M1.labelling := by rw [← hr]
  have e2 : M2.initialState = M1.initialState := by rw [← hr]
  have e3 : M2.indexes = M1.indexes := by rw [← hr]
  have e4 : M2.names = M1.names := by rw [← hr]
  have e5 : M2.values = M1.values := by rw [← hr]
  refine ⟨h.sorted, h.inRange, h2.size.trans h.size, h2.square, ?_, ?_, e1.trans h.labels, e2.trans h.init, ?_, e4.trans h.names,
    e5.trans h.values⟩
  · intro a b ha hb
    rw [← h.edge a b ha hb]
    have ha' : a < M1.matrix.length := by rw [h.size]; exact ha
    have hb' : b < M1.matrix.length := by rw [h.size]; exact hb
    have := h0 a b ha' hb'
    unfold Edge
    unfold entry at this
    rw [h2.size, ne_eq, ne_eq, this]
  · intro a b ha hb
    rw [h2.rate a b (by rw [h.size]; exact ha) (by rw [h.size]; exact hb), h.rate a b ha hb]
  · rw [e3]; exact h.used

theorem dropAll_eq (order : List ℕ) (M : PCTMC K) (hsq : ∀ row ∈ M.matrix, row.length = M.matrix.length) (hn : order.Nodup)
    (hlt : ∀ t ∈ order, t < M.exprs.length) (hu : ∀ t ∈ order, M.uses t = false) :
    SameRates (dropAll order M) M ∧
    (0 ∉ order → ∀ i j, i < M.matrix.length → j < M.matrix.length → ((dropAll order M).entry i j = 0 ↔ M.entry i j = 0)) ∧
    ((∀ t < M.exprs.length, M.uses t = false → t ∈ order) →
      ∀ t < (dropAll order M).exprs.length, (dropAll order M).uses t = true) := by
  induction hl : order.length generalizing order M with
  | zero =>
    rw [List.length_eq_zero_iff] at hl
    subst hl
    rw [dropAll]
    refine ⟨⟨rfl, hsq, fun _ _ _ _ => rfl, List.Sublist.refl _, rfl⟩, fun _ _ _ _ _ => Iff.rfl, ?_⟩
    intro h t ht
    by_contra hc
    exact absurd (h t ht (by simpa using hc)) (by simp)
  | succ m ih =>
    cases order with
    | nil => simp at hl
    | cons t order =>
      rw [dropAll]
      set sh : ℕ → ℕ := fun x => if x > t then x - 1 else x with hsh
      have hto : t ∉ order := (List.nodup_cons.1 hn).1
      have hno : order.Nodup := (List.nodup_cons.1 hn).2
      have htu : M.uses t = false := hu t List.mem_cons_self
      have htl : t < M.exprs.length := hlt t List.mem_cons_self
      have hne : ∀ i j, i < M.matrix.length → j < M.matrix.length → M.entry i j ≠ t := by
        intro i j hi hj he
        have := (M.uses_iff hsq t).2 ⟨i, j, hi, hj, he⟩
        rw [htu] at this
        cases this
      have hinj : ∀ x y, x ≠ t → y ≠ t → sh x = sh y → x = y := by
        intro x y hx hy h
        simp only [hsh] at h
        split_ifs at h <;> omega
      have huse : ∀ x, x ≠ t → ((M.dropExpr t).uses (sh x) = true ↔ M.uses x = true) := by
        intro x hx
        rw [uses_iff _ (dropExpr_square M hsq t), uses_iff _ hsq, dropExpr_length]
        constructor
        · rintro ⟨i, j, hi, hj, he⟩
          refine ⟨i, j, hi, hj, ?_⟩
          rw [dropExpr_entry] at he
          exact hinj _ _ (hne i j hi hj) hx he
        · rintro ⟨i, j, hi, hj, he⟩
          refine ⟨i, j, hi, hj, ?_⟩
          rw [dropExpr_entry, he]
      have hlen : (M.dropExpr t).exprs.length = M.exprs.length - 1 := by
        simp only [dropExpr, List.length_eraseIdx, if_pos htl]
      have hot : ∀ x ∈ order, x ≠ t := fun x hx e => hto (e ▸ hx)
      obtain ⟨h1, h2, h3⟩ := ih (order.map sh) (M.dropExpr t) (dropExpr_square M hsq t)
        (List.Nodup.map_on (fun x hx y hy h => hinj x y (hot x hx) (hot y hy) h) hno)
        (by
          intro y hy
          obtain ⟨x, hx, rfl⟩ := List.mem_map.1 hy
          have := hlt x (List.mem_cons_of_mem _ hx)
          have := hot x hx
          rw [hlen]
          simp only [hsh]
          split_ifs <;> omega)
        (by
          intro y hy
          obtain ⟨x, hx, rfl⟩ := List.mem_map.1 hy
          have h := hu x (List.mem_cons_of_mem _ hx)
          have := (huse x (hot x hx)).1
          by_contra hc
          rw [this (by simpa using hc)] at h
          cases h)
        (by simpa using hl)
      refine ⟨⟨h1.size.trans (dropExpr_length M t), h1.square, ?_, ?_, ?_⟩, ?_, ?_⟩
      · intro i j hi hj
        rw [h1.rate i j (by rwa [dropExpr_length]) (by rwa [dropExpr_length]), dropExpr_rate M t i j (hne i j hi hj)]
      · exact h1.sub.trans (List.eraseIdx_sublist _ _)
      · have := h1.rest
        generalize dropAll (order.map sh) (M.dropExpr t) = N at this
        cases N; cases M
        simp only [dropExpr, PCTMC.mk.injEq] at this ⊢
        simp_all
      · intro h0 i j hi hj
        simp only [List.mem_cons, not_or] at h0
        have h0' : 0 ∉ order.map sh := by
          intro hc
          obtain ⟨x, hx, he⟩ := List.mem_map.1 hc
          have : x ≠ 0 := fun e => h0.2 (e ▸ hx)
          have := hot x hx
          simp only [hsh] at he
          have := h0.1
          split_ifs at he <;> omega
        rw [h2 h0' i j (by rwa [dropExpr_length]) (by rwa [dropExpr_length]), dropExpr_entry]
        have := h0.1
        split_ifs <;> omega
      · intro h
        apply h3
        intro y hy hyu
        rw [hlen] at hy
        obtain ⟨x, hxt, hxy⟩ : ∃ x, x ≠ t ∧ sh x = y := by
          by_cases hyt : y < t
          · exact ⟨y, by omega, by simp only [hsh]; rw [if_neg (by omega)]⟩
          · exact ⟨y + 1, by omega, by simp only [hsh]; rw [if_pos (by omega)]; omega⟩
        have hxu : M.uses x = false := by
          by_contra hc
          rw [← hxy, (huse x hxt).2 (by simpa using hc)] at hyu
          cases hyu
        have hxl : x < M.exprs.length := by
          simp only [hsh] at hxy
          split_ifs at hxy <;> omega
        have := h x hxl hxu
        rcases List.mem_cons.1 this with h | h
        · exact absurd h hxt
        · exact List.mem_map.2 ⟨x, h, hxy⟩

end Jajapy.PCTMC
