import Verif.Lemmas.TSet

/-!
Properties of training sets (`base/Set.py`): C05 (construction from a list), C06 (`to_list`), C07 (`addSet`),
C08 (`isEqual`), C09 (`sort`), C10 (alphabets). `TSet.mult S tr` is the multiplicity of the trace `tr` in `S`.
-/

set_option linter.unusedSectionVars false

namespace Jajapy.TSet

variable {α : Type} [DecidableEq α]

/-- A three trace example used for the non-vacuity checks below. -/
def exTraces : List (List ℕ) := [[1, 2], [3], [1, 2]]

/-! ### C05 -/

/-- C05. `Set(l)` (with the type given by the caller): each distinct trace is stored once, with its number of
occurrences in `l`, in order of first occurrence, and the multiplicities add up to the length of `l`. -/
theorem mk_from_list_spec (kind : α → Kind) (l : List (List α)) (t : ℕ) :
    ∃ S, mk' kind l none (some t) = .ok S ∧ S.type = some t ∧ S.sequences.Nodup ∧
      S.times.length = S.sequences.length ∧
      (∀ tr, tr ∈ S.sequences ↔ tr ∈ l) ∧
      (∀ i (h : i < S.sequences.length) (h' : i < S.times.length), S.times[i] = l.count S.sequences[i]) ∧
      S.sequences.Pairwise (fun a b => l.idxOf a < l.idxOf b) ∧
      S.times.sum = l.length ∧ (∀ tr, S.mult tr = l.count tr) := by
  obtain ⟨h1, h2, h3, h4⟩ := setFromList_inv l
  cases l with
  | nil => exact ⟨_, rfl, rfl, by simp [mult]⟩
  | cons s0 l =>
    refine ⟨_, rfl, rfl, h1, by simp [h2], h3, ?_, h4, ?_, ?_⟩
    · intro i h h'
      simp only [h2, List.getElem_map]
    · simp only [h2]
      exact sum_count_map _ _ h1 h3
    · intro tr
      rw [mult_eq]
      simp only
      conv_lhs => rw [h2]
      rw [multL_map _ h1]
      split_ifs with h
      · rfl
      · exact (List.count_eq_zero.2 (fun hc => h ((h3 tr).2 hc))).symm

example : mk' (fun _ => Kind.str) exTraces none (some 0) =
    .ok { sequences := [[1, 2], [3]], times := [2, 1], floatTimes := false, type := some 0 } := by decide

/-- C05. Sets built from lists are well formed with positive integer multiplicities. -/
theorem mk_from_list_countable (kind : α → Kind) (l : List (List α)) (t : Option ℕ) (S : TSet α)
    (h : mk' kind l none t = .ok S) : S.Countable := by
  obtain ⟨h1, h2, h3, h4⟩ := setFromList_inv l
  have key : ∀ ty, S = { sequences := (setFromList l).1, times := (setFromList l).2, floatTimes := false, type := ty } →
      S.Countable := by
    rintro ty rfl
    refine ⟨⟨by simp [h2], h1⟩, ?_, rfl⟩
    intro x hx
    simp only [h2, List.mem_map] at hx
    obtain ⟨s, hs, rfl⟩ := hx
    exact List.count_pos_iff.2 ((h3 s).1 hs)
  cases l with
  | nil => simp [mk'] at h; exact key t (by rw [← h]; rfl)
  | cons s0 l =>
    cases t with
    | some t => simp only [mk', pure, Except.pure, bind, Except.bind, Except.ok.injEq] at h; exact key (some t) h.symm
    | none =>
      simp only [mk', bind, Except.bind] at h
      cases hi : inferType kind s0 with
      | error e => simp [hi] at h
      | ok ty => simp only [hi, pure, Except.pure, Except.ok.injEq] at h; exact key (some ty) h.symm

/-- C05. Without a type given by the caller, the constructor raises IndexError exactly when the first trace has
fewer than two symbols. -/
theorem mk_infer_raises_iff (kind : α → Kind) (l : List (List α)) (times : Option (List ℕ)) :
    (∃ e, mk' kind l times none = .error e) ↔ ∃ s rest, l = s :: rest ∧ s.length < 2 := by
  cases l with
  | nil => simp [mk']
  | cons s0 l =>
    rcases s0 with _ | ⟨x, _ | ⟨y, r⟩⟩
    · simp [mk', inferType, bind, Except.bind]
    · simp [mk', inferType, bind, Except.bind]
    · simp only [mk', inferType, bind, Except.bind]
      constructor
      · rintro ⟨e, h⟩
        exfalso
        split_ifs at h <;> cases times <;> simp [pure, Except.pure] at h
      · rintro ⟨s, rest, h, h'⟩
        simp only [List.cons.injEq] at h
        rw [← h.1] at h'
        simp at h'
        omega

/-! ### C06 -/

/-- C06. `Set(l).to_list()` is a permutation of `l`. -/
theorem toList_mk (kind : α → Kind) (l : List (List α)) (t : ℕ) :
    ∃ S res, mk' kind l none (some t) = .ok S ∧ S.toList = .ok res ∧ res.Perm l := by
  obtain ⟨S, h, _, _, _, _, _, _, _, hm⟩ := mk_from_list_spec kind l t
  have hc := mk_from_list_countable kind l (some t) S h
  refine ⟨S, _, h, by rw [toList, if_neg (by simp [hc.2.2])], ?_⟩
  rw [List.perm_iff_count]
  intro tr
  rw [count_toList _ _ hc.1.1 hc.2.1, ← mult_eq, hm]

/-- C06. `to_list` returns every trace as many times as its multiplicity. -/
theorem toList_count (S : TSet α) (h : S.Countable) :
    ∃ res, S.toList = .ok res ∧ ∀ tr, res.count tr = S.mult tr := by
  refine ⟨_, by rw [toList, if_neg (by simp [h.2.2])], ?_⟩
  intro tr
  rw [count_toList _ _ h.1.1 h.2.1, ← mult_eq]

/-! ### C08 -/

/-- C08. `isEqual` decides "same type and same multiplicity of every trace". -/
theorem isEqual_iff (S1 S2 : TSet α) (h1 : S1.WF) (h2 : S2.WF) (p1 : ∀ t ∈ S1.times, 1 ≤ t) (p2 : ∀ t ∈ S2.times, 1 ≤ t) :
    S1.isEqual S2 = true ↔ S1.type = S2.type ∧ ∀ tr, S1.mult tr = S2.mult tr := by
  have hloop := isEqualLoop_iff S2 h2 (S1.sequences.zip S1.times)
  constructor
  · intro h
    unfold isEqual at h
    split_ifs at h with ha hb hc hd
    push Not at ha hb hc hd
    refine ⟨ha, ?_⟩
    rw [hloop] at h
    have hsub : ∀ tr ∈ S1.sequences, tr ∈ S2.sequences ∧ S1.mult tr = S2.mult tr := by
      intro tr ht
      exact h (tr, S1.mult tr) ((mem_zip_iff S1 h1 _).2 ⟨ht, rfl⟩)
    have hperm : S1.sequences.Perm S2.sequences :=
      (h1.2.subperm (fun x hx => (hsub x hx).1)).perm_of_length_le hc.ge
    intro tr
    by_cases ht : tr ∈ S1.sequences
    · exact (hsub tr ht).2
    · rw [mult_eq, mult_eq, multL_of_not_mem _ _ _ ht, multL_of_not_mem _ _ _ (fun h' => ht (hperm.mem_iff.2 h'))]
  · rintro ⟨ht, hm⟩
    have hmem : ∀ tr, tr ∈ S1.sequences ↔ tr ∈ S2.sequences := by
      intro tr
      rw [mem_iff_mult_pos S1 h1 p1, mem_iff_mult_pos S2 h2 p2, hm]
    have hperm : S1.sequences.Perm S2.sequences := (List.perm_ext_iff_of_nodup h1.2 h2.2).2 hmem
    unfold isEqual
    rw [if_neg (by simpa using ht), if_neg, if_neg (by simpa using hperm.length_eq), if_neg, hloop]
    · intro p hp
      obtain ⟨hp1, hp2⟩ := (mem_zip_iff S1 h1 p).1 hp
      exact ⟨(hmem _).1 hp1, by rw [hp2, hm]⟩
    · rw [List.filter_eq_self.2 (by intro a ha; simpa using (hmem a).1 ha)]
      simpa using hperm.length_eq
    · rw [sum_times S1 h1, sum_times S2 h2, not_not]
      have : S1.mult = S2.mult := funext hm
      rw [this]
      exact (hperm.map _).sum_eq

/-- C08. `isEqual` is an equivalence on well formed sets with positive multiplicities. -/
theorem isEqual_equivalence :
    Equivalence (fun (a b : {S : TSet α // S.WF ∧ ∀ t ∈ S.times, 1 ≤ t}) => a.1.isEqual b.1 = true) where
  refl a := (isEqual_iff _ _ a.2.1 a.2.1 a.2.2 a.2.2).2 ⟨rfl, fun _ => rfl⟩
  symm {a b} h := by
    have := (isEqual_iff _ _ a.2.1 b.2.1 a.2.2 b.2.2).1 h
    exact (isEqual_iff _ _ b.2.1 a.2.1 b.2.2 a.2.2).2 ⟨this.1.symm, fun tr => (this.2 tr).symm⟩
  trans {a b c} h h' := by
    have h1 := (isEqual_iff _ _ a.2.1 b.2.1 a.2.2 b.2.2).1 h
    have h2 := (isEqual_iff _ _ b.2.1 c.2.1 b.2.2 c.2.2).1 h'
    exact (isEqual_iff _ _ a.2.1 c.2.1 a.2.2 c.2.2).2 ⟨h1.1.trans h2.1, fun tr => (h1.2 tr).trans (h2.2 tr)⟩

example : WF (⟨[[1, 2], [3]], [2, 1], false, some 0⟩ : TSet ℕ) ∧
    isEqual (⟨[[1, 2], [3]], [2, 1], false, some 0⟩ : TSet ℕ) ⟨[[3], [1, 2]], [1, 2], false, some 0⟩ = true ∧
    isEqual (⟨[[1, 2], [3]], [2, 1], false, some 0⟩ : TSet ℕ) ⟨[[3], [1, 2]], [2, 1], false, some 0⟩ = false := by
  refine ⟨⟨rfl, by decide⟩, by decide, by decide⟩

/-- C08 (boundary). With duplicated traces (which the constructor accepts when multiplicities are given)
`isEqual` is not symmetric. -/
theorem isEqual_not_symmetric_with_duplicates :
    ∃ S1 S2 : TSet ℕ, S1.isEqual S2 = true ∧ S2.isEqual S1 = false :=
  ⟨⟨[[1], [1]], [1, 1], false, some 0⟩, ⟨[[1], [2]], [1, 1], false, some 0⟩, by decide⟩

/-! ### C06, second part -/

/-- C06. `Set(S.to_list())` is equal to `S`. -/
theorem mk_toList (kind : α → Kind) (S : TSet α) (h : S.Countable) (t : ℕ) (ht : S.type = some t) :
    ∃ res S', S.toList = .ok res ∧ mk' kind res none (some t) = .ok S' ∧ S'.isEqual S = true := by
  obtain ⟨res, hres, hcount⟩ := toList_count S h
  obtain ⟨S', h', hty, _, _, _, _, _, _, hm⟩ := mk_from_list_spec kind res t
  have hc := mk_from_list_countable kind res (some t) S' h'
  refine ⟨res, S', hres, h', ?_⟩
  rw [isEqual_iff _ _ hc.1 h.1 hc.2.1 h.2.1]
  exact ⟨by rw [hty, ht], fun tr => by rw [hm, hcount]⟩

example : Countable (⟨[[1, 2], [3]], [2, 1], false, some 0⟩ : TSet ℕ) :=
  ⟨⟨rfl, by decide⟩, by decide, rfl⟩

/-! ### C07 -/

theorem addSet_fold_spec (b : Bool) (l : List (List α × ℕ)) (S : TSet α) (h : S.times.length = S.sequences.length) :
    let S' := l.foldl (fun S p => addSetStep S b p) S
    S'.times.length = S'.sequences.length ∧ S'.type = S.type ∧ (S.sequences.Nodup → S'.sequences.Nodup) ∧
    ((∀ t ∈ S.times, 1 ≤ t) → (∀ p ∈ l, 1 ≤ p.2) → ∀ t ∈ S'.times, 1 ≤ t) ∧
    ∀ tr, S'.mult tr = S.mult tr + ((l.filter (fun p => p.1 = tr)).map (·.2)).sum := by
  induction l generalizing S with
  | nil => simp [h]
  | cons p l ih =>
    have hstep : (addSetStep S b p).times.length = (addSetStep S b p).sequences.length := by
      unfold addSetStep; split_ifs <;> simp [h]
    obtain ⟨i1, i2, i3, i4, i5⟩ := ih (addSetStep S b p) hstep
    have hm : ∀ tr, (addSetStep S b p).mult tr = S.mult tr + if p.1 = tr then p.2 else 0 := by
      intro tr
      unfold addSetStep
      split_ifs with hp ht ht
      · rw [mult_eq, multL_modify _ _ h _ hp, ← mult_eq, if_pos ht]
      · rw [mult_eq, multL_modify _ _ h _ hp, ← mult_eq, if_neg ht]
      · rw [mult_eq]; simp only; rw [multL_append _ _ _ _ h, ← mult_eq, multL_cons, multL_nil, if_pos ht, Nat.add_zero]
      · rw [mult_eq]; simp only; rw [multL_append _ _ _ _ h, ← mult_eq, multL_cons, multL_nil, if_neg ht]
    refine ⟨i1, ?_, ?_, ?_, ?_⟩
    · rw [List.foldl_cons, i2]; unfold addSetStep; split_ifs <;> rfl
    · intro hn
      apply i3
      unfold addSetStep
      split_ifs with hp
      · exact hn
      · simp only
        rw [List.nodup_append]
        refine ⟨hn, by simp, ?_⟩
        intro a ha b hb
        simp only [List.mem_singleton] at hb
        subst hb
        exact fun h => hp (h ▸ ha)
    · intro h1 h2
      apply i4
      · unfold addSetStep
        have hp2 := h2 p (by simp)
        split_ifs with hp
        · intro t ht
          simp only at ht
          rw [List.mem_iff_getElem] at ht
          obtain ⟨i, hi, rfl⟩ := ht
          simp only [List.length_modify] at hi
          rw [List.getElem_modify]
          have := h1 S.times[i] (List.getElem_mem hi)
          split_ifs <;> omega
        · intro t ht
          simp only [List.mem_append, List.mem_singleton] at ht
          rcases ht with ht | rfl
          · exact h1 t ht
          · exact hp2
      · exact fun q hq => h2 q (by simp [hq])
    · intro tr
      rw [List.foldl_cons, i5, hm]
      by_cases ht : p.1 = tr <;> simp [ht]; omega

/-- C07. After `s1.addSet(s2)`, every multiplicity is the sum of the two, the type is unchanged, and if `s1` stored no
trace twice it still does not. -/
theorem addSet_spec (S1 S2 : TSet α) (h1 : S1.times.length = S1.sequences.length) (ht : S1.type = S2.type) :
    ∃ S, S1.addSet S2 = .ok S ∧ S.type = S1.type ∧ S.times.length = S.sequences.length ∧
      (S1.sequences.Nodup → S.sequences.Nodup) ∧
      ((∀ t ∈ S1.times, 1 ≤ t) → (∀ t ∈ S2.times, 1 ≤ t) → ∀ t ∈ S.times, 1 ≤ t) ∧
      ∀ tr, S.mult tr = S1.mult tr + S2.mult tr := by
  obtain ⟨i1, i2, i3, i4, i5⟩ := addSet_fold_spec S2.floatTimes (S2.sequences.zip S2.times) S1 h1
  refine ⟨_, by rw [addSet, if_neg (by simpa using ht)], i2, i1, i3, ?_, i5⟩
  intro p1 p2
  exact i4 p1 (fun p hp => p2 p.2 (List.of_mem_zip hp).2)

/-- C07. Sets of different types are refused with a TypeError (raised before anything is changed). -/
theorem addSet_raises (S1 S2 : TSet α) (ht : S1.type ≠ S2.type) : S1.addSet S2 = .error .typeError := by
  rw [addSet, if_pos ht]

/-- Merge a list of sets into `S`, one after the other (a history of `addSet` calls). -/
def addSets (S : TSet α) (l : List (TSet α)) : Py (TSet α) :=
  l.foldlM (fun S S2 => S.addSet S2) S

theorem addSets_spec (l : List (TSet α)) (S : TSet α) (h : S.WF ∧ ∀ t ∈ S.times, 1 ≤ t)
    (hl : ∀ S2 ∈ l, S2.type = S.type ∧ ∀ t ∈ S2.times, 1 ≤ t) :
    ∃ S', addSets S l = .ok S' ∧ S'.type = S.type ∧ (S'.WF ∧ ∀ t ∈ S'.times, 1 ≤ t) ∧
      ∀ tr, S'.mult tr = S.mult tr + (l.map (fun S2 => S2.mult tr)).sum := by
  induction l generalizing S with
  | nil => exact ⟨S, rfl, rfl, h, by simp⟩
  | cons S2 l ih =>
    obtain ⟨hty, hpos⟩ := hl S2 (by simp)
    obtain ⟨S3, e, a1, a2, a3, a4, a5⟩ := addSet_spec S S2 h.1.1 hty.symm
    obtain ⟨S', e', b1, b2, b3⟩ := ih S3 ⟨⟨a2, a3 h.1.2⟩, a4 h.2 hpos⟩
      (fun S4 h4 => ⟨(hl S4 (by simp [h4])).1.trans a1.symm, (hl S4 (by simp [h4])).2⟩)
    refine ⟨S', ?_, b1.trans a1, b2, ?_⟩
    · simp only [addSets, List.foldlM_cons, e]
      exact e'
    · intro tr
      rw [b3, a5]; simp [Nat.add_assoc]

/-- C07. The result of a history of merges does not depend on the order of the merges, up to `isEqual`. -/
theorem addSets_perm (l l' : List (TSet α)) (S : TSet α) (h : S.WF ∧ ∀ t ∈ S.times, 1 ≤ t)
    (hl : ∀ S2 ∈ l, S2.type = S.type ∧ ∀ t ∈ S2.times, 1 ≤ t) (hp : l.Perm l') :
    ∃ A B, addSets S l = .ok A ∧ addSets S l' = .ok B ∧ A.isEqual B = true := by
  obtain ⟨A, ha, hat, hac, ham⟩ := addSets_spec l S h hl
  obtain ⟨B, hb, hbt, hbc, hbm⟩ := addSets_spec l' S h (fun S2 h2 => hl S2 (hp.mem_iff.2 h2))
  refine ⟨A, B, ha, hb, (isEqual_iff _ _ hac.1 hbc.1 hac.2 hbc.2).2 ⟨hat.trans hbt.symm, fun tr => ?_⟩⟩
  rw [ham, hbm, (hp.map _).sum_eq]

example : addSet (⟨[[1, 2], [3]], [2, 1], false, some 0⟩ : TSet ℕ) ⟨[[3], [4]], [5, 7], false, some 0⟩ =
    .ok ⟨[[1, 2], [3], [4]], [2, 6, 7], false, some 0⟩ := by decide

/-- C07 (disagreement). Merging into an empty set gives multiplicities that `to_list` refuses. -/
theorem addSet_into_empty_breaks_toList :
    ∃ S0 S2 S : TSet ℕ, S2.Countable ∧ mk' (fun _ => Kind.str) [] none (some 0) = .ok S0 ∧ S0.addSet S2 = .ok S ∧
      S.toList = .error .typeError :=
  ⟨⟨[], [], false, some 0⟩, ⟨[[1]], [3], false, some 0⟩, ⟨[[1]], [3], true, some 0⟩,
    ⟨⟨rfl, by decide⟩, by decide, rfl⟩, by decide, by decide, by decide⟩

/-! ### C09 -/

section sort
variable [LinearOrder α]

theorem pairLe_trans (a b c : List α × ℕ) (h1 : pairLe a b = true) (h2 : pairLe b c = true) : pairLe a c = true := by
  simp only [pairLe, decide_eq_true_eq] at *
  rcases h1 with h1 | ⟨h1, h1'⟩ <;> rcases h2 with h2 | ⟨h2, h2'⟩
  · exact Or.inl (h1.trans h2)
  · exact Or.inl (h2 ▸ h1)
  · exact Or.inl (h1 ▸ h2)
  · exact Or.inr ⟨h1.trans h2, h1'.trans h2'⟩

theorem pairLe_total (a b : List α × ℕ) : (pairLe a b || pairLe b a) = true := by
  simp only [pairLe, Bool.or_eq_true, decide_eq_true_eq]
  rcases lt_trichotomy a.1 b.1 with h | h | h
  · exact Or.inl (Or.inl h)
  · rcases le_total a.2 b.2 with h' | h'
    · exact Or.inl (Or.inr ⟨h, h'⟩)
    · exact Or.inr (Or.inr ⟨h.symm, h'⟩)
  · exact Or.inr (Or.inl h)

theorem zip_map_fst_snd {β γ : Type} (l : List (β × γ)) : (l.map (·.1)).zip (l.map (·.2)) = l := by
  induction l with
  | nil => rfl
  | cons x xs ih => simp [ih]

/-- C09. Sorting permutes the (trace, multiplicity) pairs and orders the traces lexicographically. -/
theorem sort_spec (S : TSet α) :
    (S.sort.sequences.zip S.sort.times).Perm (S.sequences.zip S.times) ∧
    S.sort.sequences.Pairwise (· ≤ ·) ∧ S.sort.type = S.type ∧ S.sort.times.length = S.sort.sequences.length := by
  refine ⟨?_, ?_, rfl, by simp [sort]⟩
  · simp only [sort]
    rw [zip_map_fst_snd]
    exact List.mergeSort_perm _ _
  · simp only [sort, List.pairwise_map]
    have := List.pairwise_mergeSort (le := pairLe (α := α)) pairLe_trans pairLe_total (S.sequences.zip S.times)
    refine this.imp ?_
    intro a b h
    simp only [pairLe, decide_eq_true_eq] at h
    rcases h with h | ⟨h, _⟩
    · exact h.le
    · exact h.le

/-- C09. Sorting does not change any multiplicity. -/
theorem sort_mult (S : TSet α) (tr : List α) : S.sort.mult tr = S.mult tr := by
  unfold mult
  exact (((sort_spec S).1.filter _).map _).sum_eq

/-- C09. Sorting twice is sorting once. -/
theorem sort_idem (S : TSet α) : S.sort.sort = S.sort := by
  have h : (S.sort.sequences.zip S.sort.times).mergeSort pairLe = S.sort.sequences.zip S.sort.times := by
    apply List.mergeSort_of_pairwise
    simp only [sort]
    rw [zip_map_fst_snd]
    exact List.pairwise_mergeSort (le := pairLe (α := α)) pairLe_trans pairLe_total _
  have e1 : (S.sort.sequences.zip S.sort.times).map (·.1) = S.sort.sequences := by
    simp only [sort]; rw [zip_map_fst_snd]
  have e2 : (S.sort.sequences.zip S.sort.times).map (·.2) = S.sort.times := by
    simp only [sort]; rw [zip_map_fst_snd]
  conv_lhs => rw [sort]
  simp only [h]
  rw [e1, e2]

end sort

/-! ### C10 -/

/-- C10, untimed traces: the alphabet is exactly the set of symbols that occur, each listed once. -/
theorem getAlphabet_untimed (S : TSet α) (h : S.type = some 0) :
    ∃ A, S.getAlphabet = .ok A ∧ A.Nodup ∧ ∀ o, o ∈ A ↔ ∃ tr ∈ S.sequences, o ∈ tr := by
  refine ⟨S.sequences.foldl addNew [], by simp [getAlphabet, h], ?_, ?_⟩
  · exact nodup_foldl_addNew (fun s => s) _ _ (by simp)
  · intro o
    have := mem_foldl_addNew (fun s => s) S.sequences [] o
    simpa using this

/-- C10, timed traces: the alphabet is exactly the set of symbols at even positions. -/
theorem getAlphabet_timed (S : TSet α) (h : S.type = some 4) :
    ∃ A, S.getAlphabet = .ok A ∧ A.Nodup ∧ ∀ o, o ∈ A ↔ ∃ tr ∈ S.sequences, ∃ k, tr[2*k]? = some o := by
  refine ⟨S.sequences.foldl (fun obs s => addNew obs (evens s)) [], by simp [getAlphabet, h],
    nodup_foldl_addNew _ _ _ (by simp), ?_⟩
  intro o
  rw [mem_foldl_addNew]
  simp [mem_evens]

/-- C10, MDP traces (alternating, starting and ending with an observation): observations are the symbols at even
positions, actions the symbols at odd positions. -/
theorem getActionsObservations_spec (S : TSet α) (hodd : ∀ tr ∈ S.sequences, tr.length % 2 = 1) :
    ∃ A O, S.getActionsObservations = .ok (A, O) ∧ A.Nodup ∧ O.Nodup ∧
      (∀ a, a ∈ A ↔ ∃ tr ∈ S.sequences, ∃ k, tr[2*k+1]? = some a) ∧
      (∀ o, o ∈ O ↔ ∃ tr ∈ S.sequences, ∃ k, tr[2*k]? = some o) := by
  refine ⟨_, _, by rw [getActionsObservations, actObsLoop_ok _ hodd]; rfl, List.nodup_dedup _, List.nodup_dedup _, ?_, ?_⟩
  · intro a; simp [mem_odds]
  · intro a; simp [mem_evens]

theorem getAlphabet_mdp (S : TSet α) (h : S.type = some 1) (hodd : ∀ tr ∈ S.sequences, tr.length % 2 = 1) :
    ∃ A, S.getAlphabet = .ok A ∧ A.Nodup ∧ ∀ o, o ∈ A ↔ ∃ tr ∈ S.sequences, ∃ k, tr[2*k]? = some o := by
  obtain ⟨A, O, e, _, h2, _, h4⟩ := getActionsObservations_spec S hodd
  exact ⟨O, by simp [getAlphabet, h, e, bind, Except.bind, pure, Except.pure], h2, h4⟩

example : getActionsObservations (⟨[[0, 7, 1], [0, 8, 2, 7, 1]], [1, 1], false, some 1⟩ : TSet ℕ) = .ok ([8, 7], [0, 2, 1]) := by
  decide

/-- C10 (boundary). A trace that ends with an action makes that action an "observation". -/
theorem getActionsObservations_even_length :
    ∃ S : TSet ℕ, S.type = some 1 ∧ S.getActionsObservations = .ok ([9], [0, 9]) :=
  ⟨⟨[[0, 9]], [1], false, some 1⟩, by decide⟩

end Jajapy.TSet
