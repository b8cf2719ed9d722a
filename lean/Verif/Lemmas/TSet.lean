import Mathlib.Data.List.Perm.Basic
import Mathlib.Data.List.Perm.Subperm
import Mathlib.Data.List.Dedup
import Mathlib.Data.List.Sort
import Mathlib.Data.List.Induction
import Mathlib.Algebra.BigOperators.Group.List.Lemmas
import Mathlib.Tactic.Ring
import Mathlib.Tactic.Convert
import Verif.Spec.TSet

set_option linter.unusedSectionVars false

namespace Jajapy.TSet

variable {α : Type} [DecidableEq α]

/-- Multiplicity on raw lists. -/
def multL {β : Type} [DecidableEq β] (seqs : List β) (times : List ℕ) (tr : β) : ℕ :=
  (((seqs.zip times).filter (fun p => p.1 = tr)).map (·.2)).sum

theorem mult_eq (S : TSet α) (tr : List α) : S.mult tr = multL S.sequences S.times tr := rfl

section raw
variable {β : Type} [DecidableEq β]

theorem multL_cons (s : β) (seqs : List β) (t : ℕ) (times : List ℕ) (tr : β) :
    multL (s :: seqs) (t :: times) tr = (if s = tr then t else 0) + multL seqs times tr := by
  unfold multL
  by_cases h : s = tr <;> simp [List.zip_cons_cons, h]

theorem multL_nil (times : List ℕ) (tr : β) : multL ([] : List β) times tr = 0 := by simp [multL]

theorem multL_append (s1 s2 : List β) (t1 t2 : List ℕ) (h : t1.length = s1.length) (tr : β) :
    multL (s1 ++ s2) (t1 ++ t2) tr = multL s1 t1 tr + multL s2 t2 tr := by
  unfold multL
  rw [List.zip_append h.symm]; simp

theorem multL_of_not_mem (seqs : List β) (times : List ℕ) (tr : β) (h : tr ∉ seqs) : multL seqs times tr = 0 := by
  induction seqs generalizing times with
  | nil => exact multL_nil _ _
  | cons s seqs ih =>
    cases times with
    | nil => simp [multL]
    | cons t times =>
      rw [multL_cons, ih _ (fun h' => h (by simp [h']))]
      simp only [List.mem_cons, not_or] at h
      simp [Ne.symm h.1]

theorem times_eq_map (seqs : List β) (times : List ℕ) (hl : times.length = seqs.length) (hn : seqs.Nodup) :
    times = seqs.map (multL seqs times) := by
  induction seqs generalizing times with
  | nil => simpa using hl
  | cons s seqs ih =>
    cases times with
    | nil => simp at hl
    | cons t times =>
      have hn' := List.nodup_cons.1 hn
      rw [List.map_cons, multL_cons, if_pos rfl, multL_of_not_mem _ _ _ hn'.1, Nat.add_zero]
      congr 1
      conv_lhs => rw [ih times (by simpa using hl) hn'.2]
      apply List.map_congr_left
      intro x hx
      have : s ≠ x := fun h => hn'.1 (h ▸ hx)
      rw [multL_cons, if_neg this, Nat.zero_add]

theorem multL_map (seqs : List β) (hn : seqs.Nodup) (f : β → ℕ) (tr : β) :
    multL seqs (seqs.map f) tr = if tr ∈ seqs then f tr else 0 := by
  induction seqs with
  | nil => simp [multL]
  | cons s seqs ih =>
    have hn' := List.nodup_cons.1 hn
    rw [List.map_cons, multL_cons, ih hn'.2]
    by_cases h : s = tr
    · subst h; simp [hn'.1]
    · simp [h, Ne.symm h]

theorem multL_modify [BEq β] [LawfulBEq β] (seqs : List β) (times : List ℕ) (hl : times.length = seqs.length) (s : β) (hs : s ∈ seqs)
    (t : ℕ) (tr : β) :
    multL seqs (times.modify (seqs.idxOf s) (· + t)) tr = multL seqs times tr + if s = tr then t else 0 := by
  induction seqs generalizing times with
  | nil => simp at hs
  | cons x seqs ih =>
    cases times with
    | nil => simp at hl
    | cons u times =>
      by_cases hx : x = s
      · subst hx
        simp only [List.idxOf_cons_self, List.modify_zero_cons, multL_cons]
        split_ifs <;> ring
      · rw [List.idxOf_cons_ne _ hx]
        simp only [List.modify_succ_cons, multL_cons]
        rw [ih times (by simpa using hl) (by simpa [Ne.symm hx] using hs)]
        ring

theorem map_modify [BEq β] [LawfulBEq β] (seqs : List β) (hn : seqs.Nodup) (f : β → ℕ) (g : ℕ → ℕ) (s : β) (hs : s ∈ seqs) :
    (seqs.map f).modify (seqs.idxOf s) g = seqs.map (fun x => if x = s then g (f x) else f x) := by
  induction seqs with
  | nil => simp at hs
  | cons x seqs ih =>
    have hn' := List.nodup_cons.1 hn
    by_cases hx : x = s
    · subst hx
      simp only [List.idxOf_cons_self, List.map_cons, List.modify_zero_cons, if_true]
      congr 1
      apply List.map_congr_left
      intro y hy
      have : y ≠ x := fun h => hn'.1 (h ▸ hy)
      simp [this]
    · rw [List.idxOf_cons_ne _ hx]
      simp only [List.map_cons, List.modify_succ_cons, hx, if_false]
      rw [ih hn'.2 (by simpa [Ne.symm hx] using hs)]

theorem sum_multL (seqs : List β) (times : List ℕ) (hl : times.length = seqs.length) (hn : seqs.Nodup) :
    times.sum = (seqs.map (multL seqs times)).sum := by
  conv_lhs => rw [times_eq_map seqs times hl hn]

theorem getElem_idxOf_times [BEq β] [LawfulBEq β] (seqs : List β) (times : List ℕ) (hl : times.length = seqs.length) (hn : seqs.Nodup)
    (s : β) (hs : s ∈ seqs) : times[seqs.idxOf s]? = some (multL seqs times s) := by
  have h := times_eq_map seqs times hl hn
  conv_lhs => rw [h]
  have hi : seqs.idxOf s < seqs.length := List.idxOf_lt_length_iff.2 hs
  rw [List.getElem?_map, List.getElem?_eq_getElem hi]
  simp

end raw

/-! ### setFromList -/

theorem setFromList_inv (l : List (List α)) :
    (setFromList l).1.Nodup ∧ (setFromList l).2 = (setFromList l).1.map (fun s => l.count s) ∧
    (∀ tr, tr ∈ (setFromList l).1 ↔ tr ∈ l) ∧ (setFromList l).1.Pairwise (fun a b => l.idxOf a < l.idxOf b) := by
  induction l using List.reverseRecOn with
  | nil => simp [setFromList]
  | append_singleton l s ih =>
    obtain ⟨h1, h2, h3, h4⟩ := ih
    have hf : setFromList (l ++ [s]) = setFromListStep (setFromList l) s := by simp [setFromList]
    rw [hf]
    unfold setFromListStep
    by_cases hs : s ∈ (setFromList l).1
    · simp only [hs, if_true]
      refine ⟨h1, ?_, ?_, ?_⟩
      · rw [h2, map_modify _ h1 _ _ _ hs]
        apply List.map_congr_left
        intro x _
        by_cases hx : x = s
        · subst hx; simp
        · simp [hx, Ne.symm hx, List.count_singleton]
      · intro tr
        rw [h3]
        simp only [List.mem_append, List.mem_singleton]
        constructor
        · exact Or.inl
        · rintro (h | rfl)
          · exact h
          · exact (h3 _).1 hs
      · refine List.Pairwise.imp_of_mem ?_ h4
        intro a b ha hb hab
        rw [List.idxOf_append_of_mem ((h3 a).1 ha), List.idxOf_append_of_mem ((h3 b).1 hb)]
        exact hab
    · simp only [hs, if_false]
      have hnl : s ∉ l := fun h => hs ((h3 s).2 h)
      refine ⟨?_, ?_, ?_, ?_⟩
      · rw [List.nodup_append]
        refine ⟨h1, by simp, ?_⟩
        intro a ha b hb
        simp only [List.mem_singleton] at hb
        subst hb
        exact fun h => hs (h ▸ ha)
      · have e : (setFromList l).2 ++ [0] = ((setFromList l).1 ++ [s]).map (fun x => l.count x) := by
          rw [List.map_append, ← h2]
          simp [List.count_eq_zero.2 hnl]
        have hn' : ((setFromList l).1 ++ [s]).Nodup := by
          rw [List.nodup_append]
          refine ⟨h1, by simp, ?_⟩
          intro a ha b hb
          simp only [List.mem_singleton] at hb
          subst hb
          exact fun h => hs (h ▸ ha)
        rw [e, map_modify _ hn' _ _ _ (by simp)]
        apply List.map_congr_left
        intro x _
        by_cases hx : x = s
        · subst hx; simp
        · simp [hx, Ne.symm hx, List.count_singleton]
      · intro tr
        simp [h3]
      · rw [List.pairwise_append]
        refine ⟨?_, by simp, ?_⟩
        · refine List.Pairwise.imp_of_mem ?_ h4
          intro a b ha hb hab
          rw [List.idxOf_append_of_mem ((h3 a).1 ha), List.idxOf_append_of_mem ((h3 b).1 hb)]
          exact hab
        · intro a ha b hb
          simp only [List.mem_singleton] at hb
          subst hb
          rw [List.idxOf_append_of_mem ((h3 a).1 ha), List.idxOf_append_of_notMem hnl]
          have := List.idxOf_lt_length_iff.2 ((h3 a).1 ha)
          simp; omega

theorem sum_count_map (l seqs : List (List α)) (hn : seqs.Nodup) (hm : ∀ tr, tr ∈ seqs ↔ tr ∈ l) :
    (seqs.map (fun s => l.count s)).sum = l.length := by
  have hp : seqs.Perm l.dedup := (List.perm_ext_iff_of_nodup hn l.nodup_dedup).2 (by intro a; rw [hm, List.mem_dedup])
  rw [(hp.map _).sum_eq]
  have e : (List.instBEq : BEq (List α)) = instBEqOfDecidableEq := lawful_beq_subsingleton _ _
  rw [e]
  exact List.sum_map_count_dedup_eq_length l

/-- Number of copies in `to_list`. -/
theorem count_toList (seqs : List (List α)) (times : List ℕ) (hl : times.length = seqs.length) (hpos : ∀ t ∈ times, 1 ≤ t) (tr : List α) :
    (seqs ++ (seqs.zip times).flatMap (fun p => List.replicate (p.2 - 1) p.1)).count tr = multL seqs times tr := by
  rw [List.count_append]
  induction seqs generalizing times with
  | nil => simp [multL]
  | cons s seqs ih =>
    cases times with
    | nil => simp at hl
    | cons t times =>
      have ih' := ih times (by simpa using hl) (fun t ht => hpos t (by simp [ht]))
      have ht : 1 ≤ t := hpos t (by simp)
      rw [multL_cons, ← ih']
      simp only [List.zip_cons_cons, List.flatMap_cons, List.count_append, List.count_replicate, List.count_cons, beq_iff_eq]
      by_cases h : s = tr
      · simp [h]; omega
      · simp [h]

/-! ### isEqual -/

theorem isEqualLoop_iff (S2 : TSet α) (h2 : S2.WF) (l : List (List α × ℕ)) :
    isEqualLoop S2 l = true ↔ ∀ p ∈ l, p.1 ∈ S2.sequences ∧ p.2 = S2.mult p.1 := by
  induction l with
  | nil => simp [isEqualLoop]
  | cons p l ih =>
    obtain ⟨s, t1⟩ := p
    simp only [isEqualLoop, List.mem_cons, forall_eq_or_imp]
    by_cases hs : s ∈ S2.sequences
    · rw [if_pos hs, getElem_idxOf_times _ _ h2.1 h2.2 s hs]
      simp only [mult_eq]
      by_cases ht : t1 = multL S2.sequences S2.times s
      · simp only [ht, ne_eq, not_true_eq_false, if_false, and_true, hs, true_and]
        exact ih
      · simp [ht]
    · simp [hs]

theorem mem_zip_iff (S : TSet α) (h : S.WF) (p : List α × ℕ) :
    p ∈ S.sequences.zip S.times ↔ p.1 ∈ S.sequences ∧ p.2 = S.mult p.1 := by
  have e := times_eq_map S.sequences S.times h.1 h.2
  rw [mult_eq]
  conv_lhs => rw [e]
  generalize multL S.sequences S.times = f
  have : S.sequences.zip (S.sequences.map f) = S.sequences.map (fun x => (x, f x)) := by
    clear e h
    induction S.sequences with
    | nil => simp
    | cons x xs ih => simp [ih]
  rw [this, List.mem_map]
  obtain ⟨a, b⟩ := p
  constructor
  · rintro ⟨x, hx, h⟩
    simp only [Prod.mk.injEq] at h
    obtain ⟨rfl, rfl⟩ := h
    exact ⟨hx, rfl⟩
  · rintro ⟨h1, h2⟩
    exact ⟨a, h1, by rw [show b = f a from h2]⟩

theorem mem_iff_mult_pos (S : TSet α) (h : S.WF) (hp : ∀ t ∈ S.times, 1 ≤ t) (tr : List α) :
    tr ∈ S.sequences ↔ 0 < S.mult tr := by
  constructor
  · intro ht
    have := (mem_zip_iff S h (tr, S.mult tr)).2 ⟨ht, rfl⟩
    exact hp _ (List.of_mem_zip this).2
  · intro ht
    by_contra hc
    rw [mult_eq, multL_of_not_mem _ _ _ hc] at ht
    exact absurd ht (lt_irrefl _)

theorem sum_times (S : TSet α) (h : S.WF) : S.times.sum = (S.sequences.map S.mult).sum :=
  sum_multL _ _ h.1 h.2

/-! ### alphabets -/

theorem mem_evens (l : List α) (x : α) : x ∈ evens l ↔ ∃ k, l[2*k]? = some x := by
  induction l using evens.induct with
  | case1 => simp [evens]
  | case2 y =>
    simp only [evens, List.mem_singleton]
    constructor
    · rintro rfl; exact ⟨0, rfl⟩
    · rintro ⟨k, hk⟩
      cases k with
      | zero => simpa using hk.symm
      | succ k => simp [show 2*(k+1) = 2*k+1+1 by ring] at hk
  | case3 y z rest ih =>
    simp only [evens, List.mem_cons, ih]
    constructor
    · rintro (rfl | ⟨k, hk⟩)
      · exact ⟨0, rfl⟩
      · exact ⟨k+1, by simpa [show 2*(k+1) = 2*k+1+1 by ring] using hk⟩
    · rintro ⟨k, hk⟩
      cases k with
      | zero => left; simpa using hk.symm
      | succ k => right; exact ⟨k, by simpa [show 2*(k+1) = 2*k+1+1 by ring] using hk⟩

theorem mem_odds (l : List α) (x : α) : x ∈ odds l ↔ ∃ k, l[2*k+1]? = some x := by
  induction l using odds.induct with
  | case1 => simp [odds]
  | case2 y => simp [odds]
  | case3 y z rest ih =>
    simp only [odds, List.mem_cons, ih]
    constructor
    · rintro (rfl | ⟨k, hk⟩)
      · exact ⟨0, rfl⟩
      · exact ⟨k+1, by simpa [show 2*(k+1) = 2*k+1+1 by ring] using hk⟩
    · rintro ⟨k, hk⟩
      cases k with
      | zero => left; simpa using hk.symm
      | succ k => right; exact ⟨k, by simpa [show 2*(k+1) = 2*k+1+1 by ring] using hk⟩

theorem evensBeforeLast_append_last (l : List α) (x : α) (hl : l.length % 2 = 1) (h : l.getLast? = some x) :
    evensBeforeLast l ++ [x] = evens l := by
  induction l using evens.induct with
  | case1 => simp at hl
  | case2 y => simp at h; simp [evensBeforeLast, evens, h]
  | case3 y z rest ih =>
    simp only [evensBeforeLast, evens, List.cons_append]
    congr 1
    apply ih
    · simp at hl; omega
    · cases rest with
      | nil => simp at hl
      | cons a rest => simpa [List.getLast?_cons_cons] using h

theorem mem_addNew (obs xs : List α) (x : α) : x ∈ addNew obs xs ↔ x ∈ obs ∨ x ∈ xs := by
  unfold addNew
  induction xs generalizing obs with
  | nil => simp
  | cons y ys ih =>
    simp only [List.foldl_cons, ih, List.mem_cons]
    split_ifs with h
    · constructor
      · rintro (h' | h') <;> simp [h']
      · rintro (h' | rfl | h') <;> simp [*]
    · simp only [List.mem_append, List.mem_singleton]; tauto

theorem nodup_addNew (obs xs : List α) (h : obs.Nodup) : (addNew obs xs).Nodup := by
  unfold addNew
  induction xs generalizing obs with
  | nil => simpa
  | cons y ys ih =>
    simp only [List.foldl_cons]
    split_ifs with hy
    · exact ih _ h
    · apply ih
      rw [List.nodup_append]
      refine ⟨h, by simp, ?_⟩
      intro a ha b hb
      simp only [List.mem_singleton] at hb
      subst hb
      exact fun h => hy (h ▸ ha)

theorem mem_foldl_addNew (f : List α → List α) (l : List (List α)) (obs : List α) (x : α) :
    x ∈ l.foldl (fun obs s => addNew obs (f s)) obs ↔ x ∈ obs ∨ ∃ s ∈ l, x ∈ f s := by
  induction l generalizing obs with
  | nil => simp
  | cons s l ih =>
    simp only [List.foldl_cons, ih, mem_addNew, List.mem_cons]
    constructor
    · rintro ((h | h) | ⟨s', h1, h2⟩)
      · exact Or.inl h
      · exact Or.inr ⟨s, Or.inl rfl, h⟩
      · exact Or.inr ⟨s', Or.inr h1, h2⟩
    · rintro (h | ⟨s', (rfl | h1), h2⟩)
      · exact Or.inl (Or.inl h)
      · exact Or.inl (Or.inr h2)
      · exact Or.inr ⟨s', h1, h2⟩

theorem nodup_foldl_addNew (f : List α → List α) (l : List (List α)) (obs : List α) (h : obs.Nodup) :
    (l.foldl (fun obs s => addNew obs (f s)) obs).Nodup := by
  induction l generalizing obs with
  | nil => simpa
  | cons s l ih => exact ih _ (nodup_addNew _ _ h)

theorem actObsLoop_ok (l : List (List α)) (h : ∀ tr ∈ l, tr.length % 2 = 1) :
    actObsLoop l = .ok (l.flatMap odds, l.flatMap evens) := by
  induction l with
  | nil => rfl
  | cons s l ih =>
    have hs := h s (by simp)
    simp only [actObsLoop]
    cases hl : s.getLast? with
    | none => rw [List.getLast?_eq_none_iff] at hl; simp [hl] at hs
    | some x =>
      simp only [ih (fun tr ht => h tr (by simp [ht]))]
      rw [evensBeforeLast_append_last s x hs hl]
      rfl

end Jajapy.TSet
