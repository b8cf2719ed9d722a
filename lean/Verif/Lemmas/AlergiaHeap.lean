import Verif.Spec.Alergia
import Mathlib.Data.List.Sort
import Mathlib.Algebra.BigOperators.Group.Finset.Basic
import Mathlib.Algebra.BigOperators.Group.Finset.Piecewise

/-!
Lemmas about the operations on the nodes of Alergia.
-/

namespace Jajapy.Alergia

open Spec.Alergia

namespace Heap

/-! ### Reading after writing -/

variable (h : Heap) (x y k c p : ℕ)

@[simp] theorem setKids_size (l) : (h.setKids x l).size = h.size := rfl
@[simp] theorem setKids_label (l) : (h.setKids x l).label y = h.label y := by
  unfold setKids set label; dsimp only; split_ifs with e <;> simp [e]
@[simp] theorem setKids_count (l) : (h.setKids x l).count y = h.count y := by
  unfold setKids set count; dsimp only; split_ifs with e <;> simp [e]
@[simp] theorem setKids_parent (l) : (h.setKids x l).parent y = h.parent y := by
  unfold setKids set parent; dsimp only; split_ifs with e <;> simp [e]
theorem setKids_kids (l) : (h.setKids x l).kids y = if y = x then l else h.kids y := by
  unfold setKids set kids; dsimp only; split_ifs with e <;> simp
theorem setKids_node (l) (hy : y ≠ x) : (h.setKids x l).node y = h.node y := by
  unfold setKids set; dsimp only; rw [if_neg hy]

@[simp] theorem setCount_size : (h.setCount x c).size = h.size := rfl
@[simp] theorem setCount_label : (h.setCount x c).label y = h.label y := by
  unfold setCount set label; dsimp only; split_ifs with e <;> simp [e]
@[simp] theorem setCount_kids : (h.setCount x c).kids y = h.kids y := by
  unfold setCount set kids; dsimp only; split_ifs with e <;> simp [e]
@[simp] theorem setCount_parent : (h.setCount x c).parent y = h.parent y := by
  unfold setCount set parent; dsimp only; split_ifs with e <;> simp [e]
theorem setCount_count : (h.setCount x c).count y = if y = x then c else h.count y := by
  unfold setCount set count; dsimp only; split_ifs with e <;> simp
theorem setCount_node (hy : y ≠ x) : (h.setCount x c).node y = h.node y := by
  unfold setCount set; dsimp only; rw [if_neg hy]

@[simp] theorem setParent_size : (h.setParent x p).size = h.size := rfl
@[simp] theorem setParent_label : (h.setParent x p).label y = h.label y := by
  unfold setParent set label; dsimp only; split_ifs with e <;> simp [e]
@[simp] theorem setParent_kids : (h.setParent x p).kids y = h.kids y := by
  unfold setParent set kids; dsimp only; split_ifs with e <;> simp [e]
@[simp] theorem setParent_count : (h.setParent x p).count y = h.count y := by
  unfold setParent set count; dsimp only; split_ifs with e <;> simp [e]
theorem setParent_parent : (h.setParent x p).parent y = if y = x then some p else h.parent y := by
  unfold setParent set parent; dsimp only; split_ifs with e <;> simp
theorem setParent_node (hy : y ≠ x) : (h.setParent x p).node y = h.node y := by
  unfold setParent set; dsimp only; rw [if_neg hy]

@[simp] theorem addKid_size : (h.addKid x k c).size = h.size := rfl
@[simp] theorem addKid_label : (h.addKid x k c).label y = h.label y := by simp [addKid]
@[simp] theorem addKid_count : (h.addKid x k c).count y = h.count y := by simp [addKid]
@[simp] theorem addKid_parent : (h.addKid x k c).parent y = h.parent y := by simp [addKid]
theorem addKid_node (hy : y ≠ x) : (h.addKid x k c).node y = h.node y := by
  unfold addKid; exact setKids_node h x y _ hy
theorem addKid_kids_ne (hy : y ≠ x) : (h.addKid x k c).kids y = h.kids y := by
  unfold addKid; dsimp only; rw [setKids_kids, if_neg hy]
theorem addKid_kids_perm : ((h.addKid x k c).kids x).Perm ((k, c) :: h.kids x) := by
  unfold addKid
  dsimp only
  rw [setKids_kids, if_pos rfl]
  apply List.perm_insertIdx
  have hm : h.label k ∈ ((h.kids x).map (fun q => h.label q.1) ++ [h.label k]).insertionSort (· ≤ ·) :=
    (List.perm_insertionSort _ _).mem_iff.2 (by simp)
  have := List.idxOf_lt_length_iff.2 hm
  rw [List.length_insertionSort] at this
  simp at this
  omega

@[simp] theorem incNode_size : (h.incNode x k c).size = h.size := rfl
@[simp] theorem incNode_label : (h.incNode x k c).label y = h.label y := by simp [incNode]
@[simp] theorem incNode_count : (h.incNode x k c).count y = h.count y := by simp [incNode]
@[simp] theorem incNode_parent : (h.incNode x k c).parent y = h.parent y := by simp [incNode]
theorem incNode_kids : (h.incNode x k c).kids y = if y = x then incFirst (fun k' => k' = k) c (h.kids x) else h.kids y := by
  unfold incNode; rw [setKids_kids]
theorem incNode_node (hy : y ≠ x) : (h.incNode x k c).node y = h.node y := setKids_node h x y _ hy

@[simp] theorem replaceKid_size : (h.replaceKid x k c).size = h.size := rfl
@[simp] theorem replaceKid_label : (h.replaceKid x k c).label y = h.label y := by simp [replaceKid]
@[simp] theorem replaceKid_count : (h.replaceKid x k c).count y = h.count y := by simp [replaceKid]
@[simp] theorem replaceKid_parent : (h.replaceKid x k c).parent y = h.parent y := by simp [replaceKid]
theorem replaceKid_kids : (h.replaceKid x k c).kids y = if y = x then replaceFirst k c (h.kids x) else h.kids y := by
  unfold replaceKid; rw [setKids_kids]
theorem replaceKid_node (hy : y ≠ x) : (h.replaceKid x k c).node y = h.node y := setKids_node h x y _ hy

/-! ### Kids -/

/-- `k` is a kid of `x`. -/
def Kid (x k : ℕ) : Prop := k ∈ (h.kids x).map (·.1)

/-- The labels of the kids of `x` are distinct. -/
def Det (x : ℕ) : Prop := ((h.kids x).map (fun q => h.label q.1)).Nodup

variable {h x y k c}

theorem kid_of_mem {q : ℕ × ℕ} (hq : q ∈ h.kids x) : h.Kid x q.1 := List.mem_map.2 ⟨q, hq, rfl⟩

theorem kid_iff : h.Kid x k ↔ ∃ c, (k, c) ∈ h.kids x := by
  unfold Kid
  rw [List.mem_map]
  constructor
  · rintro ⟨q, hq, rfl⟩; exact ⟨q.2, hq⟩
  · rintro ⟨c, hc⟩; exact ⟨_, hc, rfl⟩

theorem Det.nodup (hd : h.Det x) : ((h.kids x).map (·.1)).Nodup := by
  unfold Det at hd
  have : (h.kids x).map (fun q => h.label q.1) = ((h.kids x).map (·.1)).map h.label := by simp
  rw [this] at hd
  exact List.Nodup.of_map _ hd

theorem Det.inj (hd : h.Det x) {a b : ℕ} (ha : h.Kid x a) (hb : h.Kid x b) (hl : h.label a = h.label b) : a = b := by
  obtain ⟨qa, hqa, rfl⟩ := List.mem_map.1 ha
  obtain ⟨qb, hqb, rfl⟩ := List.mem_map.1 hb
  have := List.inj_on_of_nodup_map hd hqa hqb hl
  rw [this]

theorem findKid_some {l : String} (hf : h.findKid x l = some k) : h.Kid x k ∧ h.label k = l := by
  unfold findKid at hf
  rw [Option.map_eq_some_iff] at hf
  obtain ⟨q, hq, rfl⟩ := hf
  exact ⟨kid_of_mem (List.mem_of_find?_eq_some hq), by simpa using List.find?_some hq⟩

theorem findKid_none {l : String} : h.findKid x l = none ↔ ∀ k, h.Kid x k → h.label k ≠ l := by
  unfold findKid
  rw [Option.map_eq_none_iff, List.find?_eq_none]
  constructor
  · intro H k hk
    obtain ⟨q, hq, rfl⟩ := List.mem_map.1 hk
    simpa using H q hq
  · intro H q hq
    simpa using H q.1 (kid_of_mem hq)

theorem Det.findKid (hd : h.Det x) (hk : h.Kid x k) : h.findKid x (h.label k) = some k := by
  cases hf : h.findKid x (h.label k) with
  | none => exact absurd rfl (findKid_none.1 hf k hk)
  | some k' =>
    obtain ⟨a, b⟩ := findKid_some hf
    rw [hd.inj a hk b]

end Heap

/-! ### The loops over the kids -/

theorem incFirst_fst (t : ℕ → Bool) (c : ℕ) (l : List (ℕ × ℕ)) : (incFirst t c l).map (·.1) = l.map (·.1) := by
  induction l with
  | nil => rfl
  | cons q l ih => unfold incFirst; split_ifs <;> simp [ih]

theorem incFirst_edge (k c : ℕ) (l : List (ℕ × ℕ)) (hk : k ∈ l.map (·.1)) (x : ℕ) :
    (((incFirst (fun k' => k' = k) c l).filter (fun q => decide (q.1 = x))).map (·.2)).sum =
      ((l.filter (fun q => decide (q.1 = x))).map (·.2)).sum + if x = k then c else 0 := by
  induction l with
  | nil => simp at hk
  | cons q l ih =>
    unfold incFirst
    by_cases hq : q.1 = k
    · subst hq
      simp only [decide_true, if_true]
      by_cases hx : q.1 = x
      · subst hx; simp; omega
      · have : x ≠ q.1 := fun e => hx e.symm
        simp [hx, this]
    · have hk' : k ∈ l.map (·.1) := by
        rw [List.map_cons] at hk
        rcases List.mem_cons.1 hk with h | h
        · exact absurd h.symm hq
        · exact h
      have := ih hk'
      simp only [hq, decide_false]
      by_cases hx : q.1 = x
      · simp only [hx, List.filter_cons, decide_true, if_true, List.map_cons, List.sum_cons, Bool.false_eq_true, if_false]
        rw [this]; omega
      · simp only [hx, List.filter_cons, decide_false, Bool.false_eq_true, if_false]
        rw [this]

theorem incFirst_sum (k c : ℕ) (l : List (ℕ × ℕ)) (hk : k ∈ l.map (·.1)) :
    ((incFirst (fun k' => k' = k) c l).map (·.2)).sum = (l.map (·.2)).sum + c := by
  induction l with
  | nil => simp at hk
  | cons q l ih =>
    unfold incFirst
    by_cases hq : q.1 = k
    · simp [hq]; omega
    · have hk' : k ∈ l.map (·.1) := by
        rw [List.map_cons] at hk
        rcases List.mem_cons.1 hk with h | h
        · exact absurd h.symm hq
        · exact h
      simp [hq, ih hk']; omega

theorem incFirst_lo (t : ℕ → Bool) (c lo : ℕ) (l : List (ℕ × ℕ)) (hl : ∀ q ∈ l, lo ≤ q.2) : ∀ q ∈ incFirst t c l, lo ≤ q.2 := by
  induction l with
  | nil => simp [incFirst]
  | cons q l ih =>
    intro q' hq'
    unfold incFirst at hq'
    have h0 := hl q (by simp)
    split_ifs at hq'
    · rcases List.mem_cons.1 hq' with rfl | h
      · dsimp only; omega
      · exact hl _ (by simp [h])
    · rcases List.mem_cons.1 hq' with rfl | h
      · exact h0
      · exact ih (fun a ha => hl a (by simp [ha])) _ h

theorem replaceFirst_sum (a b : ℕ) (l : List (ℕ × ℕ)) : ((replaceFirst a b l).map (·.2)).sum = (l.map (·.2)).sum := by
  induction l with
  | nil => rfl
  | cons q l ih => unfold replaceFirst; split_ifs <;> simp [ih]

theorem replaceFirst_snd (a b : ℕ) (l : List (ℕ × ℕ)) : (replaceFirst a b l).map (·.2) = l.map (·.2) := by
  induction l with
  | nil => rfl
  | cons q l ih => unfold replaceFirst; split_ifs <;> simp [ih]

/-- On a list without repetition, all the occurrences are replaced. -/
theorem replaceFirst_fst (a b : ℕ) (l : List (ℕ × ℕ)) (hn : (l.map (·.1)).Nodup) :
    (replaceFirst a b l) = l.map (fun q => (if q.1 = a then b else q.1, q.2)) := by
  induction l with
  | nil => rfl
  | cons q l ih =>
    rw [List.map_cons, List.nodup_cons] at hn
    unfold replaceFirst
    by_cases hq : q.1 = a
    · rw [if_pos hq, List.map_cons, if_pos hq]
      congr 1
      have : l.map (fun q => (if q.1 = a then b else q.1, q.2)) = l.map id := by
        apply List.map_congr_left
        intro q' hq'
        have : q'.1 ≠ a := by
          intro e; apply hn.1; rw [hq, ← e]; exact List.mem_map.2 ⟨q', hq', rfl⟩
        simp [this]
      rw [this, List.map_id]
    · rw [if_neg hq, List.map_cons, if_neg hq, ih hn.2]

end Jajapy.Alergia
