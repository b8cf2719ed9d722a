import Verif.Lemmas.IOAlergiaExt
import Verif.Props.Create
import Mathlib.Algebra.BigOperators.Fin

/-!
The MDP that is read from the merged automaton.
-/

namespace Jajapy.IOAlergia

open Relation Auto Spec.IOAlergia Finset Create

section
variable {K : Type} [Field K]

theorem foldRow {α : Type} (g : α → ℕ) (f : α → K) (j : ℕ) : ∀ (l : List α) (init : ℕ → K), (l.map g).Nodup →
    (l.foldl (fun row q => fun j => if j = g q then f q else row j) init) j =
      (l.map (fun q => if g q = j then f q else 0)).sum + if j ∈ l.map g then 0 else init j
  | [], init, _ => by simp
  | q :: l, init, h => by
    rw [List.map_cons, List.nodup_cons] at h
    rw [List.foldl_cons, foldRow g f j l _ h.2, List.map_cons, List.sum_cons, List.map_cons]
    by_cases hj : j = g q
    · subst hj
      rw [if_neg h.1, if_pos rfl, if_pos rfl, if_pos List.mem_cons_self]
      ring
    · rw [if_neg hj, if_neg (Ne.symm hj), zero_add]
      congr 1
      simp [hj]

theorem sum_foldRow {α : Type} (g : α → ℕ) (f : α → K) (n : ℕ) : ∀ (l : List α), (∀ q ∈ l, g q < n) →
    ∑ j : Fin n, (l.map (fun q => if g q = j then f q else 0)).sum = (l.map f).sum
  | [], _ => by simp
  | q :: l, h => by
    simp only [List.map_cons, List.sum_cons]
    rw [Finset.sum_add_distrib, sum_foldRow g f n l (fun q hq => h q (List.mem_cons_of_mem _ hq))]
    congr 1
    rw [Finset.sum_eq_single (⟨g q, h q List.mem_cons_self⟩ : Fin n)]
    · simp
    · intro b _ hb
      rw [if_neg]
      intro e
      exact hb (Fin.ext e.symm)
    · simp

theorem cast_going (A : Auto) (x : ℕ) (a : String) (y : ℕ) :
    ((going A x a y : ℕ) : K) = (((A.node x).trans a).map (fun q => if q.2 = y then (q.1 : K) else 0)).sum := by
  unfold going
  induction (A.node x).trans a with
  | nil => simp
  | cons q l ih =>
    rw [List.map_cons, List.sum_cons, Nat.cast_add, ih, List.map_cons, List.sum_cons]
    congr 1
    split <;> simp

theorem cast_total (A : Auto) (x : ℕ) (a : String) : ((total A x a : ℕ) : K) = (((A.node x).trans a).map (fun q => (q.1 : K))).sum := by
  unfold total
  induction (A.node x).trans a with
  | nil => simp
  | cons q l ih => rw [List.map_cons, List.sum_cons, Nat.cast_add, ih, List.map_cons, List.sum_cons]

theorem list_sum_div (l : List K) (c : K) : (l.map (fun x => x / c)).sum = l.sum / c := by
  induction l with
  | nil => simp
  | cons x l ih => rw [List.map_cons, List.sum_cons, ih, List.sum_cons, add_div]

variable {A : Auto} {red : List ℕ}

theorem total_pos (W : A.WF) {x : ℕ} {a : String} (ha : a ∈ (A.node x).acts) : 0 < total A x a := by
  obtain ⟨q, l, e⟩ := List.exists_cons_of_ne_nil (W.nonempty ha)
  have hq : q ∈ (A.node x).trans a := by rw [e]; exact List.mem_cons_self
  have h3 := W.pos ha hq
  have h4 := List.single_le_sum (l := ((A.node x).trans a).map (·.1)) (by simp) q.1 (List.mem_map.2 ⟨_, hq, rfl⟩)
  unfold total
  omega

theorem dests_nodup (W : A.WF) {x : ℕ} {a : String} (ha : a ∈ (A.node x).acts) : (((A.node x).trans a).map (·.2)).Nodup := by
  have := W.det ha
  rw [show (fun q : ℕ × ℕ => (A.node q.2).obs) = (fun y => (A.node y).obs) ∘ (·.2) from rfl, ← List.map_map] at this
  exact List.Nodup.of_map _ this

/-- One row of the matrix. -/
theorem cleanRow_eq (W : A.WF) {x : ℕ} {a : String} (ha : a ∈ (A.node x).acts) (hred : ∀ q ∈ (A.node x).trans a, q.2 ∈ red) (j : ℕ) :
    cleanRow K red ((A.node x).trans a) j = (((A.node x).trans a).map (fun q => if red.idxOf q.2 = j then (q.1 : K) / (total A x a : K) else 0)).sum := by
  have hn : (((A.node x).trans a).map (fun q => red.idxOf q.2)).Nodup := by
    refine List.Nodup.map_on ?_ ((dests_nodup W ha).of_map)
    intro q hq q' hq' e
    have e2 : q.2 = q'.2 := (List.idxOf_inj (hred q hq)).1 e
    exact nodup_map_eq (dests_nodup W ha) hq hq' e2
  unfold cleanRow
  rw [foldRow (fun q : ℕ × ℕ => red.idxOf q.2) _ j _ _ hn]
  simp only [total]
  rw [ite_self, add_zero]

theorem cleanRow_get (W : A.WF) {x : ℕ} {a : String} (ha : a ∈ (A.node x).acts) (hred : ∀ q ∈ (A.node x).trans a, q.2 ∈ red) (hnd : red.Nodup)
    {j : ℕ} (hj : j < red.length) : cleanRow K red ((A.node x).trans a) j = (going A x a red[j] : K) / (total A x a : K) := by
  rw [cleanRow_eq W ha hred, cast_going, ← list_sum_div, List.map_map]
  congr 1
  refine List.map_congr_left ?_
  intro q hq
  have : red.idxOf q.2 = j ↔ q.2 = red[j] := by
    constructor
    · rintro rfl; simp
    · intro e; rw [e]; exact hnd.idxOf_getElem j hj
  by_cases h : q.2 = red[j]
  · simp [h, hnd.idxOf_getElem j hj]
  · rw [if_neg (fun e => h (this.1 e))]
    simp [h]

theorem cleanRow_last (W : A.WF) {x : ℕ} {a : String} (ha : a ∈ (A.node x).acts) (hred : ∀ q ∈ (A.node x).trans a, q.2 ∈ red) :
    cleanRow K red ((A.node x).trans a) red.length = 0 := by
  rw [cleanRow_eq W ha hred]
  refine List.sum_eq_zero ?_
  intro v hv
  obtain ⟨q, hq, rfl⟩ := List.mem_map.1 hv
  have := List.idxOf_lt_length_iff.2 (hred q hq)
  rw [if_neg (by omega)]

theorem cleanRow_sum [CharZero K] (W : A.WF) {x : ℕ} {a : String} (ha : a ∈ (A.node x).acts) (hred : ∀ q ∈ (A.node x).trans a, q.2 ∈ red) :
    ∑ j : Fin (red.length + 1), cleanRow K red ((A.node x).trans a) j = 1 := by
  simp only [cleanRow_eq W ha hred]
  rw [sum_foldRow (fun q : ℕ × ℕ => red.idxOf q.2) (fun q => (q.1 : K) / (total A x a : K))]
  · rw [show (fun q : ℕ × ℕ => (q.1 : K) / (total A x a : K)) = (fun v => v / (total A x a : K)) ∘ (fun q => (q.1 : K)) from rfl, ← List.map_map, list_sum_div,
      ← cast_total, div_self]
    exact_mod_cast (total_pos W ha).ne'
  · intro q hq
    have := List.idxOf_lt_length_iff.2 (hred q hq)
    omega

end

section
variable {K : Type} [Field K] [LinearOrder K] [IsStrictOrderedRing K] [FloorRing K] {A : Auto} {red : List ℕ} {D : Set ℕ}

theorem mem_allowed (W : A.WF) {s : ℕ} {a : String} : a ∈ allowedList A s ↔ a ∈ (A.node s).acts := by
  unfold allowedList
  rw [List.mem_filter]
  simp only [decide_eq_true_eq]
  exact ⟨fun h => h.2, fun h => ⟨W.acts h, h⟩⟩

theorem inv_closed (I : Inv A red [] D) : ∀ r ∈ red, ∀ a ∈ allowedList A r, ∀ q ∈ (A.node r).trans a, q.2 ∈ red := by
  intro r hr a ha q hq
  rw [mem_allowed I.wf] at ha
  rcases I.closed r hr q.2 ⟨(a, (A.node q.2).obs), q.1, (look_iff I.wf).2 ⟨ha, hq, rfl⟩⟩ with h | h
  · exact h
  · cases h

/-- The array is a probability matrix. -/
theorem cleanMatrix_row (I : Inv A red [] D) (si : Fin (red.length + 1)) (ai : Fin A.actions.length) :
    (∀ j : ℕ, 0 ≤ cleanMatrix K A red si ai j) ∧
      (∑ j : Fin (red.length + 1), cleanMatrix K A red si ai j = 1 ∨ ∑ j : Fin (red.length + 1), cleanMatrix K A red si ai j = 0) := by
  unfold cleanMatrix
  by_cases hs : (si : ℕ) < red.length
  · simp only [hs, if_true]
    rcases e : (allowedList A (red.getD si 0))[(ai : ℕ)]? with _ | a
    · simp
    · have hr : red.getD si 0 ∈ red := by rw [List.getD_eq_getElem _ _ hs]; exact List.getElem_mem hs
      have hal := List.mem_of_getElem? e
      have ha := (mem_allowed I.wf).1 hal
      have hcl := inv_closed I _ hr a hal
      refine ⟨fun j => ?_, Or.inl (cleanRow_sum I.wf ha hcl)⟩
      dsimp only
      rw [cleanRow_eq I.wf ha hcl]
      refine List.sum_nonneg ?_
      intro v hv
      obtain ⟨q, _, rfl⟩ := List.mem_map.1 hv
      split
      · positivity
      · exact le_refl _
  · simp only [hs, if_false]
    refine ⟨fun j => by split <;> norm_num, ?_⟩
    by_cases ha : (ai : ℕ) = 0
    · left
      rw [Finset.sum_eq_single (0 : Fin (red.length + 1))]
      · simp [ha]
      · intro b _ hb
        rw [if_neg]
        rintro ⟨_, h⟩
        exact hb (Fin.ext h)
      · simp
    · right
      simp [ha]

theorem cleanMDP_ok (I : Inv A red [] D) (h0 : A.actions ≠ []) : ∃ M, cleanMDP K A red = .ok M ∧ M.Stochastic ∧ M.labelling (Fin.last _) = "init" ∧
    (∀ i : Fin red.length, M.labelling i.castSucc = (A.node red[i]).obs) ∧ ∃ h : M.actions = A.actions, ∀ si ai j, M.matrix si ai j =
      cleanMatrix K A red si (ai.cast (by rw [h])) j := by
  have hrow := cleanMatrix_row (K := K) I
  unfold cleanMDP
  rw [if_pos (inv_closed I), if_neg h0]
  have hok : ∀ (i : Fin (red.length + 1)) (a : Fin A.actions.length), RowOK (fun j : Fin (red.length + 1) => cleanMatrix K A red i a j) := by
    intro i a
    rcases (hrow i a).2 with h | h
    · left; rw [h]; norm_num
    · right; rw [h]; norm_num
  have hinit : "init" ∈ red.map (fun i => (A.node i).obs) ++ ["init"] := by simp
  obtain ⟨M, hM⟩ := mkMDP_total A.actions (fun si ai j => cleanMatrix K A red si ai j) (red.map (fun i => (A.node i).obs) ++ ["init"]) hinit (by simp) hok
  obtain ⟨_, _, _, ⟨ha, hm⟩, hl⟩ := (mkMDP_ok_iff _ _ _ _).1 hM
  have hlast : M.labelling (Fin.last _) = "init" := by
    have := hl.1 (Fin.last _)
    simp only [Fin.getElem?_fin, Fin.val_last] at this
    rw [List.getElem?_append_right (by simp)] at this
    simpa using this.symm
  refine ⟨M, hM, ?_, hlast, ?_, ha, hm⟩
  · have hcard : 0 < (univ.filter (fun s => M.labelling s = "init")).card := Finset.card_pos.2 ⟨Fin.last _, by simp [hlast]⟩
    refine ⟨?_, ?_, ?_, ?_⟩
    · intro s
      rw [hl.2]
      split
      · positivity
      · exact le_refl _
    · simp only [hl.2]
      rw [← Finset.sum_filter, Finset.sum_const, nsmul_eq_mul, mul_one_div, div_self]
      exact_mod_cast hcard.ne'
    · intro s i s'
      rw [hm]
      exact (hrow s _).1 s'
    · intro s i
      simp only [hm]
      exact (hrow s _).2
  · intro i
    have := hl.1 i.castSucc
    simp only [Fin.getElem?_fin, Fin.val_castSucc] at this
    rw [List.getElem?_append_left (by simp)] at this
    simpa using this.symm

end

end Jajapy.IOAlergia
