import Verif.Spec.Storm
import Verif.Props.Create
import Verif.Props.CreatePCTMC
import Verif.Lemmas.Draws
import Mathlib.Data.List.FinRange

/-!
Lemmas on the conversion to Storm and back.
-/

namespace Jajapy.Storm

open Spec.Storm Finset

variable {V : Type}

/-! ### Rows -/

theorem denseRow_append (z : V) (l : List (ℕ × V)) (q : ℕ × V) (j : ℕ) :
    denseRow z (l ++ [q]) j = if j = q.1 then q.2 else denseRow z l j := by
  unfold denseRow
  rw [List.foldl_append]
  rfl

theorem denseRow_mem {z : V} {l : List (ℕ × V)} (h : (l.map (·.1)).Nodup) {j : ℕ} {v : V} (hm : (j, v) ∈ l) : denseRow z l j = v := by
  induction l using List.reverseRecOn with
  | nil => cases hm
  | append_singleton l q ih =>
    rw [denseRow_append]
    rw [List.map_append, List.nodup_append] at h
    obtain ⟨h1, _, h3⟩ := h
    rcases List.mem_append.1 hm with hm | hm
    · have : j ≠ q.1 := h3 j (List.mem_map.2 ⟨_, hm, rfl⟩) q.1 (by simp)
      rw [if_neg this]
      exact ih h1 hm
    · rw [List.mem_singleton] at hm
      subst hm
      rw [if_pos rfl]

theorem denseRow_not_mem {z : V} {l : List (ℕ × V)} {j : ℕ} (hm : ∀ q ∈ l, q.1 ≠ j) : denseRow z l j = z := by
  induction l using List.reverseRecOn with
  | nil => rfl
  | append_singleton l q ih =>
    rw [denseRow_append, if_neg (fun e => hm q (by simp) e.symm)]
    exact ih (fun q hq => hm q (by simp [hq]))

theorem denseRow_sum {K : Type} [Field K] {l : List (ℕ × K)} (h : (l.map (·.1)).Nodup) (j : ℕ) :
    denseRow 0 l j = ((l.filter (fun q => q.1 = j)).map (·.2)).sum := by
  by_cases hj : ∃ v, (j, v) ∈ l
  · obtain ⟨v, hv⟩ := hj
    rw [denseRow_mem h hv]
    have : l.filter (fun q => q.1 = j) = [(j, v)] := by
      induction l with
      | nil => cases hv
      | cons q l ih =>
        rw [List.map_cons, List.nodup_cons] at h
        rcases List.mem_cons.1 hv with rfl | hv
        · rw [List.filter_cons_of_pos (by simp)]
          congr 1
          rw [List.filter_eq_nil_iff]
          intro q hq he
          exact h.1 (List.mem_map.2 ⟨q, hq, by simpa using he⟩)
        · rw [List.filter_cons_of_neg]
          · exact ih h.2 hv
          · intro he
            exact h.1 (List.mem_map.2 ⟨_, hv, by simpa using (of_decide_eq_true he).symm⟩)
    rw [this]
    simp
  · push Not at hj
    rw [denseRow_not_mem (fun (q : ℕ × K) hq (e : q.1 = j) => hj q.2 (e ▸ hq))]
    have : l.filter (fun q => q.1 = j) = [] := by
      rw [List.filter_eq_nil_iff]
      intro q hq he
      exact hj q.2 (of_decide_eq_true he ▸ hq)
    rw [this]
    rfl

section
variable {K : Type} [Field K] [LinearOrder K]

theorem mem_sparseRow {n : ℕ} {row : Fin n → K} {j : ℕ} {v : K} : (j, v) ∈ sparseRow row ↔ ∃ h : j < n, v = row ⟨j, h⟩ ∧ v ≠ 0 := by
  unfold sparseRow
  simp only [List.mem_filterMap, List.mem_finRange, true_and]
  constructor
  · rintro ⟨k, hk⟩
    split_ifs at hk with h0
    injection hk with hk
    injection hk with h1 h2
    subst h1
    exact ⟨k.2, h2.symm, h2 ▸ h0⟩
  · rintro ⟨h, h1, h2⟩
    refine ⟨⟨j, h⟩, ?_⟩
    rw [if_neg (h1 ▸ h2), h1]

theorem nodup_sparseRow {n : ℕ} (row : Fin n → K) : ((sparseRow row).map (·.1)).Nodup := by
  unfold sparseRow
  rw [List.map_filterMap]
  refine List.Nodup.filterMap ?_ (List.nodup_finRange n)
  intro a b c ha hb
  simp only [Option.mem_def, Option.map_eq_some_iff] at ha hb
  obtain ⟨x, hx, rfl⟩ := ha
  obtain ⟨y, hy, e⟩ := hb
  split_ifs at hx with h1
  split_ifs at hy with h2
  cases hx
  cases hy
  exact Fin.ext e.symm

theorem denseRow_sparseRow {n : ℕ} (row : Fin n → K) (j : Fin n) : denseRow 0 (sparseRow row) j = row j := by
  by_cases h : row j = 0
  · rw [denseRow_not_mem, h]
    rintro ⟨k, v⟩ hq e
    dsimp only at e
    subst e
    obtain ⟨_, h1, h2⟩ := mem_sparseRow.1 hq
    exact h2 (h1.trans h)
  · exact denseRow_mem (nodup_sparseRow row) (mem_sparseRow.2 ⟨j.2, rfl, h⟩)

end

/-! ### Labels -/

theorem labelOf_single {l : String} (h : l ≠ "deadlock") : labelOf [l] = (l, false) := by
  unfold labelOf
  have : ([l].erase "deadlock") = [l] := List.erase_of_not_mem (by simpa using h.symm)
  rw [this]
  have e : ∀ a : List String, a = [l] → String.intercalate "_" a = l := by rintro _ rfl; rfl
  simp [e]

theorem addInit_none {S : Sparse V} (h : ∀ s ∈ S.states, (labelOf s.labels).2 = false) : addInit S = none := by
  unfold addInit
  have : S.states.zipIdx.filter (fun p => (labelOf p.1.labels).2) = [] := by
    rw [List.filter_eq_nil_iff]
    rintro ⟨s, i⟩ hm he
    have := h s (List.mem_of_getElem? (List.mem_zipIdx_iff_getElem?.1 hm))
    rw [this] at he
    cases he
  rw [this]
  rfl

theorem size_none {S : Sparse V} (h : addInit S = none) : size S = S.states.length := by
  unfold size; rw [h]; rfl

theorem labelling_none {S : Sparse V} (h : ∀ s ∈ S.states, (labelOf s.labels).2 = false) :
    labelling S = S.states.map (fun s => (labelOf s.labels).1) := by
  unfold labelling
  have : S.states.filter (fun s => (labelOf s.labels).2) = [] := by
    rw [List.filter_eq_nil_iff]
    intro s hs he
    rw [h s hs] at he
    cases he
  rw [this]
  simp

theorem sort_filter (l : List String) (p : String → Bool) : (l.insertionSort (· ≤ ·)).filter p = (l.filter p).insertionSort (· ≤ ·) := by
  refine List.Perm.eq_of_pairwise' (r := (· ≤ ·)) ?_ (List.pairwise_insertionSort _ _) ?_
  · exact (List.pairwise_insertionSort (· ≤ ·) l).filter p
  · exact ((List.perm_insertionSort _ l).filter p).trans (List.perm_insertionSort _ _).symm

theorem labelOf_eq {l : List String} (hl : l.Nodup) : (labelOf l).1 = name l ∧ ((labelOf l).2 = true ↔ "init" ∈ l ∧ Named l) := by
  have e1 : l.erase "deadlock" = l.filter (fun x => x ≠ "deadlock") := by
    rw [hl.erase_eq_filter]
    apply List.filter_congr
    intro x _
    by_cases h : x = "deadlock" <;> simp [h]
  set temp := (l.erase "deadlock").insertionSort (· ≤ ·) with ht
  have hmem : ∀ x, x ∈ temp ↔ x ∈ l ∧ x ≠ "deadlock" := by
    intro x; rw [ht, List.mem_insertionSort, e1]; simp
  have hnd : temp.Nodup := (List.perm_insertionSort _ _).nodup_iff.2 (hl.erase _)
  have e2 : temp.filter (fun x => x ≠ "init") = (l.filter (fun x => x ≠ "deadlock" ∧ x ≠ "init")).insertionSort (· ≤ ·) := by
    rw [ht, e1, sort_filter, List.filter_filter]
    congr 1
    apply List.filter_congr
    intro x _
    by_cases h : x = "deadlock" <;> by_cases h' : x = "init" <;> simp [h, h']
  have e3 : temp.erase "init" = temp.filter (fun x => x ≠ "init") := by
    rw [hnd.erase_eq_filter]
    apply List.filter_congr
    intro x _
    by_cases h : x = "init" <;> simp [h]
  have hoth : l.filter (fun x => x ≠ "deadlock" ∧ x ≠ "init") = [] ↔ ¬ Named l := by
    rw [List.filter_eq_nil_iff]
    unfold Named
    push Not
    constructor
    · intro h x hx hd
      have := h x hx
      simp only [ne_eq, decide_eq_true_eq, not_and_or, not_not] at this
      tauto
    · intro h x hx
      have := h x hx
      simp only [ne_eq, decide_eq_true_eq, not_and_or, not_not]
      tauto
  unfold labelOf name
  dsimp only
  rw [← ht]
  by_cases h0 : temp.length = 0
  · rw [if_pos h0]
    have h0 := List.length_eq_zero_iff.1 h0
    have hno : ¬ Named l := by
      rintro ⟨x, hx, hd, _⟩
      have := (hmem x).2 ⟨hx, hd⟩
      rw [h0] at this; cases this
    have hni : "init" ∉ l := by
      intro hx
      have := (hmem "init").2 ⟨hx, by decide⟩
      rw [h0] at this; cases this
    rw [if_pos (hoth.2 hno), if_neg hni]
    exact ⟨rfl, by simp [hni]⟩
  · rw [if_neg h0]
    by_cases h1 : "init" ∈ temp ∧ 1 < temp.length
    · rw [if_pos h1]
      have hn : Named l := by
        have : temp.erase "init" ≠ [] := by
          intro e
          have := List.length_erase_of_mem h1.1
          rw [e] at this
          simp at this; omega
        rw [e3] at this
        obtain ⟨x, hx⟩ := List.exists_mem_of_ne_nil _ this
        rw [List.mem_filter] at hx
        exact ⟨x, ((hmem x).1 hx.1).1, ((hmem x).1 hx.1).2, by simpa using hx.2⟩
      rw [if_neg (fun h => hoth.1 h hn), e3, e2]
      exact ⟨rfl, by simp [hn, ((hmem _).1 h1.1).1]⟩
    · rw [if_neg h1]
      by_cases hi : "init" ∈ temp
      · have hlen : temp.length = 1 := by
          have : ¬ 1 < temp.length := fun h => h1 ⟨hi, h⟩
          omega
        obtain ⟨x, hx⟩ := List.length_eq_one_iff.1 hlen
        have hxi : x = "init" := by
          rw [hx] at hi
          exact (List.mem_singleton.1 hi).symm
        subst hxi
        have hno : ¬ Named l := by
          rintro ⟨y, hy, hd, hne⟩
          have := (hmem y).2 ⟨hy, hd⟩
          rw [hx] at this
          exact hne (by simpa using this)
        rw [if_pos (hoth.2 hno), if_pos ((hmem _).1 hi).1, hx]
        refine ⟨rfl, by simp [hno]⟩
      · have hni : "init" ∉ l := fun h => hi ((hmem _).2 ⟨h, by decide⟩)
        have hn : Named l := by
          obtain ⟨x, hx⟩ := List.exists_mem_of_length_pos (Nat.pos_of_ne_zero h0)
          exact ⟨x, ((hmem x).1 hx).1, ((hmem x).1 hx).2, fun e => hi (e ▸ hx)⟩
        rw [if_neg (fun h => hoth.1 h hn), ← e2]
        have : temp.filter (fun x => x ≠ "init") = temp := by
          rw [List.filter_eq_self]
          intro x hx
          simp only [ne_eq, decide_not, Bool.not_eq_eq_eq_not, Bool.not_true, decide_eq_false_iff_not]
          rintro rfl
          exact hi hx
        rw [this]
        exact ⟨rfl, by simp [hni]⟩

theorem labels_eq (S : Sparse V) {i : ℕ} (h : i < S.states.length) : labels S i = S.states[i].labels := by
  unfold labels
  rw [List.getElem?_eq_getElem h]
  rfl

theorem filter_flag (k : ℕ) (l : List (State V)) (o : ℕ) (h : ∀ i (h : i < l.length), (labelOf l[i].labels).2 = true ↔ o + i = k) :
    (l.zipIdx o).filter (fun p => (labelOf p.1.labels).2) = if h : o ≤ k ∧ k - o < l.length then [(l[k - o]'h.2, k)] else [] := by
  induction l generalizing o with
  | nil => simp
  | cons x l ih =>
    rw [List.zipIdx_cons]
    have ih' := ih (o + 1) (fun i hi => by
      have := h (i + 1) (by simpa using hi)
      rw [show o + 1 + i = o + (i + 1) by omega]
      exact this)
    have h0 : (labelOf x.labels).2 = true ↔ o = k := h 0 (by simp)
    by_cases hx : o = k
    · subst hx
      rw [List.filter_cons_of_pos (by exact h0.2 rfl), ih', dif_neg (by omega), dif_pos ⟨le_refl _, by simp⟩]
      simp
    · rw [List.filter_cons_of_neg (by intro he; exact hx (h0.1 he)), ih']
      by_cases hc : o + 1 ≤ k ∧ k - (o + 1) < l.length
      · rw [dif_pos hc, dif_pos ⟨by omega, by simp; omega⟩]
        congr 2
        have : k - o = (k - (o + 1)) + 1 := by omega
        simp only [this, List.getElem_cons_succ]
      · rw [dif_neg hc, dif_neg]
        rintro ⟨a, b⟩
        simp at b
        omega

/-- The states and labels of a model with one initial state. -/
theorem shape {S : Sparse V} (hS : ∀ s ∈ S.states, s.labels.Nodup) {k : ℕ} (hk : OnlyInit S k) :
    (¬ Named (labels S k) ∧ addInit S = none ∧ labelling S = S.states.map (fun s => name s.labels)) ∨
    (Named (labels S k) ∧ addInit S = some k ∧ labelling S = S.states.map (fun s => name s.labels) ++ ["init"]) := by
  obtain ⟨hk1, hk2⟩ := hk
  have hflag : ∀ i (h : i < S.states.length), (labelOf S.states[i].labels).2 = true ↔ i = k ∧ Named (labels S k) := by
    intro i h
    rw [(labelOf_eq (hS _ (List.getElem_mem h))).2, ← labels_eq S h, hk2 i h]
    constructor
    · rintro ⟨rfl, h⟩; exact ⟨rfl, h⟩
    · rintro ⟨rfl, h⟩; exact ⟨rfl, h⟩
  have hmap : S.states.map (fun s => (labelOf s.labels).1) = S.states.map (fun s => name s.labels) :=
    List.map_congr_left (fun s hs => (labelOf_eq (hS s hs)).1)
  by_cases hn : Named (labels S k)
  · right
    have hz := filter_flag k S.states 0 (fun i h => by rw [hflag i h]; simp [hn])
    rw [dif_pos ⟨Nat.zero_le _, by omega⟩] at hz
    refine ⟨hn, ?_, ?_⟩
    · unfold addInit
      rw [hz]
      rfl
    · unfold labelling
      rw [hmap]
      congr 1
      have : (S.states.filter (fun s => (labelOf s.labels).2)) = (S.states.zipIdx.filter (fun p => (labelOf p.1.labels).2)).map (·.1) := by
        have e : S.states = S.states.zipIdx.map (·.1) := by simp
        conv_lhs => rw [e, List.filter_map]
        rfl
      rw [this, hz]
      rfl
  · left
    have hf : ∀ s ∈ S.states, (labelOf s.labels).2 = false := by
      intro s hs
      obtain ⟨i, h, rfl⟩ := List.getElem_of_mem hs
      rw [Bool.eq_false_iff]
      intro e
      exact hn ((hflag i h).1 e).2
    exact ⟨hn, addInit_none hf, (labelling_none hf).trans hmap⟩

theorem intercalate_ne_init {m : List String} (hm : m ≠ []) (h : ∀ x ∈ m, x ≠ "init") : String.intercalate "_" m ≠ "init" := by
  match m with
  | [] => exact absurd rfl hm
  | [x] => exact h x (by simp)
  | x :: y :: m =>
    intro e
    have e := congrArg String.toList e
    rw [String.toList_intercalate] at e
    have hmem : '_' ∈ List.intercalate "_".toList (List.map String.toList (x :: y :: m)) := by
      simp [List.intercalate, List.intersperse]
    rw [e] at hmem
    revert hmem
    decide

theorem name_eq_init {l : List String} : name l = "init" ↔ "init" ∈ l ∧ ¬ Named l := by
  unfold name
  dsimp only
  have hoth : l.filter (fun x => x ≠ "deadlock" ∧ x ≠ "init") = [] ↔ ¬ Named l := by
    rw [List.filter_eq_nil_iff]
    unfold Named
    push Not
    constructor
    · intro h x hx hd
      have := h x hx
      simp only [ne_eq, decide_eq_true_eq, not_and_or, not_not] at this
      tauto
    · intro h x hx
      have := h x hx
      simp only [ne_eq, decide_eq_true_eq, not_and_or, not_not]
      tauto
  by_cases hn : Named l
  · rw [if_neg (fun h => hoth.1 h hn)]
    have hne : (l.filter (fun x => x ≠ "deadlock" ∧ x ≠ "init")).insertionSort (· ≤ ·) ≠ [] := by
      intro e
      have := (List.perm_insertionSort (· ≤ ·) (l.filter (fun x => x ≠ "deadlock" ∧ x ≠ "init")))
      rw [e] at this
      exact hoth.1 this.symm.eq_nil hn
    have := intercalate_ne_init hne (fun x hx => by
      rw [List.mem_insertionSort, List.mem_filter] at hx
      exact (of_decide_eq_true hx.2).2)
    exact ⟨fun e => absurd e this, fun e => absurd hn e.2⟩
  · rw [if_pos (hoth.2 hn)]
    by_cases hi : "init" ∈ l
    · simp [hi, hn]
    · simp [hi]

end Jajapy.Storm
