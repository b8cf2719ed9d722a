import Verif.Lemmas.IOAlergiaCompat
import Mathlib.Data.List.Sort
import Mathlib.Data.List.GetD

/-!
The prefix tree: its states are the prefixes of the traces, their counters the numbers of the traces with that prefix.
-/

namespace Jajapy.IOAlergia

open Relation Auto Spec.IOAlergia

/-! ### The counters -/

theorem mem_prefixes {t p : List String} : p ∈ prefixes t ↔ p <+: t ∧ p.length % 2 = 1 := by
  unfold prefixes
  simp only [List.mem_map, List.mem_filter, List.mem_range, decide_eq_true_eq]
  constructor
  · rintro ⟨i, ⟨hi, he⟩, rfl⟩
    refine ⟨List.take_prefix _ _, ?_⟩
    rw [List.length_take, Nat.min_eq_left (by omega)]
    omega
  · rintro ⟨hp, hl⟩
    have := hp.length_le
    refine ⟨p.length - 1, ⟨by omega, by omega⟩, ?_⟩
    rw [show p.length - 1 + 1 = p.length by omega]
    exact (List.prefix_iff_eq_take.1 hp).symm

theorem prefixes_nodup (t : List String) : (prefixes t).Nodup := by
  unfold prefixes
  refine List.Nodup.map_on ?_ (List.nodup_range.filter _)
  intro i hi j hj e
  simp only [List.mem_filter, List.mem_range] at hi hj
  have := congrArg List.length e
  rw [List.length_take, List.length_take] at this
  omega

/-- The counter of a label. -/
def counterOf (st : List (List String × ℕ)) (p : List String) : ℕ := ((st.find? (fun q => q.1 = p)).map (·.2)).getD 0

theorem counterOf_cons (q : List String) (c : ℕ) (l : List (List String × ℕ)) (p : List String) :
    counterOf ((q, c) :: l) p = if q = p then c else counterOf l p := by
  unfold counterOf
  rw [List.find?_cons]
  by_cases h : q = p <;> simp [h]

theorem addPrefix_labels (n : ℕ) (p : List String) : ∀ (st : List (List String × ℕ)), (addPrefix n st p).map (·.1) =
    if p ∈ st.map (·.1) then st.map (·.1) else st.map (·.1) ++ [p]
  | [] => rfl
  | (q, c) :: l => by
    rw [addPrefix]
    by_cases h : q = p
    · rw [if_pos h, if_pos (by simp [h])]
      rfl
    · rw [if_neg h, List.map_cons, addPrefix_labels n p l]
      by_cases h' : p ∈ l.map (·.1)
      · rw [if_pos h', if_pos (by rw [List.map_cons]; exact List.mem_cons_of_mem _ h')]; rfl
      · rw [if_neg h', if_neg]
        · rfl
        · rw [List.map_cons, List.mem_cons]
          exact fun h2 => h2.elim (fun e => h e.symm) h'

theorem addPrefix_counter (n : ℕ) (p r : List String) : ∀ (st : List (List String × ℕ)),
    counterOf (addPrefix n st p) r = counterOf st r + if p = r then n else 0
  | [] => by
    rw [addPrefix, counterOf_cons]
    rw [show counterOf [] r = 0 from rfl, Nat.zero_add]
  | (q, c) :: l => by
    rw [addPrefix]
    by_cases h : q = p
    · rw [if_pos h, counterOf_cons, counterOf_cons]
      subst h
      by_cases h' : q = r <;> simp [h']
    · rw [if_neg h, counterOf_cons, counterOf_cons, addPrefix_counter n p r l]
      by_cases h' : q = r
      · subst h'
        rw [if_pos rfl, if_pos rfl, if_neg (fun e => h e.symm)]
        rfl
      · rw [if_neg h', if_neg h']

theorem addPrefixes_spec (n : ℕ) (r : List String) : ∀ (ps : List (List String)) (st : List (List String × ℕ)), (st.map (·.1)).Nodup →
    ((ps.foldl (addPrefix n) st).map (·.1)).Nodup ∧ (r ∈ (ps.foldl (addPrefix n) st).map (·.1) ↔ r ∈ st.map (·.1) ∨ r ∈ ps) ∧
      counterOf (ps.foldl (addPrefix n) st) r = counterOf st r + ps.count r * n
  | [], st, h => by simpa using h
  | p :: ps, st, h => by
    have hn : ((addPrefix n st p).map (·.1)).Nodup := by
      rw [addPrefix_labels]
      split
      · exact h
      · rename_i hp
        rw [List.nodup_append]
        refine ⟨h, by simp, ?_⟩
        intro x hx y hy
        rw [List.mem_singleton] at hy
        rintro rfl
        exact hp (hy ▸ hx)
    obtain ⟨h1, h2, h3⟩ := addPrefixes_spec n r ps (addPrefix n st p) hn
    rw [List.foldl_cons]
    refine ⟨h1, ?_, ?_⟩
    · rw [h2, addPrefix_labels, List.mem_cons]
      split
      · rename_i hp
        constructor
        · tauto
        · rintro (h | rfl | h)
          · exact Or.inl h
          · exact Or.inl hp
          · exact Or.inr h
      · rw [List.mem_append, List.mem_singleton]; tauto
    · rw [h3, addPrefix_counter, List.count_cons, beq_eq_decide]
      by_cases e : p = r
      · simp [e]; ring
      · simp [e]

theorem countPrefixes_aux (r : List String) : ∀ (ts : List (List String × ℕ)) (st : List (List String × ℕ)), (st.map (·.1)).Nodup →
    ((ts.foldl (fun st t => (prefixes t.1).foldl (addPrefix t.2) st) st).map (·.1)).Nodup ∧
      (r ∈ (ts.foldl (fun st t => (prefixes t.1).foldl (addPrefix t.2) st) st).map (·.1) ↔ r ∈ st.map (·.1) ∨ ∃ t ∈ ts, r ∈ prefixes t.1) ∧
      (r.length % 2 = 1 → counterOf (ts.foldl (fun st t => (prefixes t.1).foldl (addPrefix t.2) st) st) r = counterOf st r + prefixCount ts r)
  | [], st, h => by simpa [prefixCount] using h
  | t :: ts, st, h => by
    obtain ⟨h1, h2, h3⟩ := addPrefixes_spec t.2 r (prefixes t.1) st h
    obtain ⟨h4, h5, h6⟩ := countPrefixes_aux r ts _ h1
    rw [List.foldl_cons]
    refine ⟨h4, ?_, ?_⟩
    · rw [h5, h2]
      simp only [List.mem_cons, exists_eq_or_imp]
      tauto
    · intro ho
      rw [h6 ho, h3]
      unfold prefixCount
      by_cases hp : r <+: t.1
      · rw [List.count_eq_one_of_mem (prefixes_nodup _) (mem_prefixes.2 ⟨hp, ho⟩), List.filter_cons_of_pos (by simpa using hp), List.map_cons, List.sum_cons]
        omega
      · rw [List.count_eq_zero_of_not_mem (fun h => hp (mem_prefixes.1 h).1), List.filter_cons_of_neg (by simpa using hp)]
        omega

theorem countPrefixes_nodup (ts : List (List String × ℕ)) : ((countPrefixes ts).map (·.1)).Nodup :=
  (countPrefixes_aux [] ts [] List.nodup_nil).1

theorem mem_countPrefixes {ts : List (List String × ℕ)} {p : List String} :
    p ∈ (countPrefixes ts).map (·.1) ↔ p.length % 2 = 1 ∧ ∃ t ∈ ts, p <+: t.1 := by
  unfold countPrefixes
  rw [(countPrefixes_aux p ts [] List.nodup_nil).2.1]
  simp only [mem_prefixes]
  constructor
  · rintro (h | ⟨t, ht, h1, h2⟩)
    · cases h
    · exact ⟨h2, t, ht, h1⟩
  · rintro ⟨h2, t, ht, h1⟩
    exact Or.inr ⟨t, ht, h1, h2⟩

theorem countPrefixes_counter {ts : List (List String × ℕ)} {p : List String} (h : p.length % 2 = 1) :
    counterOf (countPrefixes ts) p = prefixCount ts p := by
  unfold countPrefixes
  rw [(countPrefixes_aux p ts [] List.nodup_nil).2.2 h]
  exact Nat.zero_add _

/-! ### The order of the states -/

/-- The sorted labels. -/
def labels (ts : List (List String × ℕ)) : List (List String) := ((countPrefixes ts).map (·.1)).insertionSort (· ≤ ·)

theorem sortStates_eq (ts : List (List String × ℕ)) : sortStates (countPrefixes ts) = (labels ts).map (fun l => (l, counterOf (countPrefixes ts) l)) := rfl

theorem labels_nodup (ts : List (List String × ℕ)) : (labels ts).Nodup :=
  (List.perm_insertionSort _ _).nodup_iff.2 (countPrefixes_nodup ts)

theorem mem_labels {ts : List (List String × ℕ)} {p : List String} : p ∈ labels ts ↔ p.length % 2 = 1 ∧ ∃ t ∈ ts, p <+: t.1 := by
  unfold labels
  rw [List.mem_insertionSort, mem_countPrefixes]

/-- A label comes before the longer ones that start with it. -/
theorem labels_lt {ts : List (List String × ℕ)} {i j : ℕ} (hi : i < (labels ts).length) (hj : j < (labels ts).length)
    (hp : (labels ts)[i] <+: (labels ts)[j]) (hne : (labels ts)[i] ≠ (labels ts)[j]) : i < j := by
  by_contra hlt
  have hji : j < i := by
    rcases Nat.lt_or_ge j i with h | h
    · exact h
    · exact absurd (by congr 1; omega) hne
  have hs : (labels ts).Pairwise (· ≤ ·) := List.pairwise_insertionSort _ _
  have h1 := List.pairwise_iff_getElem.1 hs j i hj hi hji
  have h2 : (labels ts)[i] ≤ (labels ts)[j] := by
    rw [← not_lt]
    have := hp.le
    exact this
  exact hne (le_antisymm h2 h1)

/-! ### The transitions -/

/-- Adding a list of transitions to a state. -/
theorem addTransitions_spec : ∀ (es : List (String × ℕ × ℕ)) (n : Node), n.acts.Nodup → (∀ b, b ∉ n.acts → n.trans b = []) →
    let n' := es.foldl (fun n e => n.transitionsAdd e.1 e.2.1 e.2.2) n
    n'.acts.Nodup ∧ (∀ b, b ∈ n'.acts ↔ b ∈ n.acts ∨ ∃ e ∈ es, e.1 = b) ∧
      (∀ b, n'.trans b = n.trans b ++ (es.filter (fun e => e.1 = b)).map (·.2)) ∧ n'.obs = n.obs ∧ n'.counter = n.counter ∧ n'.label = n.label
  | [], n, h, _ => by simpa using h
  | (a, c, d) :: es, n, h, hc => by
    have key : (n.transitionsAdd a c d).acts.Nodup ∧ (∀ b, b ∈ (n.transitionsAdd a c d).acts ↔ b ∈ n.acts ∨ a = b) ∧
        (∀ b, (n.transitionsAdd a c d).trans b = n.trans b ++ if a = b then [(c, d)] else []) ∧ (n.transitionsAdd a c d).obs = n.obs ∧
        (n.transitionsAdd a c d).counter = n.counter ∧ (n.transitionsAdd a c d).label = n.label := by
      unfold Node.transitionsAdd
      by_cases ha : a ∈ n.acts
      · rw [if_pos ha]
        refine ⟨h, ?_, ?_, rfl, rfl, rfl⟩
        · intro b
          constructor
          · exact Or.inl
          · rintro (h | rfl)
            · exact h
            · exact ha
        · intro b
          dsimp only
          by_cases hb : b = a
          · subst hb; simp
          · rw [if_neg hb, if_neg (Ne.symm hb), List.append_nil]
      · rw [if_neg ha]
        refine ⟨?_, ?_, ?_, rfl, rfl, rfl⟩
        · rw [List.nodup_append]
          refine ⟨h, by simp, ?_⟩
          intro x hx y hy
          rw [List.mem_singleton] at hy
          rintro rfl
          exact ha (hy ▸ hx)
        · intro b
          rw [List.mem_append, List.mem_singleton, eq_comm]
        · intro b
          dsimp only
          by_cases hb : b = a
          · subst hb; rw [if_pos rfl, if_pos rfl, hc b ha]; rfl
          · rw [if_neg hb, if_neg (Ne.symm hb), List.append_nil]
    obtain ⟨k1, k2, k3, k4, k5, k6⟩ := key
    have hc' : ∀ b, b ∉ (n.transitionsAdd a c d).acts → (n.transitionsAdd a c d).trans b = [] := by
      intro b hb
      rw [k2] at hb
      push Not at hb
      rw [k3, hc b hb.1, if_neg hb.2]; rfl
    obtain ⟨h1, h2, h3, h4, h5, h6⟩ := addTransitions_spec es _ k1 hc'
    refine ⟨h1, ?_, ?_, h4.trans k4, h5.trans k5, h6.trans k6⟩
    · intro b
      rw [List.foldl_cons, h2, k2]
      simp only [List.mem_cons, exists_eq_or_imp]
      tauto
    · intro b
      rw [List.foldl_cons, h3, k3, List.append_assoc]
      congr 1
      by_cases hb : a = b
      · rw [if_pos hb, List.filter_cons_of_pos (by simpa using hb)]; rfl
      · rw [if_neg hb, List.filter_cons_of_neg (by simpa using hb)]; rfl

/-- The label of a state. -/
def lab (ts : List (List String × ℕ)) (x : ℕ) : List String := (labels ts).getD x []

theorem getD_sorted (ts : List (List String × ℕ)) (x : ℕ) (hx : x < (labels ts).length) :
    (sortStates (countPrefixes ts)).getD x ([], 0) = (lab ts x, prefixCount ts (lab ts x)) := by
  have h1 : lab ts x = (labels ts)[x] := by
    unfold lab
    rw [List.getD_eq_getElem _ _ hx]
  have h2 := (mem_labels.1 (List.getElem_mem hx)).1
  rw [sortStates_eq, List.getD_eq_getElem _ _ (by simpa using hx), List.getElem_map, h1, countPrefixes_counter h2]

theorem lab_mem {ts : List (List String × ℕ)} {x : ℕ} (hx : x < (labels ts).length) : lab ts x ∈ labels ts := by
  unfold lab
  rw [List.getD_eq_getElem _ _ hx]
  exact List.getElem_mem hx

theorem lab_inj {ts : List (List String × ℕ)} {x y : ℕ} (hx : x < (labels ts).length) (hy : y < (labels ts).length) (h : lab ts x = lab ts y) : x = y := by
  unfold lab at h
  rw [List.getD_eq_getElem _ _ hx, List.getD_eq_getElem _ _ hy] at h
  exact ((labels_nodup ts).getElem_inj_iff).1 h

theorem exists_lab {ts : List (List String × ℕ)} {p : List String} (h : p ∈ labels ts) : ∃ x < (labels ts).length, lab ts x = p := by
  obtain ⟨x, hx, e⟩ := List.getElem_of_mem h
  refine ⟨x, hx, ?_⟩
  unfold lab
  rw [List.getD_eq_getElem _ _ hx]
  exact e

theorem lab_lt {ts : List (List String × ℕ)} {x y : ℕ} (hx : x < (labels ts).length) (hy : y < (labels ts).length) (hp : lab ts x <+: lab ts y)
    (hne : lab ts x ≠ lab ts y) : x < y := by
  unfold lab at hp hne
  rw [List.getD_eq_getElem _ _ hx, List.getD_eq_getElem _ _ hy] at hp hne
  exact labels_lt hx hy hp hne

/-- The transitions of a state of the tree, in the order in which they are added. -/
def treeEdges (st : List (List String × ℕ)) (x : ℕ) : List (String × ℕ × ℕ) :=
  (((List.range st.length).filter (fun y => decide (x < y))).filter (fun y => decide ((st.getD y ([], 0)).1.length = (st.getD x ([], 0)).1.length + 2 ∧
    (st.getD y ([], 0)).1.take ((st.getD y ([], 0)).1.length - 2) = (st.getD x ([], 0)).1))).map
    (fun y => ((st.getD y ([], 0)).1.getD ((st.getD y ([], 0)).1.length - 2) "", (st.getD y ([], 0)).2, y))

theorem treeNode_eq (st : List (List String × ℕ)) (x : ℕ) : treeNode st x = (treeEdges st x).foldl (fun n e => n.transitionsAdd e.1 e.2.1 e.2.2)
    ⟨(st.getD x ([], 0)).1.getLast?.getD "", (st.getD x ([], 0)).2, (st.getD x ([], 0)).1, [], fun _ => []⟩ := by
  unfold treeNode treeEdges
  simp only [List.foldl_map, List.foldl_filter, decide_eq_true_eq]

theorem mem_treeEdges {ts : List (List String × ℕ)} {x : ℕ} (hx : x < (labels ts).length) {a : String} {c y : ℕ} :
    (a, c, y) ∈ treeEdges (sortStates (countPrefixes ts)) x ↔
      y < (labels ts).length ∧ (∃ o, lab ts y = lab ts x ++ [a, o]) ∧ c = prefixCount ts (lab ts y) := by
  have hlen : (sortStates (countPrefixes ts)).length = (labels ts).length := by rw [sortStates_eq, List.length_map]
  unfold treeEdges
  simp only [List.mem_map, List.mem_filter, List.mem_range, decide_eq_true_eq, hlen, Prod.mk.injEq]
  rw [getD_sorted ts x hx]
  constructor
  · rintro ⟨y', ⟨⟨hy, _⟩, h1, h2⟩, h3, h4, rfl⟩
    rw [getD_sorted ts _ hy] at h1 h2 h3 h4
    dsimp only at h1 h2 h3 h4
    refine ⟨hy, ?_, h4.symm⟩
    have e := List.take_append_drop ((lab ts y').length - 2) (lab ts y')
    rw [h2] at e
    have hl : ((lab ts y').drop ((lab ts y').length - 2)).length = 2 := by rw [List.length_drop]; omega
    obtain ⟨u, v, huv⟩ := List.length_eq_two.1 hl
    rw [huv] at e
    have hu : u = a := by
      rw [← h3]
      rw [List.getD_eq_getElem?_getD, ← e]
      have : (lab ts x ++ [u, v]).length - 2 = (lab ts x).length := by simp
      rw [this]
      simp
    exact ⟨v, by rw [← e, hu]⟩
  · rintro ⟨hy, ⟨o, ho⟩, hc⟩
    refine ⟨y, ⟨⟨hy, ?_⟩, ?_⟩, ?_⟩
    · refine lab_lt hx hy (ho ▸ List.prefix_append _ _) ?_
      rw [ho]
      intro e
      have := congrArg List.length e
      simp at this
    · rw [getD_sorted ts _ hy]
      dsimp only
      rw [ho]
      simp
    · rw [getD_sorted ts _ hy]
      dsimp only
      refine ⟨?_, hc.symm, rfl⟩
      rw [ho, List.getD_eq_getElem?_getD]
      have : (lab ts x ++ [a, o]).length - 2 = (lab ts x).length := by simp
      rw [this]
      simp

section
variable (ts : List (List String × ℕ)) (obs acts : List String)

theorem build_size : (build ts obs acts).size = (labels ts).length := by
  show (sortStates (countPrefixes ts)).length = _
  rw [sortStates_eq, List.length_map]

theorem build_node (x : ℕ) : (build ts obs acts).node x = treeNode (sortStates (countPrefixes ts)) x := rfl

theorem mem_initial {x : ℕ} : x ∈ (build ts obs acts).initial ↔ x < (labels ts).length ∧ (lab ts x).length = 1 := by
  show x ∈ (List.range (sortStates (countPrefixes ts)).length).filter (fun i => ((sortStates (countPrefixes ts)).getD i ([], 0)).1.length = 1) ↔ _
  rw [List.mem_filter, List.mem_range]
  have hlen : (sortStates (countPrefixes ts)).length = (labels ts).length := by rw [sortStates_eq, List.length_map]
  rw [hlen]
  constructor
  · rintro ⟨h1, h2⟩
    rw [getD_sorted ts x h1] at h2
    exact ⟨h1, by simpa using h2⟩
  · rintro ⟨h1, h2⟩
    rw [getD_sorted ts x h1]
    exact ⟨h1, by simpa using h2⟩

theorem build_node_spec {x : ℕ} : ((build ts obs acts).node x).acts.Nodup ∧
    (∀ a, a ∈ ((build ts obs acts).node x).acts ↔ ∃ e ∈ treeEdges (sortStates (countPrefixes ts)) x, e.1 = a) ∧
    (∀ a, ((build ts obs acts).node x).trans a = ((treeEdges (sortStates (countPrefixes ts)) x).filter (fun e => e.1 = a)).map (·.2)) := by
  rw [build_node, treeNode_eq]
  obtain ⟨h1, h2, h3, _⟩ := addTransitions_spec (treeEdges (sortStates (countPrefixes ts)) x)
    ⟨((sortStates (countPrefixes ts)).getD x ([], 0)).1.getLast?.getD "", ((sortStates (countPrefixes ts)).getD x ([], 0)).2,
      ((sortStates (countPrefixes ts)).getD x ([], 0)).1, [], fun _ => []⟩ List.nodup_nil (fun _ _ => rfl)
  refine ⟨h1, fun a => ?_, fun a => h3 a⟩
  rw [h2]
  simp

theorem build_label {x : ℕ} (hx : x < (labels ts).length) : ((build ts obs acts).node x).label = lab ts x ∧
    ((build ts obs acts).node x).counter = prefixCount ts (lab ts x) ∧ ((build ts obs acts).node x).obs = (lab ts x).getLast?.getD "" := by
  rw [build_node, treeNode_eq]
  obtain ⟨_, _, _, h4, h5, h6⟩ := addTransitions_spec (treeEdges (sortStates (countPrefixes ts)) x)
    ⟨((sortStates (countPrefixes ts)).getD x ([], 0)).1.getLast?.getD "", ((sortStates (countPrefixes ts)).getD x ([], 0)).2,
      ((sortStates (countPrefixes ts)).getD x ([], 0)).1, [], fun _ => []⟩ List.nodup_nil (fun _ _ => rfl)
  rw [getD_sorted ts x hx] at *
  exact ⟨h6, h5, h4⟩

theorem treeEdges_out {x : ℕ} (hx : (labels ts).length ≤ x) : treeEdges (sortStates (countPrefixes ts)) x = [] := by
  have hlen : (sortStates (countPrefixes ts)).length = (labels ts).length := by rw [sortStates_eq, List.length_map]
  have h : (List.range (sortStates (countPrefixes ts)).length).filter (fun y => decide (x < y)) = [] := by
    rw [List.filter_eq_nil_iff]
    intro y hy
    rw [hlen, List.mem_range] at hy
    simp only [decide_eq_true_eq]
    omega
  unfold treeEdges
  rw [h]
  rfl

/-- The transitions of the tree. -/
theorem mem_tree_trans {x : ℕ} {a : String} {c y : ℕ} : (a ∈ ((build ts obs acts).node x).acts ∧ (c, y) ∈ ((build ts obs acts).node x).trans a) ↔
    x < (labels ts).length ∧ y < (labels ts).length ∧ (∃ o, lab ts y = lab ts x ++ [a, o]) ∧ c = prefixCount ts (lab ts y) := by
  obtain ⟨_, h2, h3⟩ := build_node_spec ts obs acts (x := x)
  rw [h2, h3]
  by_cases hx : x < (labels ts).length
  · simp only [List.mem_map, List.mem_filter, decide_eq_true_eq]
    constructor
    · rintro ⟨_, ⟨⟨a', c', y'⟩, ⟨h, rfl⟩, e⟩⟩
      cases e
      exact ⟨hx, (mem_treeEdges hx).1 h⟩
    · rintro ⟨_, h⟩
      have := (mem_treeEdges hx).2 h
      exact ⟨⟨_, this, rfl⟩, _, ⟨this, rfl⟩, rfl⟩
  · rw [treeEdges_out ts (not_lt.1 hx)]
    simp [hx]

end

/-! ### The invariant holds for the tree -/

/-- What is needed of the traces and of the two alphabets. -/
structure Good (ts : List (List String × ℕ)) (obs acts : List String) : Prop where
  pos : ∀ t ∈ ts, 0 < t.2
  obsIn : ∀ t ∈ ts, ∀ (k : ℕ) (o : String), t.1[2 * k]? = some o → o ∈ obs
  actsIn : ∀ t ∈ ts, ∀ (k : ℕ) (a : String), t.1[2 * k + 1]? = some a → a ∈ acts
  nodup : obs.Nodup

section
variable {ts : List (List String × ℕ)} {obs acts : List String}

theorem prefixCount_pos (h : ∀ t ∈ ts, 0 < t.2) {p : List String} (hp : ∃ t ∈ ts, p <+: t.1) : 0 < prefixCount ts p := by
  obtain ⟨t, ht, hp⟩ := hp
  have h1 := List.single_le_sum (l := (ts.filter (fun t => decide (p <+: t.1))).map (·.2)) (by simp) t.2
    (List.mem_map.2 ⟨t, List.mem_filter.2 ⟨ht, by simpa using hp⟩, rfl⟩)
  have := h t ht
  unfold prefixCount
  omega

theorem lab_ne_nil {x : ℕ} (hx : x < (labels ts).length) : lab ts x ≠ [] := by
  have := (mem_labels.1 (lab_mem hx)).1
  intro e
  rw [e] at this
  simp at this

theorem lab_last {x y : ℕ} (hy : y < (labels ts).length) {a o : String} (e : lab ts y = lab ts x ++ [a, o]) :
    ((build ts obs acts).node y).obs = o := by
  rw [(build_label ts obs acts hy).2.2, e]
  simp

/-- The transitions of the tree. -/
theorem tree_arc {x : ℕ} {a o : String} {c y : ℕ} : Arc (build ts obs acts) x a o c y ↔
    x < (labels ts).length ∧ y < (labels ts).length ∧ lab ts y = lab ts x ++ [a, o] ∧ c = prefixCount ts (lab ts y) := by
  unfold Arc
  rw [← and_assoc, mem_tree_trans]
  constructor
  · rintro ⟨⟨hx, hy, ⟨o', e⟩, hc⟩, ho⟩
    rw [lab_last hy e] at ho
    subst ho
    exact ⟨hx, hy, e, hc⟩
  · rintro ⟨hx, hy, e, hc⟩
    exact ⟨⟨hx, hy, ⟨o, e⟩, hc⟩, lab_last hy e⟩

theorem treeEdges_nodup (st : List (List String × ℕ)) (x : ℕ) : ((treeEdges st x).map (fun e => e.2.2)).Nodup := by
  unfold treeEdges
  rw [List.map_map]
  exact ((List.nodup_range.filter _).filter _).map (fun _ _ h => h)

theorem build_wf (G : Good ts obs acts) : (build ts obs acts).WF := by
  have harc : ∀ {x a} {q : ℕ × ℕ}, a ∈ ((build ts obs acts).node x).acts → q ∈ ((build ts obs acts).node x).trans a →
      x < (labels ts).length ∧ q.2 < (labels ts).length ∧ (∃ o, lab ts q.2 = lab ts x ++ [a, o]) ∧ q.1 = prefixCount ts (lab ts q.2) :=
    fun h1 h2 => (mem_tree_trans ts obs acts).1 ⟨h1, h2⟩
  constructor
  · intro x a q h1 h2
    rw [build_size]
    exact (harc h1 h2).2.1
  · intro x hx
    rw [build_size] at hx
    rw [List.eq_nil_iff_forall_not_mem]
    intro a ha
    rw [(build_node_spec ts obs acts).2.1, treeEdges_out ts hx] at ha
    simp at ha
  · intro x
    exact (build_node_spec ts obs acts).1
  · intro x a ha
    have hn : (((build ts obs acts).node x).trans a).Nodup := by
      refine List.Nodup.of_map (·.2) ?_
      rw [(build_node_spec ts obs acts).2.2, List.map_map]
      exact ((List.filter_sublist (l := treeEdges (sortStates (countPrefixes ts)) x)).map _).nodup (treeEdges_nodup _ x)
    refine List.Nodup.map_on ?_ hn
    intro q hq q' hq' e
    obtain ⟨_, hy, ⟨o, ho⟩, hc⟩ := harc ha hq
    obtain ⟨_, hy', ⟨o', ho'⟩, hc'⟩ := harc ha hq'
    rw [lab_last hy ho, lab_last hy' ho'] at e
    subst e
    have e2 := lab_inj hy hy' (ho.trans ho'.symm)
    refine Prod.ext ?_ e2
    rw [hc, hc', e2]
  · intro x a ha
    obtain ⟨e, he, rfl⟩ := ((build_node_spec ts obs acts).2.1 _).1 ha
    rw [(build_node_spec ts obs acts).2.2]
    intro h
    rw [List.map_eq_nil_iff, List.filter_eq_nil_iff] at h
    exact h e he (by simp)
  · intro x a q h1 h2
    obtain ⟨_, hy, _, hc⟩ := harc h1 h2
    rw [hc]
    exact prefixCount_pos G.pos (mem_labels.1 (lab_mem hy)).2
  · intro x a ha
    obtain ⟨⟨_, c, y⟩, he, rfl⟩ := ((build_node_spec ts obs acts).2.1 _).1 ha
    have hx : x < (labels ts).length := by
      by_contra hx
      rw [treeEdges_out ts (not_lt.1 hx)] at he
      cases he
    obtain ⟨hy, ⟨o, e⟩, _⟩ := (mem_treeEdges hx).1 he
    obtain ⟨_, t, ht, s, hs⟩ := mem_labels.1 (lab_mem hy)
    have hodd := (mem_labels.1 (lab_mem hx)).1
    refine G.actsIn t ht ((lab ts x).length / 2) _ ?_
    rw [← hs, e, show 2 * ((lab ts x).length / 2) + 1 = (lab ts x).length by omega]
    simp
  · intro x hx
    rw [build_size] at hx
    obtain ⟨hodd, t, ht, s, hs⟩ := mem_labels.1 (lab_mem hx)
    rw [(build_label ts obs acts hx).2.2]
    have hne := lab_ne_nil hx
    refine G.obsIn t ht ((lab ts x).length / 2) _ ?_
    rw [← hs, show 2 * ((lab ts x).length / 2) = (lab ts x).length - 1 by omega, List.getElem?_append_left (by omega), ← List.getLast?_eq_getElem?,
      List.getLast?_eq_some_getLast hne]
    rfl
  · exact G.nodup

theorem tree_look (G : Good ts obs acts) {x : ℕ} {a o : String} {c y : ℕ} : (build ts obs acts).look x (a, o) = some (c, y) ↔
    x < (labels ts).length ∧ y < (labels ts).length ∧ lab ts y = lab ts x ++ [a, o] ∧ c = prefixCount ts (lab ts y) := by
  rw [← arc_iff (build_wf G), tree_arc]

/-- The first state of the sorted tree is an initial state. -/
theorem zero_initial (h : 0 < (labels ts).length) : 0 ∈ (build ts obs acts).initial := by
  rw [mem_initial]
  refine ⟨h, ?_⟩
  obtain ⟨hodd, t, ht, hp⟩ := mem_labels.1 (lab_mem h)
  have hne := lab_ne_nil h
  obtain ⟨o, l, e⟩ := List.exists_cons_of_ne_nil hne
  have hpre : [o] <+: lab ts 0 := by rw [e]; exact ⟨l, rfl⟩
  obtain ⟨x, hx, ex⟩ := exists_lab (ts := ts) (p := [o]) (mem_labels.2 ⟨rfl, t, ht, hpre.trans hp⟩)
  by_cases he : lab ts x = lab ts 0
  · rw [← he, ex]; rfl
  · have := lab_lt hx h (ex ▸ hpre) he
    omega

/-- The start of the loop. -/
theorem build_inv (G : Good ts obs acts) (h : 0 < (labels ts).length) :
    Inv (build ts obs acts) [0] ((build ts obs acts).initial.flatMap (fun i => ((build ts obs acts).node i).successors)) ∅ := by
  have W := build_wf G
  have h0 := zero_initial (obs := obs) (acts := acts) h
  have hR : ∀ x, x ∈ Roots (build ts obs acts) [0] ↔ x ∈ (build ts obs acts).initial := by
    intro x
    simp only [Roots, Set.mem_ofPred_eq, List.mem_singleton]
    constructor
    · rintro (rfl | h)
      · exact h0
      · exact h
    · exact Or.inr
  have hno : ∀ x y, Edge (build ts obs acts).look x y → y ∉ (build ts obs acts).initial := by
    rintro x y ⟨⟨a, o⟩, c, e⟩ hy
    obtain ⟨hx, _, e, _⟩ := (tree_look G).1 e
    have := ((mem_initial ts obs acts).1 hy).2
    rw [e] at this
    simp at this
  have huniq : ∀ {x x' k k' c c' y}, (build ts obs acts).look x k = some (c, y) → (build ts obs acts).look x' k' = some (c', y) → x = x' ∧ k = k' := by
    rintro x x' ⟨a, o⟩ ⟨a', o'⟩ c c' y e e'
    obtain ⟨hx, hy, e, _⟩ := (tree_look G).1 e
    obtain ⟨hx', _, e', _⟩ := (tree_look G).1 e'
    have := List.append_inj' (e.symm.trans e') rfl
    refine ⟨lab_inj hx hx' this.1, ?_⟩
    have h2 := this.2
    simp only [List.cons.injEq, and_true] at h2
    rw [h2.1, h2.2]
  constructor
  · exact W
  · constructor
    · simp
    · simp
    · intro x x' k k' c c' y _ _ _ e e'
      exact huniq e e'
    · rintro x y _ e hy
      exact absurd ((hR y).1 hy) (hno x y e)
  · simp
  · intro x hx
    rw [List.mem_singleton] at hx
    rw [hx, build_size]; exact h
  · simp
  · rw [List.nodup_flatMap]
    constructor
    · intro i _
      exact (List.perm_insertionSort _ _).nodup_iff.2 (List.nodup_dedup _)
    · have hn : (build ts obs acts).initial.Nodup := List.nodup_range.filter _
      refine hn.imp ?_
      intro i j hij
      rw [Function.onFun, List.disjoint_left]
      intro y h1 h2
      rw [mem_successors W] at h1 h2
      obtain ⟨k, c, e⟩ := h1
      obtain ⟨k', c', e'⟩ := h2
      exact hij (huniq e e').1
  · intro b hb
    obtain ⟨i, hi, e⟩ := List.mem_flatMap.1 hb
    rw [mem_successors W] at e
    refine ⟨fun h => hno i b e ((hR b).1 h), ?_, i, (hR i).2 hi, e⟩
    obtain ⟨k, c, e⟩ := e
    exact (look_key W e).2.2.2.1
  · intro i hi _ x _ e
    exact hno x i e hi
  · intro r hr y e
    rw [List.mem_singleton] at hr
    subst hr
    exact Or.inr (List.mem_flatMap.2 ⟨0, h0, (mem_successors W).2 e⟩)

/-- The words that can be read in the tree. -/
theorem tree_run (G : Good ts obs acts) : ∀ (w : List Key) {x z : ℕ}, x < (labels ts).length → (Reads (build ts obs acts) x w z ↔
    z < (labels ts).length ∧ lab ts z = lab ts x ++ w.flatMap (fun k => [k.1, k.2]))
  | [], x, z, hx => by
    rw [Reads, List.flatMap_nil, List.append_nil]
    constructor
    · rintro rfl; exact ⟨hx, rfl⟩
    · rintro ⟨hz, e⟩; exact (lab_inj hz hx e).symm
  | (a, o) :: w, x, z, hx => by
    rw [Reads]
    constructor
    · rintro ⟨c, y, e, h⟩
      obtain ⟨_, hy, e, _⟩ := tree_arc.1 e
      obtain ⟨hz, e2⟩ := (tree_run G w hy).1 h
      refine ⟨hz, ?_⟩
      rw [e2, e, List.flatMap_cons, List.append_assoc]
    · rintro ⟨hz, e⟩
      rw [List.flatMap_cons, ← List.append_assoc] at e
      obtain ⟨hodd, t, ht, hp⟩ := mem_labels.1 (lab_mem hz)
      have hodd' := (mem_labels.1 (lab_mem hx)).1
      obtain ⟨y, hy, ey⟩ := exists_lab (ts := ts) (p := lab ts x ++ [a, o]) (mem_labels.2 ⟨by rw [List.length_append]; simp; omega, t, ht,
        List.IsPrefix.trans (by rw [e]; exact List.prefix_append _ _) hp⟩)
      refine ⟨_, y, tree_arc.2 ⟨hx, hy, ey, rfl⟩, (tree_run G w hy).2 ⟨hz, ?_⟩⟩
      rw [e, ey]

end

end Jajapy.IOAlergia
