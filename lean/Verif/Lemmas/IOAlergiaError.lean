import Verif.Lemmas.AlergiaErrorLaw
import Verif.Props.IOAlergia
import Verif.Spec.IOAlergiaError

/-!
C116: the prefix tree of IOAlergia, in terms of the prefixes of the training traces.
-/

set_option autoImplicit false
set_option linter.unusedSectionVars false

namespace Jajapy.IOAlergia

open Relation Auto Spec.IOAlergia

variable {ts : List (List String × ℕ)} {obs acts : List String}

theorem prefixCount_zero {p : List String} (hp : ∀ t ∈ ts, ¬ p <+: t.1) : prefixCount ts p = 0 := by
  unfold prefixCount
  rw [List.filter_eq_nil_iff.2]
  · rfl
  · intro t ht
    simpa using hp t ht

theorem pcount_cons (t : List String × ℕ) (ts : List (List String × ℕ)) (u : List String) :
    prefixCount (t :: ts) u = (if u <+: t.1 then t.2 else 0) + prefixCount ts u := by
  unfold prefixCount
  by_cases h : u <+: t.1 <;> simp [h]

theorem prefix_next {p t : List String} {a : String} (hp : p.length % 2 = 1) (ht : t.length % 2 = 1) (h : p ++ [a] <+: t) :
    ∃ o, o ∈ t ∧ p ++ [a, o] <+: t := by
  obtain ⟨r, rfl⟩ := h
  cases r with
  | nil => simp at ht; omega
  | cons o r => exact ⟨o, by simp, ⟨r, by simp⟩⟩

theorem prefix_unique {p t : List String} {a o o' : String} (h : p ++ [a, o] <+: t) (h' : p ++ [a, o'] <+: t) : o = o' := by
  have := List.prefix_of_prefix_length_le h h' (by simp)
  have h2 := this.eq_of_length (by simp)
  have := List.append_cancel_left h2
  simpa using this

theorem sum_prefixCount (O : Finset String) {p : List String} {a : String} (hp : p.length % 2 = 1) :
    ∀ ts : List (List String × ℕ), (∀ t ∈ ts, t.1.length % 2 = 1) → (∀ t ∈ ts, ∀ o, p ++ [a, o] <+: t.1 → o ∈ O) →
      ∑ o ∈ O, prefixCount ts (p ++ [a, o]) = prefixCount ts (p ++ [a])
  | [], _, _ => by simp [prefixCount]
  | t :: ts, h1, h2 => by
    simp only [pcount_cons, Finset.sum_add_distrib]
    rw [sum_prefixCount O hp ts (fun t ht => h1 t (List.mem_cons_of_mem _ ht)) (fun t ht => h2 t (List.mem_cons_of_mem _ ht))]
    congr 1
    by_cases hpre : p ++ [a] <+: t.1
    · obtain ⟨o, -, ho⟩ := prefix_next hp (h1 t List.mem_cons_self) hpre
      rw [if_pos hpre, Finset.sum_eq_single_of_mem o (h2 t List.mem_cons_self o ho), if_pos ho]
      intro o' _ hne
      rw [if_neg]
      exact fun h => hne (prefix_unique h ho)
    · rw [if_neg hpre]
      refine Finset.sum_eq_zero (fun o _ => ?_)
      rw [if_neg]
      intro h
      exact hpre (List.IsPrefix.trans ⟨[o], by simp⟩ h)

theorem tree_seen (G : Good ts obs acts) {x : ℕ} (hx : x < (labels ts).length) (a o : String) :
    seen (build ts obs acts) x a o = prefixCount ts (lab ts x ++ [a, o]) := by
  have hodd := (mem_labels.1 (lab_mem hx)).1
  by_cases hp : ∃ t ∈ ts, lab ts x ++ [a, o] <+: t.1
  · obtain ⟨y, hy, e⟩ := exists_lab (ts := ts) (p := lab ts x ++ [a, o]) (mem_labels.2 ⟨by simp; omega, hp⟩)
    rw [seen_of_arc (build_wf G) (tree_arc.2 ⟨hx, hy, e, rfl⟩), e]
  · push Not at hp
    rw [prefixCount_zero hp]
    unfold seen
    rw [List.filter_eq_nil_iff.2]
    · rfl
    · rintro ⟨c, y⟩ hq ho
      have hacts : a ∈ ((build ts obs acts).node x).acts := by
        obtain ⟨-, h2, h3⟩ := build_node_spec ts obs acts (x := x)
        rw [h3] at hq
        obtain ⟨e, he, -⟩ := List.mem_map.1 hq
        rw [List.mem_filter] at he
        exact (h2 a).2 ⟨e, he.1, by simpa using he.2⟩
      obtain ⟨-, hy, e, -⟩ := tree_arc.1 (⟨hacts, hq, by simpa using ho⟩ : Arc (build ts obs acts) x a o c y)
      obtain ⟨-, t, ht, htp⟩ := mem_labels.1 (lab_mem hy)
      exact hp t ht (e ▸ htp)

/-- The number of traces that start with the label of the state and the action. -/
theorem tree_total (G : Good ts obs acts) (hodd : ∀ t ∈ ts, t.1.length % 2 = 1) {x : ℕ} (hx : x < (labels ts).length) (a : String) :
    total (build ts obs acts) x a = prefixCount ts (lab ts x ++ [a]) := by
  classical
  let O : Finset String := (ts.flatMap (fun t => t.1)).toFinset ∪ (((build ts obs acts).node x).trans a).toFinset.image
    (fun q => ((build ts obs acts).node q.2).obs)
  rw [← sum_prefixCount O (mem_labels.1 (lab_mem hx)).1 ts hodd, ← sum_seen (O := O)]
  · exact Finset.sum_congr rfl (fun o _ => tree_seen G hx a o)
  · intro q hq
    exact Finset.mem_union_right _ (Finset.mem_image.2 ⟨q, List.mem_toFinset.2 hq, rfl⟩)
  · intro t ht o ho
    refine Finset.mem_union_left _ (List.mem_toFinset.2 (List.mem_flatMap.2 ⟨t, ht, ho.subset (by simp)⟩))

/-- The test in the prefix tree. -/
theorem tree_compat {bound : ℕ → ℕ → ℕ → ℕ → Py Bool} (hb : ∀ a b c d, ∃ v, bound a b c d = .ok v) (G : Good ts obs acts) {x y : ℕ}
    (hy : y < (labels ts).length) :
    ∃ v, compatTest bound (build ts obs acts) x y = .ok v ∧ (v = true ↔ AlikeFutures bound (build ts obs acts) x y) := by
  obtain ⟨v, h1, h2⟩ := compatible_spec hb (build_wf G) (fun x => x < (labels ts).length) (fun x => (labels ts).length - 1 - x)
    (by
      rintro x z hx ⟨⟨a, o⟩, c, e⟩
      obtain ⟨-, hz, e, -⟩ := (tree_look G).1 e
      have : x < z := by
        have h1 : lab ts x = (labels ts)[x] := by unfold lab; rw [List.getD_eq_getElem _ _ hx]
        have h2 : lab ts z = (labels ts)[z] := by unfold lab; rw [List.getD_eq_getElem _ _ hz]
        refine labels_lt hx hz ?_ ?_
        · rw [← h1, ← h2, e]; exact List.prefix_append _ _
        · rw [← h1, ← h2, e]; simp
      exact ⟨hz, by omega⟩)
    ((build ts obs acts).size + 1) (some x) (some y) (by rintro j e; cases e; rw [build_size]; exact ⟨hy, by omega⟩) (by omega)
  refine ⟨v, by unfold compatTest; rw [h1]; rfl, h2.trans ?_⟩
  constructor
  · exact fun h => h x y rfl rfl
  · rintro h i j e e'
    cases e; cases e'; exact h

theorem letters_append (w w' : List (String × String)) : letters (w ++ w') = letters w ++ letters w' := by simp [letters]

theorem letters_last (u v : List String) (w : List (String × String)) (h : u.getLast? = v.getLast?) :
    (u ++ letters w).getLast? = (v ++ letters w).getLast? := by
  rw [List.getLast?_append, List.getLast?_append, h]

variable {S : TSet String}

theorem training_of (hS : S.Countable) (hodd : ∀ t ∈ S.sequences, t.length % 2 = 1) (hne : S.sequences ≠ []) : Training S :=
  ⟨hne, hS.1.1, hodd, fun n hn => hS.2.1 n hn⟩

/-- The answer of the test, in terms of the training traces. -/
theorem answers_iff {bound : ℕ → ℕ → ℕ → ℕ → Py Bool} (hb : ∀ a b c d, ∃ v, bound a b c d = .ok v) (hS : Training S) {u v : List String}
    {b : Bool} (hlast : u.getLast? = v.getLast?) (h : Answers bound S u v b) :
    u.length % 2 = 1 ∧ v.length % 2 = 1 ∧
    (b = true ↔ ∀ w a o, 0 < prefixCount (S.sequences.zip S.times) (u ++ letters w ++ [a, o]) →
      0 < prefixCount (S.sequences.zip S.times) (v ++ letters w ++ [a, o]) →
      bound (prefixCount (S.sequences.zip S.times) (u ++ letters w ++ [a, o])) (prefixCount (S.sequences.zip S.times) (u ++ letters w ++ [a]))
        (prefixCount (S.sequences.zip S.times) (v ++ letters w ++ [a, o])) (prefixCount (S.sequences.zip S.times) (v ++ letters w ++ [a]))
        = .ok true) := by
  obtain ⟨A, x, y, ⟨acts, obs, e, rfl⟩, hx, hy, rfl, rfl, hc⟩ := h
  obtain ⟨G, -, -⟩ := training_good hS e
  generalize hts : S.sequences.zip S.times = ts at *
  have hto : ∀ t ∈ ts, t.1.length % 2 = 1 := by
    intro t ht
    rw [← hts] at ht
    exact hS.odd _ (List.of_mem_zip ht).1
  rw [build_size] at hx hy
  have ex := (build_label ts (obs.insertionSort (· ≤ ·)) (acts.insertionSort (· ≤ ·)) hx).1
  have ey := (build_label ts (obs.insertionSort (· ≤ ·)) (acts.insertionSort (· ≤ ·)) hy).1
  rw [ex, ey] at hlast ⊢
  have ox := (mem_labels.1 (lab_mem hx)).1
  have oy := (mem_labels.1 (lab_mem hy)).1
  refine ⟨ox, oy, ?_⟩
  obtain ⟨v', h1, h2⟩ := tree_compat hb G (x := x) hy
  rw [hc] at h1
  injection h1 with h1
  subst h1
  rw [h2]
  have hmem : ∀ {p : List String}, p.length % 2 = 1 → 0 < prefixCount ts p → ∃ z < (labels ts).length, lab ts z = p := by
    intro p hp hpos
    refine exists_lab (mem_labels.2 ⟨hp, ?_⟩)
    by_contra hno
    push Not at hno
    rw [prefixCount_zero hno] at hpos
    exact lt_irrefl _ hpos
  have hodd : ∀ (p : List String) (w : List (String × String)), p.length % 2 = 1 → (p ++ letters w).length % 2 = 1 := by
    intro p w hp
    induction w generalizing p with
    | nil => simpa [letters] using hp
    | cons k w ih =>
      have := ih (p ++ [k.1, k.2]) (by simp; omega)
      simpa [letters] using this
  have hpre : ∀ (p q : List String), 0 < prefixCount ts (p ++ q) → 0 < prefixCount ts p := by
    intro p q h
    by_contra h0
    have h0 : prefixCount ts p = 0 := by omega
    have : ∀ t ∈ ts, ¬ p ++ q <+: t.1 := by
      intro t ht hp
      have := prefixCount_pos G.pos ⟨t, ht, (List.prefix_append p q).trans hp⟩
      omega
    rw [prefixCount_zero this] at h
    exact lt_irrefl _ h
  constructor
  · intro hA w a o p1 p2
    obtain ⟨z1, hz1, e1⟩ := hmem (hodd _ w ox) (hpre _ _ p1)
    obtain ⟨z2, hz2, e2⟩ := hmem (hodd _ w oy) (hpre _ _ p2)
    obtain ⟨y1, hy1, f1⟩ := hmem (p := lab ts x ++ letters w ++ [a, o]) (by have := hodd _ w ox; simp at this ⊢; omega) p1
    obtain ⟨y2, hy2, f2⟩ := hmem (p := lab ts y ++ letters w ++ [a, o]) (by have := hodd _ w oy; simp at this ⊢; omega) p2
    have := (hA w z1 z2 ((tree_run G w hx).2 ⟨hz1, e1⟩) ((tree_run G w hy).2 ⟨hz2, e2⟩)).2 a o _ y1 _ y2
      (tree_arc.2 ⟨hz1, hy1, by rw [f1, e1], rfl⟩) (tree_arc.2 ⟨hz2, hy2, by rw [f2, e2], rfl⟩)
    rw [tree_total G hto hz1, tree_total G hto hz2, f1, f2, e1, e2] at this
    exact this
  · intro hA w z1 z2 r1 r2
    obtain ⟨hz1, e1⟩ := (tree_run G w hx).1 r1
    obtain ⟨hz2, e2⟩ := (tree_run G w hy).1 r2
    refine ⟨?_, ?_⟩
    · rw [(build_label ts _ _ hz1).2.2, (build_label ts _ _ hz2).2.2, e1, e2]
      exact congrArg (Option.getD · "") (letters_last _ _ w hlast)
    · intro a o c1 y1 c2 y2 a1 a2
      obtain ⟨-, hy1, f1, g1⟩ := tree_arc.1 a1
      obtain ⟨-, hy2, f2, g2⟩ := tree_arc.1 a2
      rw [tree_total G hto hz1, tree_total G hto hz2, g1, g2, f1, f2, e1, e2]
      refine hA w a o ?_ ?_
      · have := prefixCount_pos G.pos (mem_labels.1 (lab_mem hy1)).2
        rwa [f1, e1] at this
      · have := prefixCount_pos G.pos (mem_labels.1 (lab_mem hy2)).2
        rwa [f2, e2] at this

end Jajapy.IOAlergia
