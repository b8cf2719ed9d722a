import Verif.Model.Print
import Verif.Spec.Print
import Verif.Lemmas.Files
import Mathlib.Data.List.FinRange

/-!
Lemmas about printed models: cutting a text at a character, the lines of a text, the lines of `modelText`.
-/

namespace Jajapy
namespace Print

open Files

/-! ### Cutting at a character -/

theorem cut_left {α : Type} {c : α} {x y a b : List α} (hx : c ∉ x) (hy : c ∉ y) (h : x ++ c :: a = y ++ c :: b) : x = y ∧ a = b := by
  induction x generalizing y with
  | nil =>
    cases y with
    | nil => exact ⟨rfl, (List.cons_eq_cons.1 h).2⟩
    | cons d y => exact absurd (List.cons_eq_cons.1 h).1 (fun e => hy (by simp [e]))
  | cons d x ih =>
    cases y with
    | nil => exact absurd (List.cons_eq_cons.1 h).1 (fun e => hx (by simp [e]))
    | cons e y =>
      obtain ⟨h1, h2⟩ := List.cons_eq_cons.1 h
      obtain ⟨h3, h4⟩ := ih (fun hc => hx (by simp [hc])) (fun hc => hy (by simp [hc])) h2
      exact ⟨by rw [h1, h3], h4⟩

theorem cut_right {α : Type} {c : α} {x y a b : List α} (hx : c ∉ x) (hy : c ∉ y) (h : a ++ c :: x = b ++ c :: y) : a = b ∧ x = y := by
  have h' := congrArg List.reverse h
  simp only [List.reverse_append, List.reverse_cons, List.append_assoc, List.singleton_append] at h'
  obtain ⟨h1, h2⟩ := cut_left (by simpa using hx) (by simpa using hy) h'
  exact ⟨List.reverse_inj.1 h2, List.reverse_inj.1 h1⟩

theorem reprNat_notMem {c : Char} (hc : isDigit c = false) (k : ℕ) : c ∉ reprNat k := by
  intro h
  rw [(reprNat_spec k).2.1 c h] at hc
  cases hc

theorem reprNat_inj {i j : ℕ} (h : reprNat i = reprNat j) : i = j := by
  rw [← (reprNat_spec i).2.2, h, (reprNat_spec j).2.2]

variable {K : Type} [Field K] [LinearOrder K] (IO : RoundIO K)

theorem repr_notMem {c : Char} (hc : isNumChar c = false) {x : K} (hx : IO.dom x) : c ∉ IO.repr x := by
  intro h
  rw [IO.repr_chars x hx c h] at hc
  cases hc

theorem repr_inj {x y : K} (hx : IO.dom x) (hy : IO.dom y) (h : IO.repr x = IO.repr y) : x = y := by
  have := IO.parse_repr x hx
  rw [h, IO.parse_repr y hy] at this
  exact (Option.some.inj this).symm

/-! ### Lines -/

theorem textLines_cons (l t : List Char) (h : '\n' ∉ l) : Spec.textLines (l ++ '\n' :: t) = l :: Spec.textLines t := by
  unfold Spec.textLines
  exact List.splitOn_append_cons_self_of_not_mem h t

theorem textLines_lines (L : List (List Char)) (h : ∀ l ∈ L, '\n' ∉ l) : Spec.textLines (lines L) = L ++ [[]] := by
  induction L with
  | nil => rfl
  | cons l L ih =>
    have : lines (l :: L) = l ++ '\n' :: lines L := by simp [lines]
    rw [this, textLines_cons l _ (h l (by simp)), ih (fun x hx => h x (by simp [hx]))]
    rfl

theorem lines_append (a b : List (List Char)) : lines (a ++ b) = lines a ++ lines b := by simp [lines]

theorem lines_flatMap {α : Type} (l : List α) (f : α → List (List Char)) : lines (l.flatMap f) = l.flatMap (fun a => lines (f a)) := by
  induction l with
  | nil => rfl
  | cons a l ih => rw [List.flatMap_cons, lines_append, ih, List.flatMap_cons]

theorem lines_if (p : Prop) [Decidable p] (l : List Char) : lines (if p then [l] else []) = if p then l ++ ['\n'] else [] := by
  split_ifs <;> simp [lines]

theorem flatMap_if {α β : Type} (l : List α) (p : α → Prop) [DecidablePred p] (f : α → β) :
    l.flatMap (fun a => if p a then [f a] else []) = (l.filter (fun a => decide (p a))).map f := by
  induction l with
  | nil => rfl
  | cons a l ih =>
    rw [List.flatMap_cons, ih, List.filter_cons]
    by_cases h : p a <;> simp [h]

/-! ### The first two lines -/

/-- The second line of the text. -/
def initialLine {n : ℕ} (init : Fin n → K) : List Char :=
  match (List.finRange n).find? (fun i => init i = 1) with
  | some i => "Initial state: s".toList ++ reprNat i
  | none => ("Initial state: ".toList ++ initialItems IO init).dropLast.dropLast

theorem dropLast_append_two {α : Type} (a b : List α) (h : 2 ≤ b.length) :
    (a ++ b).dropLast.dropLast = a ++ b.dropLast.dropLast := by
  rw [List.dropLast_append_of_ne_nil (by rintro rfl; simp at h),
    List.dropLast_append_of_ne_nil (by intro h'; have := congrArg List.length h'; simp at this; omega)]

theorem headText_eq {n : ℕ} (name : List Char) (init : Fin n → K) :
    headText IO name init = lines ["Name: ".toList ++ name, initialLine IO init] := by
  unfold headText initialLine
  cases (List.finRange n).find? (fun i => decide (init i = 1)) with
  | some i => simp [lines]
  | none =>
    simp only
    rw [List.append_assoc ("Name: ".toList ++ name ++ ['\n']), dropLast_append_two _ _ (by simp)]
    simp [lines]

theorem modelText_eq {n : ℕ} (name : List Char) (init : Fin n → K) (state : Fin n → List Char) (block : Fin n → List (List Char))
    (h : ∀ i, state i = lines (block i)) :
    modelText IO name init state =
      lines (["Name: ".toList ++ name, initialLine IO init] ++ (List.finRange n).flatMap (fun i => block i ++ [[]]) ++ [[]]) := by
  unfold modelText
  rw [headText_eq, lines_append, lines_append, lines_flatMap]
  have e : (fun i => state i ++ ['\n']) = (fun i => lines (block i ++ [[]])) := by
    funext i
    rw [h, lines_append]
    rfl
  rw [e]
  rfl

theorem initialItems_chars {n : ℕ} (init : Fin n → K) (hd : ∀ i, IO.dom (init i)) : '\n' ∉ initialItems IO init := by
  unfold initialItems
  intro h
  obtain ⟨i, _, hi⟩ := List.mem_flatMap.1 h
  split_ifs at hi
  · rcases List.mem_cons.1 hi with hi | hi
    · exact absurd hi (by decide)
    · simp only [List.mem_append] at hi
      rcases hi with ((hi | hi) | hi) | hi
      · exact reprNat_notMem (by decide) _ hi
      · exact absurd hi (by decide)
      · exact repr_notMem IO (by decide) (IO.round_dom _ _ (hd i)) hi
      · exact absurd hi (by decide)
  · cases hi

theorem initialLine_chars {n : ℕ} (init : Fin n → K) (hd : ∀ i, IO.dom (init i)) : '\n' ∉ initialLine IO init := by
  unfold initialLine
  split
  · intro h
    rcases List.mem_append.1 h with h | h
    · exact absurd h (by decide)
    · exact reprNat_notMem (by decide) _ h
  · intro h
    rcases List.mem_append.1 (List.mem_of_mem_dropLast (List.mem_of_mem_dropLast h)) with h | h
    · exact absurd h (by decide)
    · exact initialItems_chars IO init hd h

theorem initialLine_head {n : ℕ} (init : Fin n → K) : (initialLine IO init).head? = some 'I' := by
  unfold initialLine
  split
  · rfl
  · rw [show "Initial state: ".toList = "Initial state".toList ++ [':', ' '] from rfl, List.append_assoc,
      dropLast_append_two _ _ (by simp)]
    rfl

/-! ### The text of a model whose states are blocks of lines -/

/-- The lines of a state: a first line that starts with `-`, then lines that are not empty and do not start with `-`. -/
structure Block {n : ℕ} (state : Fin n → List Char) (head : Fin n → List Char) (body : Fin n → List (List Char)) : Prop where
  text : ∀ i, state i = lines (head i :: body i)
  head_ok : ∀ i, '\n' ∉ head i ∧ (head i).head? = some '-'
  body_ok : ∀ i, ∀ l ∈ body i, '\n' ∉ l ∧ l ≠ [] ∧ l.head? ≠ some '-'
  inj : Function.Injective head

variable {n : ℕ} {name : List Char} {init : Fin n → K} {state head : Fin n → List Char} {body : Fin n → List (List Char)}

theorem textLines_model (hn : '\n' ∉ name) (hd : ∀ i, IO.dom (init i)) (B : Block state head body) :
    Spec.textLines (modelText IO name init state) =
      ["Name: ".toList ++ name, initialLine IO init] ++ (List.finRange n).flatMap (fun i => head i :: body i ++ [[]]) ++ [[], []] := by
  rw [modelText_eq IO name init state _ B.text, textLines_lines]
  · simp
  · intro l hl
    simp only [List.mem_append, List.mem_flatMap, List.mem_cons, List.not_mem_nil, or_false] at hl
    rcases hl with ((rfl | rfl) | ⟨i, _, (rfl | hl) | rfl⟩) | rfl
    · intro h
      rcases List.mem_append.1 h with h | h
      · exact absurd h (by decide)
      · exact hn h
    · exact initialLine_chars IO init hd
    · exact (B.head_ok i).1
    · exact (B.body_ok i l hl).1
    · simp
    · simp

theorem section_model (hn : '\n' ∉ name) (hd : ∀ i, IO.dom (init i)) (B : Block state head body) (i : Fin n) :
    Spec.sectionOf (modelText IO name init state) (head i) = body i := by
  unfold Spec.sectionOf
  rw [textLines_model IO hn hd B]
  obtain ⟨l1, l2, hl⟩ := List.append_of_mem (List.mem_finRange i)
  have hnd : (l1 ++ i :: l2).Nodup := hl ▸ List.nodup_finRange n
  have hi : i ∉ l1 := fun h => (List.nodup_append.1 hnd).2.2 i h i (by simp) rfl
  have e : ["Name: ".toList ++ name, initialLine IO init] ++ (List.finRange n).flatMap (fun i => head i :: body i ++ [[]]) ++ [[], []] =
      (["Name: ".toList ++ name, initialLine IO init] ++ l1.flatMap (fun i => head i :: body i ++ [[]])) ++
        (head i :: (body i ++ [] :: (l2.flatMap (fun i => head i :: body i ++ [[]]) ++ [[], []]))) := by
    rw [hl]; simp
  rw [e, List.dropWhile_append_of_pos, List.dropWhile_cons_of_neg (by simp), List.tail_cons,
    List.takeWhile_append_of_pos (fun l h => by simpa using (B.body_ok i l h).2.1), List.takeWhile_cons_of_neg (by simp), List.append_nil]
  intro l hl'
  simp only [decide_eq_true_eq]
  rintro rfl
  simp only [List.mem_append, List.mem_flatMap, List.mem_cons, List.not_mem_nil, or_false] at hl'
  have h0 := (B.head_ok i).2
  rcases hl' with (h | h) | ⟨j, hj, (h | h) | h⟩
  · rw [h] at h0; exact absurd h0 (by simp)
  · rw [h, initialLine_head] at h0; exact absurd h0 (by decide)
  · exact hi (B.inj h ▸ hj)
  · exact (B.body_ok j _ h).2.2 h0
  · rw [h] at h0; cases h0

theorem head_mem (hn : '\n' ∉ name) (hd : ∀ i, IO.dom (init i)) (B : Block state head body) {l : List Char} (hl : l.head? = some '-') :
    l ∈ Spec.textLines (modelText IO name init state) ↔ ∃ i, l = head i := by
  rw [textLines_model IO hn hd B]
  simp only [List.mem_append, List.mem_flatMap, List.mem_cons, List.not_mem_nil, or_false, List.mem_finRange, true_and]
  constructor
  · rintro (((h | h) | ⟨j, (h | h) | h⟩) | h | h)
    · rw [h] at hl; exact absurd hl (by simp)
    · rw [h, initialLine_head] at hl; exact absurd hl (by decide)
    · exact ⟨j, h⟩
    · exact absurd hl (B.body_ok j _ h).2.2
    all_goals (rw [h] at hl; cases hl)
  · rintro ⟨i, rfl⟩
    exact .inl (.inr ⟨i, .inl (.inl rfl)⟩)

theorem first_lines (hn : '\n' ∉ name) (hd : ∀ i, IO.dom (init i)) (B : Block state head body) :
    (Spec.textLines (modelText IO name init state))[0]? = some ("Name: ".toList ++ name) ∧
    (Spec.textLines (modelText IO name init state))[1]? = some (initialLine IO init) := by
  rw [textLines_model IO hn hd B]
  exact ⟨rfl, rfl⟩

/-! ### The initial distribution -/

theorem initialLine_one [IsStrictOrderedRing K] {i : Fin n} (hp : ∀ s, 0 ≤ init s) (hs : ∑ s, init s = 1) (hi : init i = 1) :
    initialLine IO init = "Initial state: s".toList ++ reprNat i ∧ ∀ s, s ≠ i → init s = 0 := by
  have hz : ∀ s, s ≠ i → init s = 0 := by
    intro s h
    have := Finset.sum_eq_zero_iff_of_nonneg (s := Finset.univ.erase i) (f := init) (fun s _ => hp s)
    have h2 := Finset.add_sum_erase Finset.univ init (Finset.mem_univ i)
    exact this.1 (by rw [hs, hi] at h2; linarith) s (by simp [h])
  refine ⟨?_, hz⟩
  unfold initialLine
  split
  · rename_i j h
    have := List.find?_some h
    have hj : init j = 1 := by simpa using this
    by_cases e : j = i
    · rw [e]
    · rw [hz j e] at hj; exact absurd hj (by simp)
  · rename_i h
    exact absurd hi (by simpa using List.find?_eq_none.1 h i (List.mem_finRange i))

/-- An item of the second line. -/
def item (init : Fin n → K) (i : Fin n) : List Char := 's' :: (reprNat i ++ ": ".toList ++ IO.repr (IO.round 3 (init i)))

/-- The states whose initial probability is shown. -/
def shown (init : Fin n → K) : List (Fin n) := (List.finRange n).filter (fun i => decide (1 / 1000 ≤ init i))

theorem initialItems_eq (init : Fin n → K) : initialItems IO init = (shown init).flatMap (fun i => item IO init i ++ ", ".toList) := by
  unfold initialItems shown
  induction List.finRange n with
  | nil => rfl
  | cons a l ih =>
    rw [List.flatMap_cons, ih, List.filter_cons]
    by_cases h : 1 / 1000 ≤ init a
    · rw [if_pos h, if_pos (by simpa using h), List.flatMap_cons]
      simp [item]
    · rw [if_neg h, if_neg (by simpa using h)]
      rfl

theorem drop_comma {α : Type} (l : List α) (f : α → List Char) (h : l ≠ []) :
    (l.flatMap (fun a => f a ++ ", ".toList)).dropLast.dropLast = List.intercalate ", ".toList (l.map f) := by
  induction l with
  | nil => exact absurd rfl h
  | cons a l ih =>
    cases l with
    | nil => simp [List.intercalate]
    | cons b l =>
      rw [List.flatMap_cons, dropLast_append_two _ _ (by simp; omega), ih (by simp), List.map_cons, List.map_cons]
      simp [List.intercalate]

theorem initialLine_spread (hi : ∀ s, init s ≠ 1) :
    initialLine IO init = if shown init = [] then "Initial state".toList
      else "Initial state: ".toList ++ List.intercalate ", ".toList ((shown init).map (item IO init)) := by
  unfold initialLine
  rw [show (List.finRange n).find? (fun i => decide (init i = 1)) = none from List.find?_eq_none.2 (fun s _ => by simpa using hi s)]
  simp only
  rw [initialItems_eq]
  split_ifs with h
  · rw [h]; rfl
  · rw [dropLast_append_two, drop_comma _ _ h]
    obtain ⟨a, l, e⟩ := List.exists_cons_of_ne_nil h
    rw [e]; simp; omega

theorem intercalate_inj {A B : List (List Char)} (hA : A ≠ []) (hB : B ≠ []) (ha : ∀ a ∈ A, ',' ∉ a) (hb : ∀ b ∈ B, ',' ∉ b)
    (h : List.intercalate ", ".toList A = List.intercalate ", ".toList B) : A = B := by
  have hc : ∀ (x y : List Char) (l : List (List Char)),
      List.intercalate ", ".toList (x :: y :: l) = x ++ ',' :: (' ' :: List.intercalate ", ".toList (y :: l)) := by
    intro x y l
    simp [List.intercalate]
  have h1 : ∀ x : List Char, List.intercalate ", ".toList [x] = x := by
    intro x; simp [List.intercalate]
  induction A generalizing B with
  | nil => exact absurd rfl hA
  | cons a A ih =>
    obtain ⟨b, B, rfl⟩ := List.exists_cons_of_ne_nil hB
    have ha0 := ha a (by simp)
    have hb0 := hb b (by simp)
    cases A with
    | nil =>
      cases B with
      | nil => rw [h1, h1] at h; rw [h]
      | cons b' B => rw [h1, hc] at h; exact absurd (h ▸ by simp) ha0
    | cons a' A =>
      cases B with
      | nil => rw [h1, hc] at h; exact absurd (h ▸ by simp) hb0
      | cons b' B =>
        rw [hc, hc] at h
        obtain ⟨e1, e2⟩ := cut_left ha0 hb0 h
        rw [e1, ih (by simp) (by simp) (fun x hx => ha x (by simp [hx])) (fun x hx => hb x (by simp [hx])) (List.cons_eq_cons.1 e2).2]

theorem item_notMem (hd : ∀ i, IO.dom (init i)) (i : Fin n) : ',' ∉ item IO init i := by
  unfold item
  intro h
  rcases List.mem_cons.1 h with h | h
  · exact absurd h (by decide)
  · simp only [List.mem_append] at h
    rcases h with (h | h) | h
    · exact reprNat_notMem (by decide) _ h
    · exact absurd h (by decide)
    · exact repr_notMem IO (by decide) (IO.round_dom _ _ (hd i)) h

theorem item_inj {init' : Fin n → K} (hd : ∀ i, IO.dom (init i)) (hd' : ∀ i, IO.dom (init' i)) {i j : Fin n}
    (h : item IO init i = item IO init' j) : i = j ∧ IO.round 3 (init i) = IO.round 3 (init' j) := by
  unfold item at h
  have h2 := (List.cons_eq_cons.1 h).2
  rw [List.append_assoc, List.append_assoc] at h2
  obtain ⟨e1, e2⟩ := cut_left (c := ':') (reprNat_notMem (by decide) _) (reprNat_notMem (by decide) _) h2
  exact ⟨Fin.ext (reprNat_inj e1), repr_inj IO (IO.round_dom _ _ (hd i)) (IO.round_dom _ _ (hd' j)) (List.cons_eq_cons.1 e2).2⟩

theorem round_close [IsStrictOrderedRing K] {x y : K} (hx : IO.dom x) (hy : IO.dom y) {d : ℕ} (h : IO.round d x = IO.round d y) :
    |x - y| ≤ 2 / 10 ^ d := by
  have h1 := abs_le.1 (IO.round_err d x hx)
  have h2 := abs_le.1 (IO.round_err d y hy)
  rw [h] at h1
  have e : (2 : K) / 10 ^ d = 1 / 10 ^ d + 1 / 10 ^ d := by ring
  rw [abs_le, e]
  constructor <;> linarith [h1.1, h1.2, h2.1, h2.2]

theorem initial_close [IsStrictOrderedRing K] {init' : Fin n → K} (hd : ∀ i, IO.dom (init i)) (hd' : ∀ i, IO.dom (init' i))
    (hp : ∀ s, 0 ≤ init s) (hs : ∑ s, init s = 1) (hp' : ∀ s, 0 ≤ init' s) (hs' : ∑ s, init' s = 1)
    (h : initialLine IO init = initialLine IO init') (s : Fin n) : |init s - init' s| ≤ 1 / 500 := by
  have mixed : ∀ {f g : Fin n → K}, (∀ i, IO.dom (g i)) → (∃ i : Fin n, initialLine IO f = "Initial state: s".toList ++ reprNat i) → (∀ i, g i ≠ 1) →
      initialLine IO f ≠ initialLine IO g := by
    rintro f g hg ⟨i, hi⟩ h1 e
    rw [hi, initialLine_spread IO h1] at e
    split_ifs at e with hsh
    · have := congrArg List.length e
      simp at this
    · obtain ⟨a, l, hal⟩ := List.exists_cons_of_ne_nil hsh
      have e2 : 's' :: reprNat i = List.intercalate ", ".toList ((shown g).map (item IO g)) := by
        simpa using e
      have : ':' ∈ 's' :: reprNat i := by
        rw [e2, hal]
        cases l <;> simp [List.intercalate, item]
      rcases List.mem_cons.1 this with h | h
      · exact absurd h (by decide)
      · exact reprNat_notMem (by decide) _ h
  by_cases h1 : ∃ i, init i = 1
  · obtain ⟨i, hi⟩ := h1
    obtain ⟨e1, z1⟩ := initialLine_one IO hp hs hi
    by_cases h2 : ∃ i, init' i = 1
    · obtain ⟨j, hj⟩ := h2
      obtain ⟨e2, z2⟩ := initialLine_one IO hp' hs' hj
      rw [e1, e2] at h
      have : i = j := Fin.ext (reprNat_inj (List.append_cancel_left h))
      subst this
      by_cases hsi : s = i
      · rw [hsi, hi, hj]; norm_num
      · rw [z1 s hsi, z2 s hsi]; norm_num
    · push Not at h2
      exact absurd h (mixed hd' ⟨i, e1⟩ h2)
  · push Not at h1
    by_cases h2 : ∃ i, init' i = 1
    · obtain ⟨j, hj⟩ := h2
      exact absurd h.symm (mixed hd ⟨j, (initialLine_one IO hp' hs' hj).1⟩ h1)
    · push Not at h2
      have key : (shown init).map (item IO init) = (shown init').map (item IO init') := by
        rw [initialLine_spread IO h1, initialLine_spread IO h2] at h
        split_ifs at h with ha hb hb
        · rw [ha, hb]; rfl
        · have := congrArg List.length h; simp at this
        · have := congrArg List.length h; simp at this
        · refine intercalate_inj (by simpa using ha) (by simpa using hb) ?_ ?_ (List.append_cancel_left h)
          · intro a ha; obtain ⟨i, _, rfl⟩ := List.mem_map.1 ha; exact item_notMem IO hd i
          · intro a ha; obtain ⟨i, _, rfl⟩ := List.mem_map.1 ha; exact item_notMem IO hd' i
      have one : ∀ {f g : Fin n → K}, (∀ i, IO.dom (f i)) → (∀ i, IO.dom (g i)) → (shown f).map (item IO f) = (shown g).map (item IO g) →
          1 / 1000 ≤ f s → |f s - g s| ≤ 1 / 500 := by
        intro f g hf hg e hfs
        have : item IO f s ∈ (shown g).map (item IO g) := e ▸ List.mem_map_of_mem (by simpa [shown] using hfs)
        obtain ⟨t, _, ht⟩ := List.mem_map.1 this
        obtain ⟨rfl, hr⟩ := item_inj IO hg hf ht
        have := round_close IO (hf t) (hg t) hr.symm
        norm_num at this ⊢
        linarith
      by_cases c1 : 1 / 1000 ≤ init s
      · exact one hd hd' key c1
      · by_cases c2 : 1 / 1000 ≤ init' s
        · rw [abs_sub_comm]; exact one hd' hd key.symm c2
        · push Not at c1 c2
          rw [abs_le]
          have e : (1 : K) / 500 = 1 / 1000 + 1 / 1000 := by norm_num
          rw [e]
          constructor <;> linarith [hp s, hp' s]

end Print
end Jajapy
