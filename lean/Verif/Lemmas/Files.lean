import Mathlib.Data.Nat.Digits.Lemmas
import Mathlib.Tactic.IntervalCases
import Verif.Spec.Files

/-!
Facts about `repr`, `literal_eval` and lines of text.
-/

namespace Jajapy
namespace Files

open Spec

variable {K : Type} (printable : Char → Bool) (IO : FloatIO K)

/-! ### Numbers -/

theorem isDigit_digitChar : ∀ d, d < 10 → isDigit (digitChar d) = true := by decide
theorem digitVal_digitChar : ∀ d, d < 10 → digitVal (digitChar d) = d := by decide

theorem isNumChar_of_isDigit {c : Char} (h : isDigit c = true) : isNumChar c = true := by
  simp only [isDigit, Bool.and_eq_true] at h
  simp [isNumChar, h.1, h.2]

theorem digits_map (ds : List ℕ) (h : ∀ d ∈ ds, d < 10) :
    (∀ c ∈ ds.reverse.map digitChar, isDigit c = true) ∧ natOfDigits (ds.reverse.map digitChar) = Nat.ofDigits 10 ds := by
  constructor
  · intro c hc
    obtain ⟨d, hd, rfl⟩ := List.mem_map.1 hc
    exact isDigit_digitChar d (h d (List.mem_reverse.1 hd))
  · induction ds with
    | nil => rfl
    | cons d ds ih =>
      have ih := ih (fun x hx => h x (by simp [hx]))
      unfold natOfDigits at ih ⊢
      rw [List.reverse_cons, List.map_append, List.foldl_append, ih, Nat.ofDigits_cons]
      simp [digitVal_digitChar d (h d (by simp))]
      ring

theorem reprNat_spec (n : ℕ) :
    reprNat n ≠ [] ∧ (∀ c ∈ reprNat n, isDigit c = true) ∧ natOfDigits (reprNat n) = n := by
  unfold reprNat
  split_ifs with h
  · subst h
    exact ⟨by simp, by decide, by decide⟩
  · obtain ⟨h1, h2⟩ := digits_map (Nat.digits 10 n) (fun d hd => Nat.digits_lt_base (by norm_num) hd)
    refine ⟨?_, h1, by rw [h2, Nat.ofDigits_digits]⟩
    simpa [Nat.digits_eq_nil_iff_eq_zero] using h

theorem isDigit_ne {c d : Char} (hc : isDigit c = true) (hd : isDigit d = false) : c ≠ d := by
  rintro rfl; rw [hc] at hd; cases hd

theorem intLiteral_digits {ds : List Char} (h1 : ds ≠ []) (h2 : ∀ c ∈ ds, isDigit c = true) :
    isIntLiteral ds = true ∧ intOfLiteral ds = natOfDigits ds := by
  have hne : ∀ l, ds ≠ '-' :: l := by
    rintro l rfl
    exact isDigit_ne (h2 '-' (by simp)) (by decide) rfl
  constructor
  · unfold isIntLiteral
    split
    · exact absurd rfl (hne _)
    · simp [h1]; exact h2
  · unfold intOfLiteral
    split
    · exact absurd rfl (hne _)
    · rfl

theorem reprInt_spec (z : ℤ) : isIntLiteral (reprInt z) = true ∧ intOfLiteral (reprInt z) = z ∧
    reprInt z ≠ [] ∧ ∀ c ∈ reprInt z, isNumChar c = true := by
  cases z with
  | ofNat n =>
    obtain ⟨h1, h2, h3⟩ := reprNat_spec n
    obtain ⟨h4, h5⟩ := intLiteral_digits h1 h2
    exact ⟨h4, by rw [reprInt, h5, h3]; rfl, h1, fun c hc => isNumChar_of_isDigit (h2 c hc)⟩
  | negSucc n =>
    obtain ⟨h1, h2, h3⟩ := reprNat_spec (n + 1)
    refine ⟨?_, ?_, by simp [reprInt], ?_⟩
    · simp only [reprInt, isIntLiteral]; simp [h1]; exact h2
    · simp only [reprInt, intOfLiteral, h3]; simp [Int.negSucc_eq]
    · intro c hc
      rcases List.mem_cons.1 hc with rfl | hc
      · decide
      · exact isNumChar_of_isDigit (h2 c hc)

/-- "`rest` does not continue a number". -/
def Delim (rest : List Char) : Prop := ∀ c ∈ rest.head?, isNumChar c = false

theorem takeWhile_delim {tok rest : List Char} (h : ∀ c ∈ tok, isNumChar c = true) (hr : Delim rest) :
    (tok ++ rest).takeWhile isNumChar = tok ∧ (tok ++ rest).dropWhile isNumChar = rest := by
  rw [List.takeWhile_append_of_pos h, List.dropWhile_append_of_pos h]
  cases rest with
  | nil => simp
  | cons c r =>
    have := hr c (by simp)
    simp [List.takeWhile_cons, List.dropWhile_cons, this]

theorem readNum_int (z : ℤ) {rest : List Char} (hr : Delim rest) :
    readNum IO (reprInt z ++ rest) = some (.int z, rest) := by
  obtain ⟨h1, h2, h3, h4⟩ := reprInt_spec z
  obtain ⟨e1, e2⟩ := takeWhile_delim h4 hr
  simp only [readNum, e1, e2, h1, h2, if_true]

theorem readNum_float {x : K} (hx : IO.dom x) {rest : List Char} (hr : Delim rest) :
    readNum IO (IO.repr x ++ rest) = some (.float x, rest) := by
  obtain ⟨e1, e2⟩ := takeWhile_delim (IO.repr_chars x hx) hr
  simp only [readNum, e1, e2, IO.repr_notInt x hx, IO.parse_repr x hx]
  simp

/-! ### Strings -/

theorem hexVal_hexChar : ∀ d, d < 16 → hexVal (hexChar d) = some d := by decide
theorem hexChar_ne : ∀ d, d < 16 → hexChar d ≠ '\n' ∧ hexChar d ≠ '\r' := by decide

theorem readHex_succ (k acc : ℕ) (s : List Char) :
    readHex (k + 1) acc s = (readHex k acc s).bind (fun p => readHex 1 p.1 p.2) := by
  induction k generalizing acc s with
  | zero => simp [readHex]
  | succ k ih =>
    cases s with
    | nil => simp [readHex]
    | cons c s =>
      cases hc : hexVal c with
      | none => simp only [readHex, hc, Option.bind_none]
      | some d =>
        rw [readHex]
        simp only [hc]
        rw [ih]
        conv_rhs => rw [readHex]
        simp only [hc]

theorem readHex_hexDigits (k m acc : ℕ) (s : List Char) :
    readHex k acc (hexDigits k m ++ s) = some (16 ^ k * acc + m % 16 ^ k, s) := by
  induction k generalizing m s with
  | zero => simp [readHex, hexDigits, Nat.mod_one]
  | succ k ih =>
    rw [readHex_succ, hexDigits, List.append_assoc, ih]
    have h16 : m % 16 < 16 := Nat.mod_lt _ (by norm_num)
    simp only [Option.bind_some, List.singleton_append, readHex, hexVal_hexChar _ h16]
    congr 2
    rw [pow_succ, Nat.mul_comm (16 ^ k) 16, Nat.mod_mul]
    ring

theorem char_lt (c : Char) : c.toNat < 16 ^ 8 := by
  have h : c.toNat < 0x110000 := by
    rcases c.valid with h | h
    · exact lt_trans h (by norm_num)
    · exact h.2
  exact lt_trans h (by norm_num)

theorem readEscape_hex (x : Char) (k : ℕ) (c : Char) (hx : x = 'x' ∧ k = 2 ∨ x = 'u' ∧ k = 4 ∨ x = 'U' ∧ k = 8)
    (hc : c.toNat < 16 ^ k) (s : List Char) : readEscape (x :: (hexDigits k c.toNat ++ s)) = some (c, s) := by
  have key : readHex k 0 (hexDigits k c.toNat ++ s) = some (c.toNat, s) := by
    rw [readHex_hexDigits]; simp [Nat.mod_eq_of_lt hc]
  rcases hx with ⟨rfl, rfl⟩ | ⟨rfl, rfl⟩ | ⟨rfl, rfl⟩ <;>
    simp only [readEscape, key, Option.map_some, Char.ofNat_toNat]

theorem readStr_step (q : Char) (hq : q = '\'' ∨ q = '"') (f : ℕ) (c : Char) (t : List Char) :
    readStr q (f + 1) (reprChar printable q c ++ t) = (readStr q f t).map (fun p => (c :: p.1, p.2)) := by
  have hq1 : ('\\' : Char) ≠ q := by rcases hq with rfl | rfl <;> decide
  have esc : ∀ e, readEscape (e ++ t) = some (c, t) →
      readStr q (f + 1) ('\\' :: (e ++ t)) = (readStr q f t).map (fun p => (c :: p.1, p.2)) := by
    intro e he
    rw [readStr, if_neg hq1, if_neg (by decide), if_pos rfl, he]
  unfold reprChar
  split_ifs with h1 h2 h3 h4 h5 h6 h7 h8
  · refine esc [c] ?_
    rcases h1 with rfl | rfl
    · rcases hq with rfl | rfl <;> rfl
    · rfl
  · subst h2; exact esc ['t'] rfl
  · subst h3; exact esc ['n'] rfl
  · subst h4; exact esc ['r'] rfl
  · refine esc ('x' :: hexDigits 2 c.toNat) (readEscape_hex 'x' 2 c (Or.inl ⟨rfl, rfl⟩) ?_ t)
    rcases h5 with h | h <;> omega
  · push Not at h1
    rw [List.singleton_append, readStr, if_neg h1.1, if_neg h3, if_neg h1.2]
  · exact esc ('x' :: hexDigits 2 c.toNat) (readEscape_hex 'x' 2 c (Or.inl ⟨rfl, rfl⟩) h7 t)
  · exact esc ('u' :: hexDigits 4 c.toNat) (readEscape_hex 'u' 4 c (Or.inr (Or.inl ⟨rfl, rfl⟩)) h8 t)
  · exact esc ('U' :: hexDigits 8 c.toNat) (readEscape_hex 'U' 8 c (Or.inr (Or.inr ⟨rfl, rfl⟩)) (char_lt c) t)

theorem readStr_repr (q : Char) (hq : q = '\'' ∨ q = '"') (s rest : List Char) (f : ℕ) (hf : s.length < f) :
    readStr q f (s.flatMap (reprChar printable q) ++ q :: rest) = some (s, rest) := by
  induction s generalizing f with
  | nil =>
    obtain ⟨f, rfl⟩ : ∃ g, f = g + 1 := ⟨f - 1, by simp at hf; omega⟩
    simp [readStr]
  | cons c s ih =>
    obtain ⟨f, rfl⟩ : ∃ g, f = g + 1 := ⟨f - 1, by simp at hf; omega⟩
    rw [List.flatMap_cons, List.append_assoc, readStr_step _ _ hq, ih f (by simpa using hf)]
    rfl

theorem quoteFor_cases (s : List Char) : quoteFor s = '\'' ∨ quoteFor s = '"' := by
  unfold quoteFor; split_ifs <;> simp

theorem reprChar_length (q c : Char) : 1 ≤ (reprChar printable q c).length := by
  unfold reprChar
  split_ifs <;> simp

theorem flatMap_length (q : Char) (s : List Char) : s.length ≤ (s.flatMap (reprChar printable q)).length := by
  induction s with
  | nil => simp
  | cons c s ih =>
    rw [List.flatMap_cons, List.length_append, List.length_cons]
    have := reprChar_length printable q c
    omega

/-! ### Values: what is written is read back -/

theorem head_num (l : List Char) (hne : l ≠ []) (h : ∀ c ∈ l, isNumChar c = true) (rest : List Char) (f : ℕ) :
    readVal IO (f + 1) (l ++ rest) = readNum IO (l ++ rest) := by
  obtain ⟨c, l, rfl⟩ := List.exists_cons_of_ne_nil hne
  have hc := h c (by simp)
  have hne : ∀ d, isNumChar d = false → c ≠ d := by
    rintro d hd rfl; rw [hc] at hd; cases hd
  rw [List.cons_append, readVal, if_neg (hne _ (by decide)), if_neg, if_neg (hne _ (by decide)),
    if_neg (hne _ (by decide)), if_pos hc]
  rintro (h | h)
  · exact hne _ (by decide) h
  · exact hne _ (by decide) h

theorem reprTail_delim (l : List (Val K)) (rest : List Char) : Delim (reprTail printable IO l ++ rest) := by
  intro c hc
  cases l with
  | nil => simp only [reprTail, List.cons_append, List.head?_cons, Option.mem_def, Option.some.injEq] at hc; subst hc; decide
  | cons v l => simp only [reprTail, List.cons_append, List.head?_cons, Option.mem_def, Option.some.injEq] at hc; subst hc; decide

theorem repr_ne_nil {v : Val K} (hv : FiniteVal IO v) : repr printable IO v ≠ [] := by
  cases hv with
  | none => simp [repr]
  | int z => rw [repr]; exact (reprInt_spec z).2.2.1
  | str s => simp [repr, reprStr]
  | float h => rw [repr]; exact IO.repr_ne _ h
  | list h => simp [repr]

/-- The first character of the text of a value is neither a space nor a closing bracket. -/
theorem repr_head {v : Val K} (hv : FiniteVal IO v) : ∃ c l, repr printable IO v = c :: l ∧ c ≠ ' ' ∧ c ≠ ']' := by
  have num : ∀ t : List Char, t ≠ [] → (∀ c ∈ t, isNumChar c = true) → ∃ c l, t = c :: l ∧ c ≠ ' ' ∧ c ≠ ']' := by
    intro t ht h
    obtain ⟨c, l, rfl⟩ := List.exists_cons_of_ne_nil ht
    have hc := h c (by simp)
    refine ⟨c, l, rfl, ?_, ?_⟩ <;> (rintro rfl; exact absurd hc (by decide))
  cases hv with
  | none => exact ⟨_, _, rfl, by decide, by decide⟩
  | int z => rw [repr]; exact num _ (reprInt_spec z).2.2.1 (reprInt_spec z).2.2.2
  | str s =>
    rw [repr]
    refine ⟨quoteFor s, _, rfl, ?_, ?_⟩ <;> (rcases quoteFor_cases s with h | h <;> rw [h] <;> decide)
  | float h => rw [repr]; exact num _ (IO.repr_ne _ h) (IO.repr_chars _ h)
  | list h => exact ⟨_, _, by rw [repr], by decide, by decide⟩

mutual
theorem readVal_repr (v : Val K) (hv : FiniteVal IO v) (rest : List Char) (hr : Delim rest) (f : ℕ)
    (hf : 2 * (repr printable IO v).length ≤ f) : readVal IO f (repr printable IO v ++ rest) = some (v, rest) := by
  have hlen := List.length_pos_iff.2 (repr_ne_nil printable IO hv)
  obtain ⟨f, rfl⟩ : ∃ g, f = g + 1 := ⟨f - 1, by omega⟩
  match v with
  | .none =>
    simp [repr, readVal, readNone]
  | .int z =>
    rw [repr, head_num IO _ (reprInt_spec z).2.2.1 (reprInt_spec z).2.2.2, readNum_int IO z hr]
  | .float x =>
    cases hv with
    | float hx =>
      rw [repr, head_num IO _ (IO.repr_ne x hx) (IO.repr_chars x hx), readNum_float IO hx hr]
  | .str s =>
    have hq := quoteFor_cases s
    rw [repr, reprStr]
    rw [List.cons_append, readVal, if_neg (by rcases hq with h | h <;> rw [h] <;> decide), if_pos hq, List.append_assoc,
      List.singleton_append, readStr_repr printable _ hq s rest _ (by
        have := flatMap_length printable (quoteFor s) s
        simp only [List.length_append, List.length_cons]; omega)]
    rfl
  | .list l =>
    cases hv with
    | list hl =>
      have := readItems_repr l hl rest f (by
        rw [repr, List.length_cons] at hf; omega)
      rw [repr, List.cons_append, readVal, if_neg (by decide), if_neg (by decide), if_pos rfl, this]
      rfl
theorem readItems_repr (l : List (Val K)) (hl : ∀ v ∈ l, FiniteVal IO v) (rest : List Char) (f : ℕ)
    (hf : 2 * (reprItems printable IO l).length ≤ f + 1) :
    readItems IO f (reprItems printable IO l ++ rest) = some (l, rest) := by
  match l with
  | [] =>
    obtain ⟨f, rfl⟩ : ∃ g, f = g + 1 := ⟨f - 1, by simp [reprItems] at hf; omega⟩
    simp [reprItems, readItems]
  | v :: l =>
    have hv := hl v (by simp)
    have hlen := List.length_pos_iff.2 (repr_ne_nil printable IO hv)
    have htl : 1 ≤ (reprTail printable IO l).length := by cases l <;> simp [reprTail]
    rw [reprItems, List.length_append] at hf
    obtain ⟨f, rfl⟩ : ∃ g, f = g + 1 := ⟨f - 1, by omega⟩
    have h1 := readVal_repr v hv (reprTail printable IO l ++ rest) (reprTail_delim printable IO l rest) f (by omega)
    have h2 := readTail_repr l (fun w hw => hl w (by simp [hw])) rest f (by omega)
    obtain ⟨c, s, hc, c1, c2⟩ := repr_head printable IO hv
    rw [reprItems, List.append_assoc]
    rw [hc, List.cons_append] at h1 ⊢
    rw [readItems, if_neg c1, if_neg c2, h1]
    simp only [h2]
theorem readTail_repr (l : List (Val K)) (hl : ∀ v ∈ l, FiniteVal IO v) (rest : List Char) (f : ℕ)
    (hf : 2 * (reprTail printable IO l).length ≤ f + 1) :
    readTail IO f (reprTail printable IO l ++ rest) = some (l, rest) := by
  match l with
  | [] =>
    obtain ⟨f, rfl⟩ : ∃ g, f = g + 1 := ⟨f - 1, by simp [reprTail] at hf; omega⟩
    simp [reprTail, readTail]
  | v :: l =>
    have hv := hl v (by simp)
    have hlen := List.length_pos_iff.2 (repr_ne_nil printable IO hv)
    have htl : 1 ≤ (reprTail printable IO l).length := by cases l <;> simp [reprTail]
    simp only [reprTail, List.length_append, List.length_cons] at hf
    obtain ⟨f, rfl⟩ : ∃ g, f = g + 3 := ⟨f - 3, by omega⟩
    have h1 := readVal_repr v hv (reprTail printable IO l ++ rest) (reprTail_delim printable IO l rest) f (by omega)
    have h2 := readTail_repr l (fun w hw => hl w (by simp [hw])) rest f (by omega)
    obtain ⟨c, s, hc, c1, c2⟩ := repr_head printable IO hv
    rw [reprTail, List.cons_append, List.cons_append, List.append_assoc, readTail, if_neg (by decide), if_neg (by decide),
      if_pos rfl, readItems, if_pos rfl]
    rw [hc, List.cons_append] at h1 ⊢
    rw [readItems, if_neg c1, if_neg c2, h1]
    simp only [h2]
end

theorem literalEval_repr (v : Val K) (hv : FiniteVal IO v) : literalEval IO (repr printable IO v) = .ok v := by
  have := readVal_repr printable IO v hv [] (by simp [Delim]) (2 * (repr printable IO v).length + 1) (by omega)
  rw [List.append_nil] at this
  simp [literalEval, this]

/-! ### Reading a text does not depend on what follows a closed literal -/

theorem readHex_local (k acc : ℕ) (s r t : List Char) (m : ℕ) (h : readHex k acc s = some (m, r)) :
    readHex k acc (s ++ t) = some (m, r ++ t) := by
  induction k generalizing acc s with
  | zero => simp only [readHex, Option.some.injEq, Prod.mk.injEq] at h ⊢; exact ⟨h.1, by rw [h.2]⟩
  | succ k ih =>
    cases s with
    | nil => simp [readHex] at h
    | cons c s =>
      rw [readHex] at h
      rw [List.cons_append, readHex]
      cases hc : hexVal c with
      | none => simp [hc] at h
      | some d =>
        simp only [hc] at h ⊢
        exact ih _ _ h

theorem readEscape_local (s r t : List Char) (c : Char) (h : readEscape s = some (c, r)) :
    readEscape (s ++ t) = some (c, r ++ t) := by
  have hx : ∀ k (s : List Char), (readHex k 0 s).map (fun p => (Char.ofNat p.1, p.2)) = some (c, r) →
      (readHex k 0 (s ++ t)).map (fun p => (Char.ofNat p.1, p.2)) = some (c, r ++ t) := by
    intro k s h
    cases hr : readHex k 0 s with
    | none => rw [hr] at h; cases h
    | some p =>
      obtain ⟨m, r'⟩ := p
      rw [hr] at h
      simp only [Option.map_some, Option.some.injEq, Prod.mk.injEq] at h
      rw [readHex_local k 0 s r' t m hr, ← h.1, ← h.2]; rfl
  unfold readEscape at h
  split at h
  case h_10 => cases h
  all_goals first
    | (simp only [Option.some.injEq, Prod.mk.injEq] at h; obtain ⟨rfl, rfl⟩ := h; rfl)
    | (rw [List.cons_append]; simp only [readEscape]; exact hx _ _ h)

theorem readStr_local (q : Char) (f f' : ℕ) (hf : f ≤ f') (s r t : List Char) (w : List Char)
    (h : readStr q f s = some (w, r)) : readStr q f' (s ++ t) = some (w, r ++ t) := by
  induction f generalizing f' s w with
  | zero => simp [readStr] at h
  | succ f ih =>
    obtain ⟨f', rfl⟩ : ∃ g, f' = g + 1 := ⟨f' - 1, by omega⟩
    cases s with
    | nil => simp [readStr] at h
    | cons c s =>
      rw [readStr] at h
      rw [List.cons_append, readStr]
      split_ifs at h ⊢ with h1 h2 h3
      · simp only [Option.some.injEq, Prod.mk.injEq] at h ⊢; exact ⟨h.1, by rw [h.2]⟩
      · cases he : readEscape s with
        | none => simp [he] at h
        | some p =>
          obtain ⟨d, s'⟩ := p
          simp only [he] at h
          simp only [readEscape_local s s' t d he]
          cases hr : readStr q f s' with
          | none => rw [hr] at h; cases h
          | some p =>
            obtain ⟨w', r'⟩ := p
            rw [hr] at h
            simp only [Option.map_some, Option.some.injEq, Prod.mk.injEq] at h
            rw [ih f' (by omega) s' w' (by rw [hr, h.2]), ← h.1]; rfl
      · cases hr : readStr q f s with
        | none => rw [hr] at h; cases h
        | some p =>
          obtain ⟨w', r'⟩ := p
          rw [hr] at h
          simp only [Option.map_some, Option.some.injEq, Prod.mk.injEq] at h
          rw [ih f' (by omega) s w' (by rw [hr, h.2]), ← h.1]; rfl

theorem readNum_local (s r t : List Char) (v : Val K) (hr : r ≠ []) (h : readNum IO s = some (v, r)) :
    readNum IO (s ++ t) = some (v, r ++ t) := by
  unfold readNum at h ⊢
  dsimp only at h ⊢
  have hrest : s.dropWhile isNumChar ≠ [] := by
    split_ifs at h
    · simp only [Option.some.injEq, Prod.mk.injEq] at h; rw [h.2]; exact hr
    · split at h
      · simp only [Option.some.injEq, Prod.mk.injEq] at h; rw [h.2]; exact hr
      · cases h
  have h1 : (s ++ t).takeWhile isNumChar = s.takeWhile isNumChar ∧
      (s ++ t).dropWhile isNumChar = s.dropWhile isNumChar ++ t := by
    clear h
    induction s with
    | nil => simp at hrest
    | cons c s ih =>
      simp only [List.cons_append, List.takeWhile_cons, List.dropWhile_cons] at hrest ⊢
      split_ifs with hc
      · rw [if_pos hc] at hrest
        obtain ⟨e1, e2⟩ := ih hrest
        exact ⟨by rw [e1], e2⟩
      · exact ⟨rfl, by simp⟩
  rw [h1.1, h1.2]
  split_ifs at h ⊢
  · simp only [Option.some.injEq, Prod.mk.injEq] at h ⊢; exact ⟨h.1, by rw [h.2]⟩
  · split at h
    · simp only [Option.some.injEq, Prod.mk.injEq] at h ⊢; exact ⟨h.1, by rw [h.2]⟩
    · cases h

theorem read_local (f : ℕ) :
    (∀ f', f ≤ f' → ∀ s r t v, readVal IO f s = some (v, r) → (r ≠ [] ∨ ∃ l, v = .list l) →
      readVal IO f' (s ++ t) = some (v, r ++ t)) ∧
    (∀ f', f ≤ f' → ∀ s r t l, readItems IO f s = some (l, r) → readItems IO f' (s ++ t) = some (l, r ++ t)) ∧
    (∀ f', f ≤ f' → ∀ s r t l, readTail IO f s = some (l, r) → readTail IO f' (s ++ t) = some (l, r ++ t)) := by
  induction f with
  | zero =>
    refine ⟨?_, ?_, ?_⟩ <;> intro f' _ s r t v h
    · simp [readVal] at h
    · simp [readItems] at h
    · simp [readTail] at h
  | succ f ih =>
    obtain ⟨ih1, ih2, ih3⟩ := ih
    refine ⟨?_, ?_, ?_⟩ <;> intro f' hf s r t v h <;>
      (obtain ⟨f', rfl⟩ : ∃ g, f' = g + 1 := ⟨f' - 1, by omega⟩) <;> have hf : f ≤ f' := by omega
    · intro hr
      cases s with
      | nil => simp [readVal] at h
      | cons c s =>
        rw [readVal] at h
        rw [List.cons_append, readVal]
        split_ifs at h ⊢ with h1 h2 h3 h4 h5
        · exact ih1 f' hf s r t v h hr
        · cases hs : readStr c (s.length + 1) s with
          | none => rw [hs] at h; cases h
          | some p =>
            obtain ⟨w, r'⟩ := p
            rw [hs] at h
            simp only [Option.map_some, Option.some.injEq, Prod.mk.injEq] at h
            rw [readStr_local c _ _ (by simp) s r' t w hs, ← h.1, ← h.2]; rfl
        · cases hs : readItems IO f s with
          | none => rw [hs] at h; cases h
          | some p =>
            obtain ⟨w, r'⟩ := p
            rw [hs] at h
            simp only [Option.map_some, Option.some.injEq, Prod.mk.injEq] at h
            rw [ih2 f' hf s r' t w hs, ← h.1, ← h.2]; rfl
        · unfold readNone at h
          split at h
          · simp only [Option.some.injEq, Prod.mk.injEq] at h
            obtain ⟨rfl, rfl⟩ := h
            rfl
          · cases h
        · rcases hr with hr | ⟨l, rfl⟩
          · have := readNum_local IO (c :: s) r t v hr h
            exact this
          · exfalso
            unfold readNum at h
            dsimp only at h
            split_ifs at h
            · simp at h
            · split at h
              · simp at h
              · cases h
    · cases s with
      | nil => simp [readItems] at h
      | cons c s =>
        rw [readItems] at h
        rw [List.cons_append, readItems]
        split_ifs at h ⊢ with h1 h2
        · exact ih2 f' hf s r t v h
        · simp only [Option.some.injEq, Prod.mk.injEq] at h ⊢; exact ⟨h.1, by rw [h.2]⟩
        · cases hv : readVal IO f (c :: s) with
          | none => simp [hv] at h
          | some p =>
            obtain ⟨w, s'⟩ := p
            simp only [hv] at h
            cases ht : readTail IO f s' with
            | none => simp [ht] at h
            | some p =>
              obtain ⟨l, s''⟩ := p
              simp only [ht, Option.some.injEq, Prod.mk.injEq] at h
              have hne : s' ≠ [] := by
                rintro rfl
                cases f <;> simp [readTail] at ht
              have e1 := ih1 f' hf (c :: s) s' t w hv (Or.inl hne)
              have e2 := ih3 f' hf s' s'' t l ht
              rw [List.cons_append] at e1
              simp only [e1, e2, h.1, h.2]
    · cases s with
      | nil => simp [readTail] at h
      | cons c s =>
        rw [readTail] at h
        rw [List.cons_append, readTail]
        split_ifs at h ⊢ with h1 h2 h3
        · exact ih3 f' hf s r t v h
        · simp only [Option.some.injEq, Prod.mk.injEq] at h ⊢; exact ⟨h.1, by rw [h.2]⟩
        · exact ih2 f' hf s r t v h

/-- An unfinished list is refused. -/
theorem literalEval_cut (l : List (Val K)) (hl : ∀ v ∈ l, FiniteVal IO v) (p : List Char)
    (hp : p <+: repr printable IO (.list l)) (hne : p ≠ repr printable IO (.list l)) :
    literalEval IO p = .error .syntaxError := by
  obtain ⟨t, ht⟩ := hp
  have ht0 : t ≠ [] := by rintro rfl; exact hne (by simpa using ht)
  unfold literalEval
  cases hv : readVal IO (2 * p.length + 1) p with
  | none => rfl
  | some q =>
    exfalso
    obtain ⟨v, r⟩ := q
    have hlist : ∃ w, v = .list w := by
      cases p with
      | nil => simp [readVal] at hv
      | cons c p =>
        have hc : c = '[' := by
          rw [repr] at ht
          simpa using (List.cons_eq_cons.1 ht).1
        subst hc
        rw [readVal, if_neg (by decide), if_neg (by decide), if_pos rfl] at hv
        cases hs : readItems IO (2 * (('[' : Char) :: p).length) p with
        | none => rw [hs] at hv; cases hv
        | some q =>
          rw [hs] at hv
          simp only [Option.map_some, Option.some.injEq, Prod.mk.injEq] at hv
          exact ⟨_, hv.1.symm⟩
    have hlen : p.length ≤ (repr printable IO (.list l)).length := by rw [← ht]; simp
    have h1 := (read_local IO (2 * p.length + 1)).1 (2 * (repr printable IO (.list l)).length + 1) (by omega) p r t v hv
      (Or.inr hlist)
    have h2 := readVal_repr printable IO (.list l) (.list hl) [] (by simp [Delim])
      (2 * (repr printable IO (.list l)).length + 1) (by omega)
    rw [List.append_nil, ← ht] at h2
    rw [← ht] at h1
    rw [h1] at h2
    simp only [Option.some.injEq, Prod.mk.injEq, List.append_eq_nil_iff] at h2
    exact ht0 h2.2.2

theorem literalEval_nil : literalEval IO [] = .error .syntaxError := rfl

/-! ### Lines -/

/-- The characters that end a line. -/
def NoBreak (l : List Char) : Prop := '\n' ∉ l ∧ '\r' ∉ l

instance (l : List Char) : Decidable (NoBreak l) := inferInstanceAs (Decidable ('\n' ∉ l ∧ '\r' ∉ l))

theorem noBreak_nil : NoBreak [] := by simp [NoBreak]

theorem noBreak_append {a b : List Char} (ha : NoBreak a) (hb : NoBreak b) : NoBreak (a ++ b) := by
  simp only [NoBreak, List.mem_append, not_or] at *
  exact ⟨⟨ha.1, hb.1⟩, ha.2, hb.2⟩

theorem noBreak_of {l : List Char} (h : ∀ c ∈ l, c ≠ '\n' ∧ c ≠ '\r') : NoBreak l :=
  ⟨fun hm => (h _ hm).1 rfl, fun hm => (h _ hm).2 rfl⟩

theorem noBreak_num {l : List Char} (h : ∀ c ∈ l, isNumChar c = true) : NoBreak l := by
  refine noBreak_of (fun c hc => ⟨?_, ?_⟩) <;> (rintro rfl; exact absurd (h _ hc) (by decide))

theorem noBreak_cons {c : Char} {l : List Char} (h1 : c ≠ '\n') (h2 : c ≠ '\r') (h : NoBreak l) : NoBreak (c :: l) :=
  noBreak_append (a := [c]) (noBreak_of (by intro d hd; rw [List.mem_singleton] at hd; subst hd; exact ⟨h1, h2⟩)) h

theorem noBreak_hex (k m : ℕ) : NoBreak (hexDigits k m) := by
  induction k generalizing m with
  | zero => exact noBreak_nil
  | succ k ih =>
    have := hexChar_ne (m % 16) (Nat.mod_lt _ (by norm_num))
    exact noBreak_append (ih _) (noBreak_cons this.1 this.2 noBreak_nil)

theorem noBreak_reprChar (q c : Char) (hq : q = '\'' ∨ q = '"') : NoBreak (reprChar printable q c) := by
  have hq1 : q ≠ '\n' ∧ q ≠ '\r' := by rcases hq with rfl | rfl <;> decide
  unfold reprChar
  split_ifs with h1 h2 h3 h4
  · refine noBreak_cons (by decide) (by decide) ?_
    rcases h1 with rfl | rfl
    · exact noBreak_cons hq1.1 hq1.2 noBreak_nil
    · exact noBreak_cons (by decide) (by decide) noBreak_nil
  · decide
  · decide
  · decide
  · exact noBreak_cons (by decide) (by decide) (noBreak_cons (by decide) (by decide) (noBreak_hex _ _))
  · exact noBreak_cons h3 h4 noBreak_nil
  · exact noBreak_cons (by decide) (by decide) (noBreak_cons (by decide) (by decide) (noBreak_hex _ _))
  · exact noBreak_cons (by decide) (by decide) (noBreak_cons (by decide) (by decide) (noBreak_hex _ _))
  · exact noBreak_cons (by decide) (by decide) (noBreak_cons (by decide) (by decide) (noBreak_hex _ _))

theorem noBreak_flatMap {α : Type} (l : List α) (f : α → List Char) (h : ∀ x ∈ l, NoBreak (f x)) : NoBreak (l.flatMap f) := by
  constructor
  · intro hm; obtain ⟨x, hx, hc⟩ := List.mem_flatMap.1 hm; exact (h x hx).1 hc
  · intro hm; obtain ⟨x, hx, hc⟩ := List.mem_flatMap.1 hm; exact (h x hx).2 hc

mutual
theorem noBreak_repr (v : Val K) (hv : FiniteVal IO v) : NoBreak (repr printable IO v) := by
  match v with
  | .none => rw [repr]; decide
  | .int z => rw [repr]; exact noBreak_num (reprInt_spec z).2.2.2
  | .float x => cases hv with | float h => rw [repr]; exact noBreak_num (IO.repr_chars x h)
  | .str s =>
    have hq := quoteFor_cases s
    have hq1 : quoteFor s ≠ '\n' ∧ quoteFor s ≠ '\r' := by rcases hq with h | h <;> rw [h] <;> decide
    rw [repr]
    exact noBreak_cons hq1.1 hq1.2 (noBreak_append (noBreak_flatMap _ _ (fun c _ => noBreak_reprChar printable _ c hq))
      (noBreak_cons hq1.1 hq1.2 noBreak_nil))
  | .list l => cases hv with | list h => rw [repr]; exact noBreak_cons (by decide) (by decide) (noBreak_items l h)
theorem noBreak_items (l : List (Val K)) (hl : ∀ v ∈ l, FiniteVal IO v) : NoBreak (reprItems printable IO l) := by
  match l with
  | [] => rw [reprItems]; decide
  | v :: l =>
    rw [reprItems]
    exact noBreak_append (noBreak_repr v (hl v (by simp))) (noBreak_tail l (fun w hw => hl w (by simp [hw])))
theorem noBreak_tail (l : List (Val K)) (hl : ∀ v ∈ l, FiniteVal IO v) : NoBreak (reprTail printable IO l) := by
  match l with
  | [] => rw [reprTail]; decide
  | v :: l =>
    rw [reprTail]
    exact noBreak_cons (by decide) (by decide) (noBreak_cons (by decide) (by decide)
      (noBreak_append (noBreak_repr v (hl v (by simp))) (noBreak_tail l (fun w hw => hl w (by simp [hw])))))
end

theorem universal_id (s : List Char) (h : '\r' ∉ s) : universal s = s := by
  induction s with
  | nil => rfl
  | cons c s ih =>
    rw [List.mem_cons, not_or] at h
    rw [universal, ih h.2]
    · rintro s' rfl; exact absurd rfl h.1
    · rintro rfl; exact absurd rfl h.1

theorem readline_eq (l rest : List Char) (h : '\n' ∉ l) : readline (l ++ '\n' :: rest) = (l ++ ['\n'], rest) := by
  induction l with
  | nil => simp [readline]
  | cons c l ih =>
    rw [List.mem_cons, not_or] at h
    rw [List.cons_append, readline, if_neg (Ne.symm h.1), ih h.2]
    rfl

theorem readline_last (l : List Char) (h : '\n' ∉ l) : readline l = (l, []) := by
  induction l with
  | nil => rfl
  | cons c l ih =>
    rw [List.mem_cons, not_or] at h
    rw [readline, if_neg (Ne.symm h.1), ih h.2]

theorem line_eq (l rest : List Char) (h : '\n' ∉ l) : line (l ++ '\n' :: rest) = (l, rest) := by
  simp [line, readline_eq l rest h]

theorem line_last (l : List Char) (h : '\n' ∉ l) : line l = (l.dropLast, []) := by
  simp [line, readline_last l h]

theorem line_nil : line [] = ([], []) := rfl

/-- A prefix of a text whose first line is `l`: it stops within the line, or contains it. -/
theorem prefix_cases {p l rest : List Char} (hp : p <+: l ++ '\n' :: rest) :
    p <+: l ∨ ∃ p', p = l ++ '\n' :: p' ∧ p' <+: rest := by
  rcases List.prefix_or_prefix_of_prefix hp (List.prefix_append l _) with h | ⟨q, rfl⟩
  · exact Or.inl h
  · have hq := (List.prefix_append_right_inj l).1 hp
    cases q with
    | nil => left; simp
    | cons c q =>
      obtain ⟨rfl, hq'⟩ := List.cons_prefix_cons.1 hq
      exact Or.inr ⟨q, rfl, hq'⟩

theorem line_prefix {p l : List Char} (hp : p <+: l) (h : '\n' ∉ l) : line p = (p.dropLast, []) :=
  line_last p (fun hm => h (hp.subset hm))

end Files
end Jajapy
