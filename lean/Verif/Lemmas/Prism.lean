import Verif.Model.Prism
import Verif.Spec.Prism
import Verif.Lemmas.Files

/-!
Lemmas for C76: the words of the text of a Prism file.
-/

namespace Jajapy.Prism

open Spec.Prism Files

/-! ### The lexer -/

theorem number_length (c : Char) (s : List Char) (hc : Spec.Prism.isDigit c = true) : (number (c :: s)).2.length ≤ s.length := by
  have h1 : (spanDigits (c :: s)).2.length ≤ s.length := by
    simp only [spanDigits, List.dropWhile_cons, hc, if_true]
    exact (List.dropWhile_sublist _).length_le
  have h0 : ∀ s : List Char, (spanDigits s).2.length ≤ s.length := fun s => (List.dropWhile_sublist _).length_le
  have h2 : ∀ s : List Char, (spanFraction s).2.length ≤ s.length := by
    intro s
    unfold spanFraction
    split
    · split_ifs
      · simp
      · have := h0 (by assumption); simp only [List.length_cons]; omega
    · simp
  have h3 : ∀ s : List Char, (spanExponent s).2.length ≤ s.length := by
    intro s
    unfold spanExponent
    split
    · rename_i c s
      split_ifs
      · cases s with
        | nil => simp
        | cons d s' =>
          dsimp only
          have e1 := h0 s'
          have e2 := h0 (d :: s')
          split_ifs <;> simp only [List.length_cons] at * <;> omega
      · simp
    · simp
  unfold number
  dsimp only
  exact (h3 _).trans ((h2 _).trans h1)

theorem word_length {c : Char} {s : List Char} {t : Tok} {s' : List Char} (h : word (c :: s) = some (t, s')) :
    s'.length ≤ s.length := by
  unfold word at h
  dsimp only at h
  split_ifs at h with h1 h2 h3 h4 h5 h6
  · injection h with h; injection h with _ h; rw [← h]; exact (List.dropWhile_sublist _).length_le
  · injection h with h
    have := number_length c s h2
    rw [h] at this
    exact this
  · cases hd : s.dropWhile (· ≠ '"') with
    | nil => rw [hd] at h; cases h
    | cons a l =>
      rw [hd] at h
      injection h with h; injection h with _ h
      have := (List.dropWhile_sublist (l := s) (· ≠ '"')).length_le
      rw [hd] at this
      rw [← h]
      simp only [List.length_cons] at this
      omega
  · injection h with h; injection h with _ h; rw [← h]; simp
  · injection h with h; injection h with _ h; rw [← h]; simp
  · injection h with h; injection h with _ h; rw [← h]

theorem lexN_eq (s : List Char) : ∀ f, s.length ≤ f → lexN f s = lex s := by
  suffices H : ∀ n, ∀ s : List Char, s.length ≤ n → ∀ f, s.length ≤ f → lexN f s = lex s from H s.length s le_rfl
  intro n
  induction n with
  | zero =>
    intro s hs f _
    have : s = [] := List.length_eq_zero_iff.1 (by omega)
    subst this
    cases f <;> rfl
  | succ n ih =>
    intro s hs f hf
    cases s with
    | nil => cases f <;> rfl
    | cons c s =>
      simp only [List.length_cons] at hs hf
      obtain ⟨f, rfl⟩ : ∃ g, f = g + 1 := ⟨f - 1, by omega⟩
      show lexN (f + 1) (c :: s) = lexN (s.length + 1) (c :: s)
      simp only [lexN]
      split_ifs
      · rw [ih s (by omega) f (by omega), ih s (by omega) s.length le_rfl]
      · cases hw : word (c :: s) with
        | none => rfl
        | some p =>
          obtain ⟨t, s'⟩ := p
          have := word_length hw
          dsimp only
          rw [ih s' (by omega) f (by omega), ih s' (by omega) s.length (by omega)]

theorem lex_nil : lex [] = some [] := rfl

theorem lex_space {c : Char} (h : isSpace c = true) (s : List Char) : lex (c :: s) = lex s := by
  show lexN (s.length + 1) (c :: s) = _
  rw [lexN, if_pos h]
  rfl

theorem lex_word {c : Char} {s : List Char} {t : Tok} {s' : List Char} (hc : isSpace c = false) (h : word (c :: s) = some (t, s')) :
    lex (c :: s) = (lex s').map (t :: ·) := by
  show lexN (s.length + 1) (c :: s) = _
  rw [lexN, if_neg (by simp [hc]), h]
  dsimp only
  rw [lexN_eq s' _ (word_length h)]

/-- The text does not go on with a character of a name. -/
def EndId (s : List Char) : Prop := ∀ c, s.head? = some c → isIdChar c = false

theorem takeWhile_app {p : Char → Bool} (a s : List Char) (ha : ∀ c ∈ a, p c = true) (hs : ∀ c, s.head? = some c → p c = false) :
    (a ++ s).takeWhile p = a ∧ (a ++ s).dropWhile p = s := by
  induction a with
  | nil =>
    cases s with
    | nil => exact ⟨rfl, rfl⟩
    | cons c s => simp [hs c rfl]
  | cons c a ih =>
    have := ih (fun d hd => ha d (List.mem_cons_of_mem _ hd))
    simp [ha c List.mem_cons_self, this]

theorem isSpace_letter {c : Char} (h : isLetter c = true) : isSpace c = false := by
  cases hs : isSpace c with
  | false => rfl
  | true =>
    exfalso
    simp only [isSpace, Bool.or_eq_true, decide_eq_true_eq] at hs
    rcases hs with ((rfl | rfl) | rfl) | rfl <;> revert h <;> decide

theorem isSpace_digit {c : Char} (h : Spec.Prism.isDigit c = true) : isSpace c = false := by
  cases hs : isSpace c with
  | false => rfl
  | true =>
    exfalso
    simp only [isSpace, Bool.or_eq_true, decide_eq_true_eq] at hs
    rcases hs with ((rfl | rfl) | rfl) | rfl <;> revert h <;> decide

theorem lex_ident {c : Char} {t s : List Char} (hc : isLetter c = true) (ht : ∀ d ∈ t, isIdChar d = true) (hs : EndId s) :
    lex (c :: (t ++ s)) = (lex s).map (.id (c :: t) :: ·) := by
  refine lex_word (isSpace_letter hc) ?_
  obtain ⟨h1, h2⟩ := takeWhile_app t s ht hs
  rw [word, if_pos hc, h1, h2]

theorem lex_name {n s : List Char} (hn : IsName n) (hs : EndId s) : lex (n ++ s) = (lex s).map (.id n :: ·) := by
  obtain ⟨⟨c, t, rfl, hc, ht⟩, _⟩ := hn
  exact lex_ident hc ht hs

/-- The text does not go on with a part of a number. -/
def EndNum (s : List Char) : Prop :=
  (∀ c, s.head? = some c → Spec.Prism.isDigit c = false) ∧ spanFraction s = ([], s) ∧ spanExponent s = ([], s)

theorem digit_not_letter {c : Char} (h : Spec.Prism.isDigit c = true) : isLetter c = false := by
  simp only [Spec.Prism.isDigit, isLetter, Bool.and_eq_true, decide_eq_true_eq, Char.le_def] at *
  have e1 : ('0':Char).val = 48 := rfl
  have e2 : ('9':Char).val = 57 := rfl
  have e3 : ('a':Char).val = 97 := rfl
  have e4 : ('A':Char).val = 65 := rfl
  rw [e1, e2] at h
  simp only [Bool.or_eq_false_iff, Bool.and_eq_false_iff, decide_eq_false_iff_not, Char.le_def]
  refine ⟨⟨Or.inl ?_, Or.inl ?_⟩, ?_⟩
  · rw [e3]; intro h'; exact absurd (UInt32.le_trans h' h.2) (by decide)
  · rw [e4]; intro h'; exact absurd (UInt32.le_trans h' h.2) (by decide)
  · rintro rfl; revert h; decide

theorem lex_number {c : Char} {s : List Char} (hc : Spec.Prism.isDigit c = true) :
    lex (c :: s) = (lex (number (c :: s)).2).map ((number (c :: s)).1 :: ·) := by
  refine lex_word (isSpace_digit hc) ?_
  rw [word, if_neg (by simp [digit_not_letter hc]), if_pos hc]

theorem lex_digits {a s : List Char} (hne : a ≠ []) (ha : ∀ c ∈ a, Spec.Prism.isDigit c = true) (hs : EndNum s) :
    lex (a ++ s) = (lex s).map (.int a :: ·) := by
  obtain ⟨h1, h2⟩ := takeWhile_app a s ha hs.1
  cases a with
  | nil => exact absurd rfl hne
  | cons c a =>
    have : number (c :: a ++ s) = (.int (c :: a), s) := by
      simp only [number, spanDigits, h1, h2, hs.2.1, hs.2.2, List.append_nil, if_true]
    rw [List.cons_append] at this ⊢
    rw [lex_number (ha c List.mem_cons_self), this]

theorem spanFraction_eq {d s : List Char} (hne : d ≠ []) (hd : ∀ c ∈ d, Spec.Prism.isDigit c = true)
    (hs : ∀ c, s.head? = some c → Spec.Prism.isDigit c = false) : spanFraction ('.' :: (d ++ s)) = ('.' :: d, s) := by
  obtain ⟨h1, h2⟩ := takeWhile_app d s hd hs
  simp only [spanFraction, spanDigits, h1, h2]
  rw [if_neg hne]

theorem spanExponent_eq {e d s : List Char} (he : e = ['e'] ∨ e = ['e', '+'] ∨ e = ['e', '-']) (hne : d ≠ [])
    (hd : ∀ c ∈ d, Spec.Prism.isDigit c = true) (hs : ∀ c, s.head? = some c → Spec.Prism.isDigit c = false) :
    spanExponent (e ++ d ++ s) = (e ++ d, s) := by
  obtain ⟨h1, h2⟩ := takeWhile_app d s hd hs
  rcases he with rfl | rfl | rfl
  · cases d with
    | nil => exact absurd rfl hne
    | cons x d =>
      have hx : ¬ (x = '+' ∨ x = '-') := by
        have := hd x List.mem_cons_self
        rintro (rfl | rfl) <;> revert this <;> decide
      rw [List.cons_append] at h1 h2
      show spanExponent ('e' :: x :: (d ++ s)) = _
      unfold spanExponent
      dsimp only
      rw [if_pos (Or.inl rfl)]
      rw [if_neg hx]
      simp only [spanDigits, h1, h2]
      rw [if_neg (by simp)]
      rfl
  · show spanExponent ('e' :: '+' :: (d ++ s)) = _
    unfold spanExponent
    dsimp only
    rw [if_pos (Or.inl rfl)]
    rw [if_pos (Or.inl rfl)]
    simp only [spanDigits, h1, h2]
    rw [if_neg hne]
    rfl
  · show spanExponent ('e' :: '-' :: (d ++ s)) = _
    unfold spanExponent
    dsimp only
    rw [if_pos (Or.inl rfl)]
    rw [if_pos (Or.inr rfl)]
    simp only [spanDigits, h1, h2]
    rw [if_neg hne]
    rfl

theorem lex_decimal {t s : List Char} (ht : Decimal t) (hs : EndNum s) : lex (t ++ s) = (lex s).map (.real t :: ·) := by
  obtain ⟨a, b, c, rfl, hane, ha, hb, hc, hbc⟩ := ht
  have hc1 : ∀ x, (c ++ s).head? = some x → Spec.Prism.isDigit x = false := by
    rcases hc with rfl | ⟨e, d, he, hd1, hd2, rfl⟩
    · exact hs.1
    · rcases he with rfl | rfl | rfl <;> intro x hx <;> simp at hx <;> subst hx <;> decide
  have hc2 : spanExponent (c ++ s) = (c, s) := by
    rcases hc with rfl | ⟨e, d, he, hd1, hd2, rfl⟩
    · exact hs.2.2
    · exact spanExponent_eq he hd1 hd2 hs.1
  have hb1 : ∀ x, (b ++ (c ++ s)).head? = some x → Spec.Prism.isDigit x = false := by
    rcases hb with rfl | ⟨d, hd1, hd2, rfl⟩
    · exact hc1
    · intro x hx; simp at hx; subst hx; decide
  have hb2 : spanFraction (b ++ (c ++ s)) = (b, c ++ s) := by
    rcases hb with rfl | ⟨d, hd1, hd2, rfl⟩
    · rcases hc with rfl | ⟨e, d, he, hd1, hd2, rfl⟩
      · exact hs.2.1
      · rcases he with rfl | rfl | rfl <;> rfl
    · exact spanFraction_eq hd1 hd2 hc1
  obtain ⟨h1, h2⟩ := takeWhile_app a (b ++ (c ++ s)) ha hb1
  cases a with
  | nil => exact absurd rfl hane
  | cons x a =>
    have : number (x :: a ++ (b ++ (c ++ s))) = (.real (x :: a ++ b ++ c), s) := by
      simp only [number, spanDigits, h1, h2, hb2, hc2]
      rw [if_neg hbc]
    have e : x :: a ++ b ++ c ++ s = x :: (a ++ (b ++ (c ++ s))) := by simp
    rw [e]
    rw [List.cons_append] at this
    rw [lex_number (ha x List.mem_cons_self), this]

theorem lex_quoted {n s : List Char} (hn : '"' ∉ n) : lex ('"' :: (n ++ '"' :: s)) = (lex s).map (.quoted n :: ·) := by
  obtain ⟨h1, h2⟩ := takeWhile_app (p := fun c => decide (c ≠ '"')) n ('"' :: s) (fun c hc => by simp; rintro rfl; exact hn hc)
    (by intro c hc; simp at hc; simp [← hc])
  refine lex_word (by decide) ?_
  rw [word, if_neg (by decide), if_neg (by decide), if_pos rfl, h1, h2]

theorem lex_arrow (s : List Char) : lex ('-' :: '>' :: s) = (lex s).map (.sym ['-', '>'] :: ·) := by
  refine lex_word (by decide) ?_
  rw [word, if_neg (by decide), if_neg (by decide), if_neg (by decide), if_pos ⟨rfl, rfl⟩]
  rfl

theorem lex_dots (s : List Char) : lex ('.' :: '.' :: s) = (lex s).map (.sym ['.', '.'] :: ·) := by
  refine lex_word (by decide) ?_
  rw [word, if_neg (by decide), if_neg (by decide), if_neg (by decide), if_neg (by simp), if_pos ⟨rfl, rfl⟩]
  rfl

/-- A symbol of one character (other than `-` and `.`). -/
theorem lex_sym {c : Char} (hc : c ∈ ['[', ']', '(', ')', ':', ';', '=', '\'', '+', '|', '*', '/', '^']) (s : List Char) :
    lex (c :: s) = (lex s).map (.sym [c] :: ·) := by
  have : isSpace c = false ∧ isLetter c = false ∧ Spec.Prism.isDigit c = false ∧ c ≠ '"' ∧ c ≠ '-' ∧ c ≠ '.' ∧
      c ∈ ['[', ']', '(', ')', ':', ';', '=', '\'', '+', '|', '-', '*', '/', '^'] := by
    revert c; decide
  obtain ⟨h0, h1, h2, h3, h4, h5, h6⟩ := this
  refine lex_word h0 ?_
  rw [word, if_neg (by simp [h1]), if_neg (by simp [h2]), if_neg h3, if_neg (fun h => h4 h.1), if_neg (fun h => h5 h.1), if_pos h6]

/-! ### Natural numbers -/

theorem reprNat_digits (k : ℕ) : reprNat k ≠ [] ∧ (∀ c ∈ reprNat k, Spec.Prism.isDigit c = true) ∧ natOf (reprNat k) = k := by
  obtain ⟨h1, h2, h3⟩ := reprNat_spec k
  exact ⟨h1, h2, h3⟩

theorem lex_nat (k : ℕ) {s : List Char} (hs : EndNum s) : lex (reprNat k ++ s) = (lex s).map (.int (reprNat k) :: ·) :=
  lex_digits (reprNat_digits k).1 (reprNat_digits k).2.1 hs

theorem endNum_cons {c : Char} (h : Spec.Prism.isDigit c = false ∧ c ≠ '.' ∧ c ≠ 'e' ∧ c ≠ 'E') (s : List Char) : EndNum (c :: s) := by
  obtain ⟨h1, h2, h3, h4⟩ := h
  refine ⟨fun d hd => by simp at hd; rw [← hd]; exact h1, ?_, ?_⟩
  · unfold spanFraction
    split
    · rename_i e; injection e with e; exact absurd e h2
    · rfl
  · unfold spanExponent
    dsimp only
    rw [if_neg (by rintro (h | h) <;> contradiction)]

theorem endNum_dots (s : List Char) : EndNum ('.' :: '.' :: s) := by
  refine ⟨fun d hd => by simp at hd; rw [← hd]; decide, rfl, rfl⟩

theorem endId_cons {c : Char} (h : isIdChar c = false) (s : List Char) : EndId (c :: s) := fun d hd => by simp at hd; rw [← hd]; exact h

/-! ### Commands -/

/-- The text `p` is read as the words `ts`, before a colon or a space. -/
def LexesTo (p : List Char) (ts : List Tok) : Prop :=
  ∀ c s, (c = ':' ∨ c = ' ') → lex (p ++ c :: s) = (lex (c :: s)).map (ts ++ ·)

theorem lexesTo_decimal {t : List Char} (ht : Decimal t) : LexesTo t [.real t] := by
  intro c s hc
  rw [lex_decimal ht (endNum_cons (by rcases hc with rfl | rfl <;> decide) s)]
  rfl

/-- The updates without the last ` +`. -/
def upsText (colon : List Char) : List (List Char × ℕ) → List Char
  | [] => []
  | [u] => ' ' :: (u.1 ++ colon ++ "(s'=".toList ++ reprNat u.2 ++ [')'])
  | u :: v :: us => updateText colon u.1 u.2 ++ upsText colon (v :: us)

theorem drop_two (colon : List Char) (us : List (List Char × ℕ)) (h : us ≠ []) :
    ∃ t, us.flatMap (fun u => updateText colon u.1 u.2) = t ++ [' ', '+'] ∧ t = upsText colon us := by
  induction us with
  | nil => exact absurd rfl h
  | cons u us ih =>
    cases us with
    | nil =>
      refine ⟨_, ?_, rfl⟩
      simp [updateText, upsText]
    | cons v us =>
      obtain ⟨t, h1, h2⟩ := ih (by simp)
      refine ⟨_, ?_, rfl⟩
      rw [List.flatMap_cons, h1, h2, upsText]
      simp

theorem commandText_eq (colon action : List Char) (s : ℕ) (us : List (List Char × ℕ)) (h : us ≠ []) :
    commandText colon action s us = '\t' :: '[' :: (action ++ "] s=".toList ++ reprNat s ++ " ->".toList ++ upsText colon us ++ [';', '\n']) := by
  obtain ⟨t, h1, h2⟩ := drop_two colon us h
  unfold commandText
  rw [h1, h2]
  have : ∀ a b : List Char, ('\t' :: '[' :: (a ++ (b ++ [' ', '+']))).dropLast.dropLast = '\t' :: '[' :: (a ++ b) := by
    intro a b
    have e : '\t' :: '[' :: (a ++ (b ++ [' ', '+'])) = ('\t' :: '[' :: (a ++ b) ++ [' ']) ++ ['+'] := by simp
    rw [e, List.dropLast_concat, List.dropLast_concat]
  rw [this]
  simp

/-- The words of an update. -/
def upToks (tok : List Char → List Tok) (u : List Char × ℕ) : List Tok :=
  tok u.1 ++ [.sym [':'], .sym ['('], .id ['s'], .sym ['\''], .sym ['='], .int (reprNat u.2), .sym [')']]

/-- The words of the updates of a command. -/
def upsToks (tok : List Char → List Tok) : List (List Char × ℕ) → List Tok
  | [] => []
  | [u] => upToks tok u
  | u :: v :: us => upToks tok u ++ .sym ['+'] :: upsToks tok (v :: us)

theorem map_map_append (o : Option (List Tok)) (a b : List Tok) : (o.map (b ++ ·)).map (a ++ ·) = o.map ((a ++ b) ++ ·) := by
  cases o <;> simp

theorem lex_dest (j : ℕ) (s : List Char) :
    lex ("(s'=".toList ++ reprNat j ++ ')' :: s) =
      (lex s).map ([.sym ['('], .id ['s'], .sym ['\''], .sym ['='], .int (reprNat j), .sym [')']] ++ ·) := by
  have e : "(s'=".toList ++ reprNat j ++ ')' :: s = '(' :: 's' :: ([] ++ '\'' :: '=' :: (reprNat j ++ ')' :: s)) := by simp
  rw [e, lex_sym (by decide), lex_ident (by decide) (by simp) (endId_cons (by decide) _), lex_sym (by decide), lex_sym (by decide),
    lex_nat j (endNum_cons (by decide) _), lex_sym (by decide)]
  cases lex s <;> rfl

/-- The text between the probability and `(`. -/
def Colon (c : List Char) : Prop := c = [':'] ∨ c = [' ', ':', ' ']

theorem lex_update {colon : List Char} (hc : Colon colon) {tok : List Char → List Tok} {u : List Char × ℕ} (hu : LexesTo u.1 (tok u.1))
    (s : List Char) : lex (' ' :: (u.1 ++ colon ++ "(s'=".toList ++ reprNat u.2 ++ ')' :: s)) = (lex s).map (upToks tok u ++ ·) := by
  rw [lex_space (by decide)]
  have e : u.1 ++ colon ++ "(s'=".toList ++ reprNat u.2 ++ ')' :: s = u.1 ++ (colon ++ ("(s'=".toList ++ reprNat u.2 ++ ')' :: s)) := by simp
  have h1 : lex (colon ++ ("(s'=".toList ++ reprNat u.2 ++ ')' :: s)) =
      (lex s).map (.sym [':'] :: [.sym ['('], .id ['s'], .sym ['\''], .sym ['='], .int (reprNat u.2), .sym [')']] ++ ·) := by
    rcases hc with rfl | rfl
    · rw [List.cons_append, List.nil_append, lex_sym (by decide), lex_dest]
      cases lex s <;> rfl
    · rw [List.cons_append, List.cons_append, List.cons_append, List.nil_append, lex_space (by decide), lex_sym (by decide), lex_space (by decide), lex_dest]
      cases lex s <;> rfl
  have h2 : lex (u.1 ++ (colon ++ ("(s'=".toList ++ reprNat u.2 ++ ')' :: s))) =
      (lex (colon ++ ("(s'=".toList ++ reprNat u.2 ++ ')' :: s))).map (tok u.1 ++ ·) := by
    rcases hc with rfl | rfl
    · exact hu ':' _ (Or.inl rfl)
    · exact hu ' ' _ (Or.inr rfl)
  rw [e, h2, h1, map_map_append]
  rfl

theorem lex_ups {colon : List Char} (hc : Colon colon) {tok : List Char → List Tok} (us : List (List Char × ℕ)) (h : us ≠ [])
    (hu : ∀ u ∈ us, LexesTo u.1 (tok u.1)) (s : List Char) :
    lex (upsText colon us ++ ';' :: s) = (lex s).map ((upsToks tok us ++ [.sym [';']]) ++ ·) := by
  induction us with
  | nil => exact absurd rfl h
  | cons u us ih =>
    cases us with
    | nil =>
      have e : upsText colon [u] ++ ';' :: s = ' ' :: (u.1 ++ colon ++ "(s'=".toList ++ reprNat u.2 ++ ')' :: (';' :: s)) := by
        simp [upsText]
      rw [e, lex_update hc (hu u List.mem_cons_self), lex_sym (by decide)]
      cases lex s <;> simp [upsToks]
    | cons v us =>
      have e : upsText colon (u :: v :: us) ++ ';' :: s =
          ' ' :: (u.1 ++ colon ++ "(s'=".toList ++ reprNat u.2 ++ ')' :: (' ' :: '+' :: (upsText colon (v :: us) ++ ';' :: s))) := by
        simp [upsText, updateText]
      rw [e, lex_update hc (hu u List.mem_cons_self), lex_space (by decide), lex_sym (by decide),
        ih (by simp) (fun w hw => hu w (List.mem_cons_of_mem _ hw))]
      cases lex s <;> simp [upsToks]

/-- The words of an action in brackets. -/
def actionToks (action : List Char) : List Tok := if action = [] then [] else [.id action]

theorem lex_command {colon : List Char} (hc : Colon colon) {tok : List Char → List Tok} (action : List Char) (ha : action = [] ∨ IsName action)
    (i : ℕ) (us : List (List Char × ℕ)) (h : us ≠ []) (hu : ∀ u ∈ us, LexesTo u.1 (tok u.1)) (s : List Char) :
    lex (commandText colon action i us ++ s) = (lex s).map ((.sym ['['] :: (actionToks action ++ .sym [']'] :: .id ['s'] :: .sym ['='] ::
      .int (reprNat i) :: .sym ['-', '>'] :: (upsToks tok us ++ [.sym [';']]))) ++ ·) := by
  rw [commandText_eq _ _ _ _ h]
  have e : '\t' :: '[' :: (action ++ "] s=".toList ++ reprNat i ++ " ->".toList ++ upsText colon us ++ [';', '\n']) ++ s =
      '\t' :: '[' :: (action ++ (']' :: ' ' :: 's' :: ([] ++ '=' :: (reprNat i ++ (' ' :: '-' :: '>' :: (upsText colon us ++ ';' :: '\n' :: s)))))) := by
    simp
  have h1 : ∀ r, lex (action ++ ']' :: r) = (lex r).map ((actionToks action ++ [.sym [']']]) ++ ·) := by
    intro r
    rcases ha with rfl | ha
    · rw [List.nil_append, lex_sym (by decide)]; rfl
    · rw [lex_name ha (endId_cons (by decide) _), lex_sym (by decide), actionToks, if_neg (by rintro rfl; exact absurd ha (by decide))]
      cases lex r <;> rfl
  rw [e, lex_space (by decide), lex_sym (by decide), h1, lex_space (by decide), lex_ident (by decide) (by simp) (endId_cons (by decide) _),
    lex_sym (by decide), lex_nat i (endNum_cons (by decide) _), lex_space (by decide), lex_arrow, lex_ups hc us h hu, lex_space (by decide)]
  cases lex s <;> simp

/-! ### Reading the words of commands -/

section
variable {V : Type} {expr : List Tok → Option V} {tok : List Char → List Tok} {val : List Char → V}

theorem update_eq (u : List Char × ℕ) (h1 : expr (tok u.1) = some (val u.1)) (h2 : Tok.sym [':'] ∉ tok u.1) (r : List Tok) :
    update expr ['s'] (upToks tok u ++ r) = some ((val u.1, u.2), r) := by
  have e : upToks tok u ++ r = tok u.1 ++ (.sym [':'] :: .sym ['('] :: .id ['s'] :: .sym ['\''] :: .sym ['='] :: .int (reprNat u.2) :: .sym [')'] :: r) := by
    simp [upToks]
  have ht : ∀ a : List Tok, Tok.sym [':'] ∉ a → ∀ b, (a ++ Tok.sym [':'] :: b).takeWhile (· ≠ .sym [':']) = a ∧
      (a ++ Tok.sym [':'] :: b).dropWhile (· ≠ .sym [':']) = .sym [':'] :: b := by
    intro a ha b
    induction a with
    | nil => simp
    | cons x a ih =>
      have hx : x ≠ .sym [':'] := fun h => ha (by rw [h]; exact List.mem_cons_self)
      have := ih (fun h => ha (List.mem_cons_of_mem _ h))
      rw [List.cons_append, List.takeWhile_cons, List.dropWhile_cons, if_pos (by simpa using hx), if_pos (by simpa using hx), this.1, this.2]
      exact ⟨rfl, rfl⟩
  unfold update
  rw [e, (ht _ h2 _).1, (ht _ h2 _).2, h1, Option.bind_some]
  show (if ['s'] = ['s'] then some ((val u.1, natOf (reprNat u.2)), r) else none) = _
  rw [if_pos rfl, (reprNat_digits u.2).2.2]

theorem updatesN_eq (us : List (List Char × ℕ)) (h : us ≠ [])
    (hu : ∀ u ∈ us, expr (tok u.1) = some (val u.1) ∧ Tok.sym [':'] ∉ tok u.1) (f : ℕ) (hf : us.length ≤ f) (r : List Tok) :
    updatesN expr ['s'] f (upsToks tok us ++ .sym [';'] :: r) = some (us.map (fun u => (val u.1, u.2)), r) := by
  induction us generalizing f with
  | nil => exact absurd rfl h
  | cons u us ih =>
    obtain ⟨f, rfl⟩ : ∃ g, f = g + 1 := ⟨f - 1, by simp only [List.length_cons] at hf; omega⟩
    obtain ⟨h1, h2⟩ := hu u List.mem_cons_self
    cases us with
    | nil =>
      rw [updatesN]
      simp only [upsToks]
      rw [update_eq u h1 h2]
      rfl
    | cons v us =>
      have e : upsToks tok (u :: v :: us) ++ .sym [';'] :: r = upToks tok u ++ (.sym ['+'] :: (upsToks tok (v :: us) ++ .sym [';'] :: r)) := by
        simp [upsToks]
      rw [e, updatesN, update_eq u h1 h2]
      show (updatesN expr ['s'] f (upsToks tok (v :: us) ++ .sym [';'] :: r)).map (fun p => ((val u.1, u.2) :: p.1, p.2)) = _
      rw [ih (by simp) (fun w hw => hu w (List.mem_cons_of_mem _ hw)) f (by simp only [List.length_cons] at hf ⊢; omega)]
      rfl

/-- A command of the file: action, source, updates. -/
abbrev Cmd := List Char × ℕ × List (List Char × ℕ)

/-- What the commands must satisfy to be read. -/
def CmdOK (expr : List Tok → Option V) (tok : List Char → List Tok) (val : List Char → V) (c : Cmd) : Prop :=
  (c.1 = [] ∨ IsName c.1) ∧ c.2.2 ≠ [] ∧
    ∀ u ∈ c.2.2, LexesTo u.1 (tok u.1) ∧ expr (tok u.1) = some (val u.1) ∧ Tok.sym [':'] ∉ tok u.1

/-- The words of a command. -/
def cmdToks (tok : List Char → List Tok) (c : Cmd) : List Tok :=
  .sym ['['] :: (actionToks c.1 ++ .sym [']'] :: .id ['s'] :: .sym ['='] :: .int (reprNat c.2.1) :: .sym ['-', '>'] ::
    (upsToks tok c.2.2 ++ [.sym [';']]))

/-- The command that is read. -/
def cmdOf (val : List Char → V) (c : Cmd) : Command V :=
  ⟨if c.1 = [] then none else some c.1, c.2.1, c.2.2.map (fun u => (val u.1, u.2))⟩

theorem upsToks_length (us : List (List Char × ℕ)) : us.length ≤ (upsToks tok us).length := by
  induction us with
  | nil => simp [upsToks]
  | cons u us ih =>
    cases us with
    | nil => simp [upsToks, upToks]
    | cons v us => simp only [upsToks, upToks, List.length_append, List.length_cons] at ih ⊢; omega

theorem command_eq {c : Cmd} (hc : CmdOK expr tok val c) (r : List Tok) :
    command expr ['s'] (cmdToks tok c ++ r) = some (cmdOf val c, r) := by
  obtain ⟨a, i, us⟩ := c
  obtain ⟨ha, hne, hu⟩ := hc
  dsimp only at ha hne hu
  have e : cmdToks tok (a, i, us) ++ r = .sym ['['] :: (actionToks a ++ .sym [']'] :: .id ['s'] :: .sym ['='] :: .int (reprNat i) ::
      .sym ['-', '>'] :: (upsToks tok us ++ .sym [';'] :: r)) := by
    simp [cmdToks]
  have hact : ∀ r, actionOf (.sym ['['] :: (actionToks a ++ .sym [']'] :: r)) = some (if a = [] then none else some a, r) := by
    intro r
    unfold actionToks
    by_cases h0 : a = []
    · rw [if_pos h0, if_pos h0]; rfl
    · rw [if_neg h0, if_neg h0]
      have hn : IsName a := ha.resolve_left h0
      show (if IsName a then some (some a, r) else none) = _
      rw [if_pos hn]
  unfold command
  rw [e, hact]
  show (if ['s'] = ['s'] then (updatesN expr ['s'] (upsToks tok us ++ .sym [';'] :: r).length (upsToks tok us ++ .sym [';'] :: r)).map
    (fun p => ((⟨if a = [] then none else some a, natOf (reprNat i), p.1⟩ : Command V), p.2)) else none) = _
  rw [if_pos rfl, updatesN_eq us hne (fun u h => (hu u h).2) _ ?_]
  · simp [cmdOf, (reprNat_digits i).2.2]
  · have := upsToks_length (tok := tok) us
    rw [List.length_append]
    omega

theorem commandsN_eq (cs : List Cmd) (hc : ∀ c ∈ cs, CmdOK expr tok val c) (f : ℕ) (hf : cs.length < f) (r : List Tok) :
    commandsN expr ['s'] f (cs.flatMap (cmdToks tok) ++ .id "endmodule".toList :: r) = some (cs.map (cmdOf val), r) := by
  induction cs generalizing f with
  | nil =>
    obtain ⟨f, rfl⟩ : ∃ g, f = g + 1 := ⟨f - 1, by omega⟩
    rw [commandsN]
    simp
  | cons c cs ih =>
    obtain ⟨f, rfl⟩ : ∃ g, f = g + 1 := ⟨f - 1, by omega⟩
    have e : (c :: cs).flatMap (cmdToks tok) ++ .id "endmodule".toList :: r = cmdToks tok c ++ (cs.flatMap (cmdToks tok) ++ .id "endmodule".toList :: r) := by
      simp
    rw [e, commandsN, if_neg (by simp [cmdToks]), command_eq (hc c List.mem_cons_self)]
    dsimp only
    rw [ih (fun d hd => hc d (List.mem_cons_of_mem _ hd)) f (by simp only [List.length_cons] at hf; omega)]
    rfl

theorem lex_commands {colon : List Char} (hcol : Colon colon) (cs : List Cmd) (hc : ∀ c ∈ cs, CmdOK expr tok val c) (s : List Char) :
    lex (cs.flatMap (fun c => commandText colon c.1 c.2.1 c.2.2) ++ s) = (lex s).map (cs.flatMap (cmdToks tok) ++ ·) := by
  induction cs with
  | nil => cases h : lex s <;> simp [h]
  | cons c cs ih =>
    have h := hc c List.mem_cons_self
    rw [List.flatMap_cons, List.append_assoc, lex_command hcol c.1 h.1 c.2.1 c.2.2 h.2.1 (fun u hu => (h.2.2 u hu).1),
      ih (fun d hd => hc d (List.mem_cons_of_mem _ hd)), map_map_append]
    simp only [List.flatMap_cons]
    rfl

theorem cmds_length (cs : List Cmd) : cs.length ≤ (cs.flatMap (cmdToks tok)).length := by
  induction cs with
  | nil => simp
  | cons c cs ih => simp only [List.flatMap_cons, List.length_append, List.length_cons, cmdToks] at ih ⊢; omega

end

/-! ### Labels -/

/-- `s=i | s=j | …`, as it is written. -/
def guardsText : List ℕ → List Char
  | [] => []
  | [i] => " s=".toList ++ reprNat i ++ [' ']
  | i :: j :: l => " s=".toList ++ reprNat i ++ " |".toList ++ guardsText (j :: l)

theorem guards_drop (l : List ℕ) (h : l ≠ []) : l.flatMap (fun s => " s=".toList ++ reprNat s ++ " |".toList) = guardsText l ++ ['|'] := by
  induction l with
  | nil => exact absurd rfl h
  | cons i l ih =>
    cases l with
    | nil => simp [guardsText]
    | cons j l => rw [List.flatMap_cons, ih (by simp), guardsText]; simp

theorem labelText_eq (p : String × List ℕ) (h : p.2 ≠ []) :
    labelText p = "label \"".toList ++ p.1.toList ++ "\" =".toList ++ guardsText p.2 ++ [';', '\n'] := by
  unfold labelText
  rw [guards_drop p.2 h, ← List.append_assoc, List.dropLast_concat]

/-- The words of the states of a label. -/
def guardsToks : List ℕ → List Tok
  | [] => []
  | [i] => [.id ['s'], .sym ['='], .int (reprNat i)]
  | i :: j :: l => .id ['s'] :: .sym ['='] :: .int (reprNat i) :: .sym ['|'] :: guardsToks (j :: l)

theorem lex_guards (l : List ℕ) (h : l ≠ []) (s : List Char) :
    lex (guardsText l ++ ';' :: s) = (lex s).map ((guardsToks l ++ [.sym [';']]) ++ ·) := by
  induction l with
  | nil => exact absurd rfl h
  | cons i l ih =>
    have e0 : ∀ r, " s=".toList ++ reprNat i ++ ' ' :: r = ' ' :: 's' :: ([] ++ '=' :: (reprNat i ++ ' ' :: r)) := by intro r; simp
    have h0 : ∀ r, lex (" s=".toList ++ reprNat i ++ ' ' :: r) = (lex r).map ([.id ['s'], .sym ['='], .int (reprNat i)] ++ ·) := by
      intro r
      rw [e0, lex_space (by decide), lex_ident (by decide) (by simp) (endId_cons (by decide) _), lex_sym (by decide),
        lex_nat i (endNum_cons (by decide) _), lex_space (by decide)]
      cases lex r <;> rfl
    cases l with
    | nil =>
      have e : guardsText [i] ++ ';' :: s = " s=".toList ++ reprNat i ++ ' ' :: (';' :: s) := by simp [guardsText]
      rw [e, h0, lex_sym (by decide)]
      cases lex s <;> simp [guardsToks]
    | cons j l =>
      have e : guardsText (i :: j :: l) ++ ';' :: s = " s=".toList ++ reprNat i ++ ' ' :: ('|' :: (guardsText (j :: l) ++ ';' :: s)) := by
        simp [guardsText]
      rw [e, h0, lex_sym (by decide), ih (by simp)]
      cases lex s <;> simp [guardsToks]

theorem guardsN_eq (l : List ℕ) (h : l ≠ []) (f : ℕ) (hf : l.length ≤ f) (r : List Tok) :
    guardsN ['s'] f (guardsToks l ++ .sym [';'] :: r) = some (l, r) := by
  induction l generalizing f with
  | nil => exact absurd rfl h
  | cons i l ih =>
    obtain ⟨f, rfl⟩ : ∃ g, f = g + 1 := ⟨f - 1, by simp only [List.length_cons] at hf; omega⟩
    cases l with
    | nil => simp [guardsToks, guardsN, (reprNat_digits i).2.2]
    | cons j l =>
      simp only [guardsToks, List.cons_append, guardsN, if_true]
      rw [ih (by simp) f (by simp only [List.length_cons] at hf ⊢; omega)]
      simp [(reprNat_digits i).2.2]

/-- The words of a label. -/
def labelToks (p : String × List ℕ) : List Tok :=
  .id "label".toList :: .quoted p.1.toList :: .sym ['='] :: (guardsToks p.2 ++ [.sym [';']])

theorem quote_name {n : List Char} (h : IsName n) : '"' ∉ n := by
  obtain ⟨⟨c, t, rfl, hc, ht⟩, _⟩ := h
  intro hm
  rcases List.mem_cons.1 hm with h | h
  · subst h; revert hc; decide
  · have := ht _ h; revert this; decide

theorem lex_labels (ls : List (String × List ℕ)) (h : ∀ p ∈ ls, IsName p.1.toList ∧ p.2 ≠ []) :
    lex (ls.flatMap labelText) = some (ls.flatMap labelToks) := by
  induction ls with
  | nil => rfl
  | cons p ls ih =>
    obtain ⟨h1, h2⟩ := h p List.mem_cons_self
    have e : (p :: ls).flatMap labelText = 'l' :: (['a', 'b', 'e', 'l'] ++ (' ' :: '"' :: (p.1.toList ++ '"' :: (' ' :: '=' :: (guardsText p.2 ++ ';' :: ('\n' ::
        ls.flatMap labelText)))))) := by
      rw [List.flatMap_cons, labelText_eq p h2]; simp
    rw [e, lex_ident (by decide) (by decide) (endId_cons (by decide) _), lex_space (by decide), lex_quoted (quote_name h1), lex_space (by decide),
      lex_sym (by decide), lex_guards p.2 h2, lex_space (by decide), ih (fun q hq => h q (List.mem_cons_of_mem _ hq))]
    simp [labelToks]

theorem guardsToks_length (l : List ℕ) : l.length ≤ (guardsToks l).length := by
  induction l with
  | nil => simp
  | cons i l ih =>
    cases l with
    | nil => simp [guardsToks]
    | cons j l => simp only [guardsToks, List.length_cons] at ih ⊢; omega

theorem labelsN_eq (ls : List (String × List ℕ)) (h : ∀ p ∈ ls, IsName p.1.toList ∧ p.2 ≠ []) (f : ℕ) (hf : ls.length ≤ f) :
    labelsN ['s'] f (ls.flatMap labelToks) = some (ls.map (fun p => (p.1.toList, p.2))) := by
  induction ls generalizing f with
  | nil => cases f <;> rfl
  | cons p ls ih =>
    obtain ⟨f, rfl⟩ : ∃ g, f = g + 1 := ⟨f - 1, by simp only [List.length_cons] at hf; omega⟩
    obtain ⟨h1, h2⟩ := h p List.mem_cons_self
    have e : (p :: ls).flatMap labelToks = .id "label".toList :: .quoted p.1.toList :: .sym ['='] :: (guardsToks p.2 ++ .sym [';'] :: ls.flatMap labelToks) := by
      simp [labelToks]
    rw [e, labelsN, if_pos ⟨rfl, h1⟩, guardsN_eq p.2 h2]
    · dsimp only
      rw [ih (fun q hq => h q (List.mem_cons_of_mem _ hq)) f (by simp only [List.length_cons] at hf; omega)]
      rfl
    · have := guardsToks_length p.2
      rw [List.length_append]
      omega

theorem labels_length (ls : List (String × List ℕ)) : ls.length ≤ (ls.flatMap labelToks).length := by
  induction ls with
  | nil => simp
  | cons c cs ih => simp only [List.flatMap_cons, List.length_append, List.length_cons, labelToks] at ih ⊢; omega

/-! ### The whole file -/

/-- The words of `module name s : [0..hi] init k;`. -/
def headToks (name : List Char) (hi k : ℕ) : List Tok :=
  [.id "module".toList, .id name, .id ['s'], .sym [':'], .sym ['['], .int ['0'], .sym ['.', '.'], .int (reprNat hi), .sym [']'], .id "init".toList,
    .int (reprNat k), .sym [';']]

theorem lex_variable (hi k : ℕ) (s : List Char) :
    lex (variableText hi k ++ s) = (lex s).map ([.id ['s'], .sym [':'], .sym ['['], .int ['0'], .sym ['.', '.'], .int (reprNat hi), .sym [']'],
      .id "init".toList, .int (reprNat k), .sym [';']] ++ ·) := by
  have h1 : ∀ r, lex ('s' :: ([] ++ ':' :: r)) = (lex r).map ([.id ['s'], .sym [':']] ++ ·) := by
    intro r
    rw [lex_ident (by decide) (by simp) (endId_cons (by decide) _), lex_sym (by decide)]
    cases lex r <;> rfl
  have h2 : ∀ r, lex ('[' :: (['0'] ++ '.' :: '.' :: r)) = (lex r).map ([.sym ['['], .int ['0'], .sym ['.', '.']] ++ ·) := by
    intro r
    rw [lex_sym (by decide), lex_digits (by simp) (by decide) (endNum_dots _), lex_dots]
    cases lex r <;> rfl
  have h3 : ∀ r, lex (reprNat hi ++ ']' :: r) = (lex r).map ([.int (reprNat hi), .sym [']']] ++ ·) := by
    intro r
    rw [lex_nat hi (endNum_cons (by decide) _), lex_sym (by decide)]
    cases lex r <;> rfl
  have h4 : ∀ r, lex ('i' :: (['n', 'i', 't'] ++ ' ' :: r)) = (lex r).map ([.id "init".toList] ++ ·) := by
    intro r
    rw [lex_ident (by decide) (by decide) (endId_cons (by decide) _), lex_space (by decide)]
    cases lex r <;> rfl
  have h5 : ∀ r, lex (reprNat k ++ ';' :: r) = (lex r).map ([.int (reprNat k), .sym [';']] ++ ·) := by
    intro r
    rw [lex_nat k (endNum_cons (by decide) _), lex_sym (by decide)]
    cases lex r <;> rfl
  obtain ⟨tl, htl⟩ : ∃ tl : List Char, tl = 'i' :: (['n', 'i', 't'] ++ ' ' :: (reprNat k ++ ';' :: '\n' :: '\n' :: s)) := ⟨_, rfl⟩
  have e : variableText hi k ++ s = '\t' :: 's' :: ([] ++ ':' :: ' ' :: '[' :: (['0'] ++ '.' :: '.' :: (reprNat hi ++ ']' :: ' ' :: tl))) := by
    subst htl
    have e1 : "\ts: [0..".toList = ['\t', 's', ':', ' ', '[', '0', '.', '.'] := rfl
    have e2 : "] init ".toList = [']', ' ', 'i', 'n', 'i', 't', ' '] := rfl
    have e3 : ";\n\n".toList = [';', '\n', '\n'] := rfl
    unfold variableText
    rw [e1, e2, e3]
    generalize reprNat hi = a
    generalize reprNat k = b
    simp only [List.append_assoc, List.cons_append, List.nil_append]
  rw [e, lex_space (by decide), h1, lex_space (by decide), h2, h3, lex_space (by decide), htl, h4, h5, lex_space (by decide), lex_space (by decide)]
  cases lex s <;> rfl

theorem lex_head {name : List Char} (hn : IsName name) (hi k : ℕ) (s : List Char) :
    lex ("module ".toList ++ name ++ ['\n'] ++ variableText hi k ++ s) = (lex s).map (headToks name hi k ++ ·) := by
  have e : "module ".toList ++ name ++ ['\n'] ++ variableText hi k ++ s = 'm' :: (['o', 'd', 'u', 'l', 'e'] ++ ' ' :: (name ++ '\n' :: (variableText hi k ++ s))) := by
    simp
  rw [e, lex_ident (by decide) (by decide) (endId_cons (by decide) _), lex_space (by decide), lex_name hn (endId_cons (by decide) _), lex_space (by decide),
    lex_variable]
  cases lex s <;> rfl

theorem header_eq {name : List Char} (hn : IsName name) (hi k : ℕ) (r : List Tok) :
    header (headToks name hi k ++ r) = some ((name, ['s'], 0, hi, k), r) := by
  have h0 : IsName ['s'] := by decide
  simp only [headToks, List.cons_append, List.nil_append, header]
  rw [if_pos ⟨trivial, trivial, hn, h0⟩, (reprNat_digits hi).2.2, (reprNat_digits k).2.2]
  rfl

end Jajapy.Prism
