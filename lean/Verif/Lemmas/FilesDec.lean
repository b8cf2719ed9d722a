import Mathlib.Tactic.FieldSimp
import Verif.Lemmas.Files

/-!
A concrete instance of the contract on floats: rational numbers with a finite decimal expansion, written with a decimal
point. It shows that the contract can be met, and it is used for the counterexamples.
-/

namespace Jajapy
namespace Files

/-- The number of digits after the point. -/
def decPlaces (x : ℚ) : ℕ := max 1 (((List.range (x.den + 1)).find? (fun k => x.den ∣ 10 ^ k)).getD 0)

/-- `digits` with at least `k + 1` digits. -/
def padded (k m : ℕ) : List Char := List.replicate (k + 1 - (reprNat m).length) '0' ++ reprNat m

def decRepr (x : ℚ) : List Char :=
  let k := decPlaces x
  let ds := padded k (x.num.natAbs * 10 ^ k / x.den)
  let body := ds.take (ds.length - k) ++ '.' :: ds.drop (ds.length - k)
  if x < 0 then '-' :: body else body

def decParseBody (s : List Char) : Option ℚ :=
  match s.dropWhile isDigit with
  | '.' :: b =>
    if b.all isDigit ∧ s.takeWhile isDigit ≠ [] then
      some ((natOfDigits (s.takeWhile isDigit ++ b) : ℚ) / 10 ^ b.length) else none
  | _ => none

def decParse : List Char → Option ℚ
  | '-' :: s => (decParseBody s).map (fun x => -x)
  | s => decParseBody s

def decDom (x : ℚ) : Prop := ∃ k : ℕ, x.den ∣ 10 ^ k

theorem natOfDigits_append (a b : List Char) : natOfDigits (a ++ b) = natOfDigits a * 10 ^ b.length + natOfDigits b := by
  unfold natOfDigits
  rw [List.foldl_append]
  generalize List.foldl (fun n c => 10 * n + digitVal c) 0 a = x
  induction b using List.reverseRecOn with
  | nil => simp
  | append_singleton b c ih =>
    simp only [List.foldl_append, List.foldl_cons, List.foldl_nil, List.length_append, List.length_singleton, ih]
    rw [pow_succ]; ring

theorem natOfDigits_lt (b : List Char) (h : ∀ c ∈ b, isDigit c = true) : natOfDigits b < 10 ^ b.length := by
  induction b using List.reverseRecOn with
  | nil => simp [natOfDigits]
  | append_singleton b c ih =>
    have ih := ih (fun d hd => h d (by simp [hd]))
    have hc : digitVal c < 10 := by
      have := h c (by simp)
      simp only [isDigit, Bool.and_eq_true, decide_eq_true_eq] at this
      have h2 : c.toNat ≤ 57 := this.2
      simp only [digitVal]; omega
    rw [natOfDigits_append, List.length_append, List.length_singleton, pow_succ]
    have e : natOfDigits [c] = digitVal c := by simp [natOfDigits]
    rw [e]
    omega

theorem padded_spec (k m : ℕ) : (∀ c ∈ padded k m, isDigit c = true) ∧ k + 1 ≤ (padded k m).length ∧
    natOfDigits (padded k m) = m := by
  obtain ⟨h1, h2, h3⟩ := reprNat_spec m
  refine ⟨?_, ?_, ?_⟩
  · intro c hc
    rcases List.mem_append.1 hc with hc | hc
    · rw [List.eq_of_mem_replicate hc]; decide
    · exact h2 c hc
  · simp only [padded, List.length_append, List.length_replicate]; omega
  · rw [padded, natOfDigits_append, h3]
    have : ∀ j, natOfDigits (List.replicate j '0') = 0 := by
      intro j
      induction j with
      | zero => rfl
      | succ j ih =>
        rw [List.replicate_succ', natOfDigits_append, ih]; rfl
    rw [this]; simp

theorem decPlaces_dvd {x : ℚ} (hx : decDom x) : x.den ∣ 10 ^ decPlaces x := by
  obtain ⟨k, hk⟩ := hx
  have hex : ∃ j ∈ List.range (x.den + 1), x.den ∣ 10 ^ j := by
    by_cases hkd : k ≤ x.den
    · exact ⟨k, by simp; omega, hk⟩
    · refine ⟨x.den, by simp, ?_⟩
      have : ∀ d k : ℕ, 0 < d → d ∣ 10 ^ k → d ∣ 10 ^ d := by
        intro d k hd hdk
        rw [show (10 : ℕ) = 2 * 5 by norm_num, mul_pow] at hdk ⊢
        obtain ⟨a, b, ha, hb, rfl⟩ := Nat.dvd_mul.1 hdk |>.imp fun a h => h.imp fun b h => h
        obtain ⟨i, hi, rfl⟩ := (Nat.dvd_prime_pow Nat.prime_two).1 ha
        obtain ⟨j, hj, rfl⟩ := (Nat.dvd_prime_pow Nat.prime_five).1 hb
        have h1 : i < 2 ^ i * 5 ^ j := lt_of_lt_of_le Nat.lt_two_pow_self (Nat.le_mul_of_pos_right _ (by positivity))
        have h2 : j < 2 ^ i * 5 ^ j := lt_of_lt_of_le (Nat.lt_pow_self (by norm_num)) (Nat.le_mul_of_pos_left _ (by positivity))
        exact Nat.mul_dvd_mul (pow_dvd_pow _ h1.le) (pow_dvd_pow _ h2.le)
      exact this x.den k x.den_pos hk
  unfold decPlaces
  cases hf : (List.range (x.den + 1)).find? (fun k => decide (x.den ∣ 10 ^ k)) with
  | none =>
    obtain ⟨j, hj, hd⟩ := hex
    exact absurd hd (by simpa using List.find?_eq_none.1 hf j hj)
  | some j =>
    have : x.den ∣ 10 ^ j := by simpa using List.find?_some hf
    exact this.trans (pow_dvd_pow _ (le_max_right _ _))

theorem decParseBody_spec (a b : List Char) (ha : ∀ c ∈ a, isDigit c = true) (hb : ∀ c ∈ b, isDigit c = true) (hne : a ≠ []) :
    decParseBody (a ++ '.' :: b) = some ((natOfDigits (a ++ b) : ℚ) / 10 ^ b.length) := by
  unfold decParseBody
  rw [List.dropWhile_append_of_pos ha, List.takeWhile_append_of_pos ha]
  have : isDigit '.' = false := by decide
  simp only [List.dropWhile_cons, List.takeWhile_cons, this, if_false, List.append_nil, Bool.false_eq_true]
  rw [if_pos]
  exact ⟨by simpa using hb, hne⟩

theorem decRepr_shape (x : ℚ) : ∃ a b : List Char, a ≠ [] ∧ b ≠ [] ∧ (∀ c ∈ a, isDigit c = true) ∧ (∀ c ∈ b, isDigit c = true) ∧
    b.length = decPlaces x ∧ natOfDigits (a ++ b) = x.num.natAbs * 10 ^ decPlaces x / x.den ∧
    decRepr x = if x < 0 then '-' :: (a ++ '.' :: b) else a ++ '.' :: b := by
  obtain ⟨h1, h2, h3⟩ := padded_spec (decPlaces x) (x.num.natAbs * 10 ^ decPlaces x / x.den)
  have hk : 1 ≤ decPlaces x := le_max_left _ _
  generalize hds : padded (decPlaces x) (x.num.natAbs * 10 ^ decPlaces x / x.den) = ds at h1 h2 h3
  refine ⟨ds.take (ds.length - decPlaces x), ds.drop (ds.length - decPlaces x), ?_, ?_, ?_, ?_, ?_, ?_, ?_⟩
  · intro h
    have := congrArg List.length h
    simp at this; omega
  · intro h
    have := congrArg List.length h
    simp at this; omega
  · exact fun c hc => h1 c (List.mem_of_mem_take hc)
  · exact fun c hc => h1 c (List.mem_of_mem_drop hc)
  · simp; omega
  · rw [List.take_append_drop, h3]
  · simp only [decRepr, hds]

theorem decValue {x : ℚ} (hx : decDom x) : ((x.num.natAbs * 10 ^ decPlaces x / x.den : ℕ) : ℚ) / 10 ^ decPlaces x = |x| := by
  obtain ⟨q, hq⟩ := decPlaces_dvd hx
  have hden : (0 : ℚ) < x.den := by exact_mod_cast x.den_pos
  have e1 : x.num.natAbs * 10 ^ decPlaces x / x.den = x.num.natAbs * q := by
    rw [hq, show x.num.natAbs * (x.den * q) = x.num.natAbs * q * x.den by ring, Nat.mul_div_cancel _ x.den_pos]
  have e2 : (10 : ℚ) ^ decPlaces x = x.den * q := by exact_mod_cast hq
  have hq0 : (q : ℚ) ≠ 0 := by
    rintro h
    rw [h, mul_zero] at e2
    exact absurd e2 (by positivity)
  rw [e1, e2]
  push_cast
  rw [Rat.abs_def]
  field_simp
  rw [Rat.divInt_eq_div]
  push_cast
  field_simp
  rw [Nat.cast_natAbs, Int.cast_abs]

/-- Rational numbers with a finite decimal expansion, written in positional notation. -/
def decIO : FloatIO ℚ where
  dom := decDom
  repr := decRepr
  parse := decParse
  parse_repr := by
    intro x hx
    obtain ⟨a, b, ha, _, ha', hb', hlen, hval, e⟩ := decRepr_shape x
    have hb := decParseBody_spec a b ha' hb' ha
    rw [hval, hlen, decValue hx] at hb
    rw [e]
    split_ifs with hneg
    · simp only [decParse, hb, Option.map_some, abs_of_neg hneg, neg_neg]
    · have hd : ∀ l, a ++ '.' :: b ≠ '-' :: l := by
        intro l h
        obtain ⟨c, a, rfl⟩ := List.exists_cons_of_ne_nil ha
        have := (List.cons_eq_cons.1 h).1
        exact isDigit_ne (ha' c (by simp)) (by decide) this
      unfold decParse
      split
      · rename_i h; exact absurd h (hd _)
      · rw [hb, abs_of_nonneg (not_lt.1 hneg)]
  repr_ne := by
    intro x _
    obtain ⟨a, b, ha, _, _, _, _, _, e⟩ := decRepr_shape x
    rw [e]; split_ifs <;> simp
  repr_chars := by
    intro x _ c hc
    obtain ⟨a, b, ha, _, ha', hb', _, _, e⟩ := decRepr_shape x
    rw [e] at hc
    have hbody : ∀ c ∈ a ++ '.' :: b, isNumChar c = true := by
      intro c hc
      rcases List.mem_append.1 hc with hc | hc
      · exact isNumChar_of_isDigit (ha' c hc)
      · rcases List.mem_cons.1 hc with rfl | hc
        · decide
        · exact isNumChar_of_isDigit (hb' c hc)
    split_ifs at hc
    · rcases List.mem_cons.1 hc with rfl | hc
      · decide
      · exact hbody c hc
    · exact hbody c hc
  repr_notInt := by
    intro x _
    obtain ⟨a, b, ha, _, ha', hb', _, _, e⟩ := decRepr_shape x
    have hall : (a ++ '.' :: b).all isDigit = false := by
      rw [Bool.eq_false_iff]
      intro h
      exact absurd (List.all_eq_true.1 h '.' (by simp)) (by decide)
    rw [e]
    split_ifs
    · simp only [isIntLiteral, hall, Bool.and_false]
    · unfold isIntLiteral
      split
      · rename_i ds h
        obtain ⟨c, a, rfl⟩ := List.exists_cons_of_ne_nil ha
        exact absurd (List.cons_eq_cons.1 h).1 (isDigit_ne (ha' c (by simp)) (by decide))
      · rw [hall, Bool.and_false]

/-- 3/20 and -3/4 are in the domain, and this is how they are written; 1/3 is not in the domain. -/
example : decDom (3/20) ∧ decDom (-3/4) ∧ decRepr (3/20) = "0.15".toList ∧ decRepr (-3/4) = "-0.75".toList ∧
    decRepr 1 = "1.0".toList :=
  ⟨⟨2, by decide +kernel⟩, ⟨2, by decide +kernel⟩, by decide +kernel, by decide +kernel, by decide +kernel⟩

end Files
end Jajapy
