import Verif.Lemmas.Likelihood
import Verif.Lemmas.FilesDec
import Verif.Props.Create

/-!
C11, C12 and C17: files.
-/

namespace Jajapy
namespace Files

open Spec

variable {K : Type} (printable : Char → Bool) (IO : FloatIO K)

/-! ### Training sets -/

/-- The text of the records of a set. -/
def recsText (recs : List (List (Val K) × ℕ)) : List Char :=
  recs.flatMap (fun p => repr printable IO (.list p.1) ++ '\n' :: (reprNat p.2 ++ ['\n']))

theorem noBreak_reprNat (t : ℕ) : NoBreak (reprNat t) :=
  noBreak_num (fun c hc => isNumChar_of_isDigit ((reprNat_spec t).2.1 c hc))

theorem pyInt_digits (ds : List Char) (h1 : ds ≠ []) (h2 : ∀ c ∈ ds, isDigit c = true) :
    pyInt ds = .ok (natOfDigits ds : ℤ) := by
  obtain ⟨e1, e2⟩ := intLiteral_digits h1 h2
  unfold pyInt
  split
  · exact absurd (h2 '+' (by simp)) (by decide)
  · rw [if_pos e1, e2]

theorem timesOf_nat (t : ℕ) : timesOf (t : ℤ) = .ok t := by simp [timesOf]

theorem recsText_cons (s : List (Val K)) (t : ℕ) (recs : List (List (Val K) × ℕ)) :
    recsText printable IO ((s, t) :: recs) =
      repr printable IO (.list s) ++ '\n' :: (reprNat t ++ '\n' :: recsText printable IO recs) := by
  simp [recsText]

/-- One round of the loop of `loadSet` on a complete record. -/
theorem loadRecords_step (s : List (Val K)) (t : ℕ) (rest : List Char) (hs : ∀ v ∈ s, FiniteVal IO v) (f : ℕ) :
    loadRecords IO (f + 1) (repr printable IO (.list s) ++ '\n' :: (reprNat t ++ '\n' :: rest)) =
      (loadRecords IO f rest).map (fun l => (s, t) :: l) := by
  have hfin : FiniteVal IO (.list s) := .list hs
  have h0 : repr printable IO (.list s) ++ '\n' :: (reprNat t ++ '\n' :: rest) ≠ [] := by simp
  obtain ⟨d1, d2, d3⟩ := reprNat_spec t
  rw [loadRecords, if_neg h0, line_eq _ _ (noBreak_repr printable IO _ hfin).1, literalEval_repr printable IO _ hfin]
  simp only [bind, Except.bind, traceOf]
  rw [line_eq _ _ (noBreak_reprNat t).1, pyInt_digits _ d1 d2, d3]
  simp only [timesOf_nat]
  cases loadRecords IO f rest <;> rfl

theorem loadRecords_recsText (recs : List (List (Val K) × ℕ)) (hs : ∀ p ∈ recs, ∀ v ∈ p.1, FiniteVal IO v) (f : ℕ)
    (hf : (recsText printable IO recs).length ≤ f) : loadRecords IO f (recsText printable IO recs) = .ok recs := by
  induction recs generalizing f with
  | nil => cases f <;> simp [recsText, loadRecords, pure, Except.pure]
  | cons p recs ih =>
    obtain ⟨s, t⟩ := p
    rw [recsText_cons] at hf ⊢
    obtain ⟨f, rfl⟩ : ∃ g, f = g + 1 := ⟨f - 1, by simp at hf; omega⟩
    rw [loadRecords_step printable IO s t _ (hs (s, t) (by simp)), ih (fun q hq => hs q (by simp [hq])) f (by
      simp only [List.length_append, List.length_cons] at hf; omega)]
    rfl

theorem noCR_recsText (recs : List (List (Val K) × ℕ)) (hs : ∀ p ∈ recs, ∀ v ∈ p.1, FiniteVal IO v) :
    '\r' ∉ recsText printable IO recs := by
  intro h
  obtain ⟨p, hp, hc⟩ := List.mem_flatMap.1 h
  rcases List.mem_append.1 hc with hc | hc
  · exact (noBreak_repr printable IO _ (.list (hs p hp))).2 hc
  · rcases List.mem_cons.1 hc with hc | hc
    · exact absurd hc (by decide)
    · rcases List.mem_append.1 hc with hc | hc
      · exact (noBreak_reprNat p.2).2 hc
      · simp at hc

theorem saveSet_eq (S : TSet (Val K)) (hf : S.floatTimes = false) :
    saveSet printable IO S =
      repr printable IO (typeVal S.type) ++ '\n' :: recsText printable IO (S.sequences.zip S.times) := by
  simp only [saveSet, recsText, reprTimes, hf, Bool.false_eq_true, if_false]

theorem finite_type (t : Option ℕ) : FiniteVal IO (typeVal t : Val K) := by
  cases t <;> constructor

theorem typeOf_typeVal (t : Option ℕ) : typeOf (typeVal t : Val K) = .ok t := by
  cases t <;> simp [typeVal, typeOf]

theorem mk'_types [DecidableEq (Val K)] (recs : List (List (Val K) × ℕ)) (t : Option ℕ) (ht : recs ≠ [] → t ≠ none) :
    TSet.mk' kindOf (recs.map (·.1)) (some (recs.map (·.2))) t =
      .ok { sequences := recs.map (·.1), times := recs.map (·.2), floatTimes := false, type := t } := by
  cases recs with
  | nil => rfl
  | cons p recs =>
    cases t with
    | none => exact absurd rfl (ht (by simp))
    | some t => rfl

theorem loadSet_records [DecidableEq (Val K)] (recs : List (List (Val K) × ℕ)) (t : Option ℕ)
    (hs : ∀ p ∈ recs, ∀ v ∈ p.1, FiniteVal IO v) (ht : recs ≠ [] → t ≠ none) :
    loadSet IO (repr printable IO (typeVal t) ++ '\n' :: recsText printable IO recs) =
      .ok { sequences := recs.map (·.1), times := recs.map (·.2), floatTimes := false, type := t } := by
  have hb := noBreak_repr printable IO _ (finite_type IO t)
  unfold loadSet
  rw [universal_id]
  · dsimp only
    rw [line_eq _ _ hb.1, literalEval_repr printable IO _ (finite_type IO t)]
    simp only [bind, Except.bind, typeOf_typeVal]
    rw [loadRecords_recsText printable IO recs hs _ le_rfl]
    exact mk'_types recs t ht
  · intro h
    rcases List.mem_append.1 h with h | h
    · exact hb.2 h
    · rcases List.mem_cons.1 h with h | h
      · exact absurd h (by decide)
      · exact noCR_recsText printable IO recs hs h

/-- C11. Saving then loading a training set gives it back: traces of arbitrary values (any strings, finite numbers,
nested lists), their order, the multiplicities and the type. The set has as many multiplicities as traces, stored as
integers, and a type when it is not empty, as the constructor ensures. -/
theorem loadSet_saveSet [DecidableEq (Val K)] (S : TSet (Val K)) (hlen : S.sequences.length = S.times.length)
    (hint : S.floatTimes = false) (hty : S.sequences ≠ [] → S.type ≠ none)
    (hfin : ∀ s ∈ S.sequences, ∀ v ∈ s, FiniteVal IO v) :
    loadSet IO (saveSet printable IO S) = .ok S := by
  have e1 : (S.sequences.zip S.times).map (·.1) = S.sequences := List.map_fst_zip (by omega)
  have e2 : (S.sequences.zip S.times).map (·.2) = S.times := List.map_snd_zip (by omega)
  rw [saveSet_eq _ _ _ hint, loadSet_records printable IO _ S.type ?_ ?_, e1, e2]
  · obtain ⟨a, b, c, d⟩ := S
    simp only at hint
    subst hint
    rfl
  · intro p hp v hv
    exact hfin p.1 (by rw [← e1]; exact List.mem_map_of_mem hp) v hv
  · intro h
    refine hty (fun h' => h ?_)
    rw [h']; rfl

/-- C11, the case excluded above: when the multiplicities are stored as floats (this happens after merging into an empty
set, see `addSet_into_empty_breaks_toList`), the file cannot be loaded: `int('3.0')`. -/
theorem loadSet_float_times [DecidableEq (Val K)] (S : TSet (Val K)) (hlen : S.sequences.length = S.times.length)
    (hfl : S.floatTimes = true) (hne : S.sequences ≠ []) (hfin : ∀ s ∈ S.sequences, ∀ v ∈ s, FiniteVal IO v) :
    loadSet IO (saveSet printable IO S) = .error .valueError := by
  obtain ⟨seqs, times, fl, ty⟩ := S
  simp only at hlen hfl hne hfin
  subst hfl
  obtain ⟨s, seqs, rfl⟩ := List.exists_cons_of_ne_nil hne
  obtain ⟨t, times, rfl⟩ : ∃ t ts, times = t :: ts := List.exists_cons_of_ne_nil (by rintro rfl; simp at hlen)
  have hb := noBreak_repr printable IO _ (finite_type IO ty)
  have hb2 := noBreak_repr printable IO _ (FiniteVal.list (hfin s (by simp)))
  obtain ⟨d1, d2, d3⟩ := reprNat_spec t
  have hfloat : ∀ t, NoBreak (reprNat t ++ ['.', '0']) := fun t => noBreak_append (noBreak_reprNat t) (by decide)
  have hlit : pyInt (reprNat t ++ ['.', '0']) = .error .valueError := by
    obtain ⟨c, l, hc⟩ := List.exists_cons_of_ne_nil d1
    have hcd := d2 c (by rw [hc]; simp)
    have hall : (reprNat t ++ ['.', '0']).all isDigit = false := by
      rw [Bool.eq_false_iff]
      intro h
      exact absurd (List.all_eq_true.1 h '.' (by simp)) (by decide)
    unfold pyInt
    split
    · rename_i ds h
      rw [hc, List.cons_append] at h
      exact absurd (List.cons_eq_cons.1 h).1 (isDigit_ne hcd (by decide))
    · unfold isIntLiteral
      split
      · rename_i ds h
        rw [hc, List.cons_append] at h
        exact absurd (List.cons_eq_cons.1 h).1 (isDigit_ne hcd (by decide))
      · rw [hall, Bool.and_false]; rfl
  unfold loadSet saveSet
  rw [universal_id]
  · dsimp only
    rw [line_eq _ _ hb.1, literalEval_repr printable IO _ (finite_type IO ty)]
    simp only [bind, Except.bind, typeOf_typeVal, List.zip_cons_cons, List.flatMap_cons, reprTimes, if_true]
    have e : (repr printable IO (.list s) ++ '\n' :: (reprNat t ++ ['.', '0'] ++ ['\n'])) ++
        (seqs.zip times).flatMap (fun p => repr printable IO (.list p.1) ++ '\n' :: (reprNat p.2 ++ ['.', '0'] ++ ['\n'])) =
        repr printable IO (.list s) ++ '\n' :: ((reprNat t ++ ['.', '0']) ++ '\n' ::
        (seqs.zip times).flatMap (fun p => repr printable IO (.list p.1) ++ '\n' :: (reprNat p.2 ++ ['.', '0'] ++ ['\n']))) := by
      simp
    rw [e]
    generalize hg : (seqs.zip times).flatMap _ = rest
    have hpos : ∃ g, (repr printable IO (.list s) ++ '\n' :: ((reprNat t ++ ['.', '0']) ++ '\n' :: rest)).length = g + 1 :=
      ⟨_, by simp only [List.length_append, List.length_cons]; rfl⟩
    obtain ⟨g, hg'⟩ := hpos
    rw [hg', loadRecords, if_neg (by simp), line_eq _ _ hb2.1,
      literalEval_repr printable IO _ (FiniteVal.list (hfin s (by simp)))]
    simp only [bind, Except.bind, traceOf]
    rw [line_eq _ _ (hfloat t).1, hlit]
  · intro h
    rcases List.mem_append.1 h with h | h
    · exact hb.2 h
    · rcases List.mem_cons.1 h with h | h
      · exact absurd h (by decide)
      · obtain ⟨p, hp, hc⟩ := List.mem_flatMap.1 h
        rcases List.mem_append.1 hc with hc | hc
        · exact (noBreak_repr printable IO _ (.list (hfin p.1 (List.of_mem_zip hp).1))).2 hc
        · rcases List.mem_cons.1 hc with hc | hc
          · exact absurd hc (by decide)
          · simp only [reprTimes, if_true] at hc
            rcases List.mem_append.1 hc with hc | hc
            · exact (hfloat p.2).2 hc
            · simp at hc

/-! ### Interrupted save of a training set -/

theorem dropLast_strict {p l : List Char} (hp : p <+: l) (hne : l ≠ []) : p.dropLast <+: l ∧ p.dropLast ≠ l := by
  refine ⟨(List.dropLast_prefix p).trans hp, ?_⟩
  intro h
  have h1 := congrArg List.length h
  have h2 := hp.length_le
  have h3 := List.length_pos_iff.2 hne
  rw [List.length_dropLast] at h1
  omega

theorem natOfDigits_prefix {d : List Char} {t : ℕ} (hd : d <+: reprNat t) :
    natOfDigits d = t / 10 ^ ((reprNat t).length - d.length) := by
  obtain ⟨h1, h2, h3⟩ := reprNat_spec t
  obtain ⟨b, hb⟩ := hd
  have hlt := natOfDigits_lt b (fun c hc => h2 c (by rw [← hb]; simp [hc]))
  have e := natOfDigits_append d b
  rw [hb, h3] at e
  have hlen : (reprNat t).length - d.length = b.length := by rw [← hb]; simp
  rw [hlen, e, Nat.add_comm, Nat.add_mul_div_right _ _ (by positivity), Nat.div_eq_of_lt hlt, Nat.zero_add]

theorem loadRecords_nil (f : ℕ) : loadRecords IO f [] = .ok [] := by
  cases f <;> simp [loadRecords, pure, Except.pure]

theorem loadRecords_cut (recs : List (List (Val K) × ℕ)) (hs : ∀ p ∈ recs, ∀ v ∈ p.1, FiniteVal IO v) (p : List Char)
    (hp : p <+: recsText printable IO recs) (f : ℕ) (hf : p.length ≤ f) :
    (∃ e, loadRecords IO f p = .error e) ∨
    (∃ k, p = recsText printable IO (recs.take k) ∧ loadRecords IO f p = .ok (recs.take k)) ∨
    (∃ k s t j, recs[k]? = some (s, t) ∧ 1 ≤ j ∧ loadRecords IO f p = .ok (recs.take k ++ [(s, t / 10 ^ j)])) := by
  induction recs generalizing p f with
  | nil =>
    have : p = [] := by simpa [recsText] using hp
    subst this
    exact Or.inr (Or.inl ⟨0, rfl, loadRecords_nil IO f⟩)
  | cons q recs ih =>
    obtain ⟨s, t⟩ := q
    have hfin := hs (s, t) (by simp)
    rw [recsText_cons] at hp
    by_cases h0 : p = []
    · subst h0
      exact Or.inr (Or.inl ⟨0, rfl, loadRecords_nil IO f⟩)
    obtain ⟨f, rfl⟩ : ∃ g, f = g + 1 := ⟨f - 1, by have := List.length_pos_iff.2 h0; omega⟩
    rcases prefix_cases hp with h | ⟨p', rfl, hp'⟩
    · left
      have hb := noBreak_repr printable IO _ (FiniteVal.list hfin)
      obtain ⟨c1, c2⟩ := dropLast_strict h (repr_ne_nil printable IO (FiniteVal.list hfin))
      refine ⟨.syntaxError, ?_⟩
      rw [loadRecords, if_neg h0, line_prefix h hb.1, literalEval_cut printable IO s hfin _ c1 c2]
      rfl
    · rcases prefix_cases hp' with h | ⟨p'', rfl, hp''⟩
      · obtain ⟨d1, d2, d3⟩ := reprNat_spec t
        have hb := noBreak_repr printable IO _ (FiniteVal.list hfin)
        rw [loadRecords, if_neg (by simp), line_eq _ _ hb.1, literalEval_repr printable IO _ (FiniteVal.list hfin)]
        simp only [bind, Except.bind, traceOf]
        rw [line_prefix h (noBreak_reprNat t).1]
        obtain ⟨c1, c2⟩ := dropLast_strict h d1
        by_cases hd : p'.dropLast = []
        · left
          rw [hd]
          exact ⟨.valueError, rfl⟩
        · right; right
          rw [pyInt_digits _ hd (fun c hc => d2 c (c1.subset hc))]
          simp only [timesOf_nat, loadRecords_nil]
          refine ⟨0, s, t, (reprNat t).length - p'.dropLast.length, by simp, ?_, ?_⟩
          · have := c1.length_le
            have hne : p'.dropLast.length ≠ (reprNat t).length := fun h => c2 (c1.eq_of_length h)
            omega
          · rw [natOfDigits_prefix c1]; rfl
      · rw [loadRecords_step printable IO s t _ hfin]
        rcases ih (fun q hq => hs q (by simp [hq])) p'' hp'' f (by
          simp only [List.length_append, List.length_cons] at hf; omega) with ⟨e, he⟩ | ⟨k, hk, he⟩ | ⟨k, s', t', j, h1, h2, he⟩
        · exact Or.inl ⟨e, by rw [he]; rfl⟩
        · refine Or.inr (Or.inl ⟨k + 1, ?_, by rw [he]; rfl⟩)
          rw [List.take_succ_cons, recsText_cons, ← hk]
        · exact Or.inr (Or.inr ⟨k + 1, s', t', j, by simpa using h1, h2, by rw [he]; rfl⟩)

/-- C12, training sets. Loading what an interrupted `save` left of a set raises, or gives the set of the first `k`
records (the file was cut exactly after record `k`), or gives the first `k` records and record `k+1` with digits of its
multiplicity lost at the end. -/
theorem loadSet_cut [DecidableEq (Val K)] (S : TSet (Val K)) (hlen : S.sequences.length = S.times.length)
    (hint : S.floatTimes = false) (hty : S.sequences ≠ [] → S.type ≠ none) (hty' : ∀ t, S.type = some t → t < 10)
    (hfin : ∀ s ∈ S.sequences, ∀ v ∈ s, FiniteVal IO v) (p : List Char) (hp : CutOf p (saveSet printable IO S)) :
    (∃ e, loadSet IO p = .error e) ∨
    (∃ k, k < S.sequences.length ∧
      p = saveSet printable IO { S with sequences := S.sequences.take k, times := S.times.take k } ∧
      loadSet IO p = .ok { S with sequences := S.sequences.take k, times := S.times.take k }) ∨
    (∃ k t j, S.times[k]? = some t ∧ 1 ≤ j ∧
      loadSet IO p = .ok { S with sequences := S.sequences.take (k + 1), times := S.times.take k ++ [t / 10 ^ j] }) := by
  obtain ⟨hp, hpne⟩ := hp
  have hrec : ∀ q ∈ S.sequences.zip S.times, ∀ v ∈ q.1, FiniteVal IO v := fun q hq => hfin q.1 (List.of_mem_zip hq).1
  have hb := noBreak_repr printable IO _ (finite_type IO S.type)
  have htake : ∀ k, (S.sequences.zip S.times).take k = (S.sequences.take k).zip (S.times.take k) := fun k => by
    rw [List.zip_eq_zipWith, List.take_zipWith]; rfl
  have e1 : ∀ k, ((S.sequences.zip S.times).take k).map (·.1) = S.sequences.take k := fun k => by
    rw [List.map_take, List.map_fst_zip (by omega)]
  have e2 : ∀ k, ((S.sequences.zip S.times).take k).map (·.2) = S.times.take k := fun k => by
    rw [List.map_take, List.map_snd_zip (by omega)]
  have hsave := saveSet_eq printable IO S hint
  have hcr : '\r' ∉ p := by
    intro h
    have h := hp.subset h
    rw [hsave] at h
    rcases List.mem_append.1 h with h | h
    · exact hb.2 h
    · rcases List.mem_cons.1 h with h | h
      · exact absurd h (by decide)
      · exact noCR_recsText printable IO _ hrec h
  have heta : S = { sequences := S.sequences, times := S.times, floatTimes := false, type := S.type } := by
    rw [← hint]
  rw [hsave] at hp hpne
  rcases prefix_cases hp with h | ⟨p', rfl, hp'⟩
  · left
    have hnil : literalEval IO p.dropLast = .error .syntaxError := by
      cases ht : S.type with
      | none =>
        rw [ht, typeVal, repr] at h
        have hpre : p ∈ [['N','o','n','e'], ['N','o','n'], ['N','o'], ['N'], []] := by
          have h1 := List.prefix_iff_eq_take.1 h
          have h2 : p.length ≤ 4 := h.length_le
          generalize p.length = m at h1 h2
          interval_cases m <;> rw [h1] <;> simp
        simp only [List.mem_cons, List.not_mem_nil, or_false] at hpre
        rcases hpre with rfl | rfl | rfl | rfl | rfl <;> rfl
      | some t =>
        have htl := hty' t ht
        rw [ht, typeVal, repr] at h
        have hl1 : (reprInt (t : ℤ)).length = 1 := by
          show (reprNat t).length = 1
          interval_cases t <;> decide
        have : p.length ≤ 1 := hl1 ▸ h.length_le
        have : p.dropLast = [] := by
          rw [← List.length_eq_zero_iff, List.length_dropLast]; omega
        rw [this]; rfl
    refine ⟨.syntaxError, ?_⟩
    unfold loadSet
    rw [universal_id p hcr]
    dsimp only
    rw [line_prefix h hb.1, hnil]
    rfl
  · have hload : loadSet IO (repr printable IO (typeVal S.type) ++ '\n' :: p') =
        (loadRecords IO p'.length p').bind (fun recs => TSet.mk' kindOf (recs.map (·.1)) (some (recs.map (·.2))) S.type) := by
      unfold loadSet
      rw [universal_id _ hcr]
      dsimp only
      rw [line_eq _ _ hb.1, literalEval_repr printable IO _ (finite_type IO S.type)]
      simp only [bind, Except.bind, typeOf_typeVal]
    have hne : ∀ (l : List (List (Val K))), S.sequences = [] ∨ S.sequences ≠ [] := fun _ => em _
    rcases loadRecords_cut printable IO _ hrec p' hp' p'.length le_rfl with ⟨e, he⟩ | ⟨k, hk, he⟩ | ⟨k, s, t, j, h1, h2, he⟩
    · exact Or.inl ⟨e, by rw [hload, he]; rfl⟩
    · right; left
      have hkn : k < S.sequences.length := by
        by_contra hge
        have : (S.sequences.zip S.times).take k = S.sequences.zip S.times := by
          rw [List.take_of_length_le]
          simp; omega
        rw [this] at hk
        exact hpne (by rw [hk])
      refine ⟨k, hkn, ?_, ?_⟩
      · rw [saveSet_eq printable IO _ (by exact hint), hk, htake]
      · rw [hload, he]
        simp only [Except.bind]
        rw [mk'_types _ _ (fun h => hty (by
          rintro h'
          rw [h'] at hkn; simp at hkn)), e1, e2, hint]
    · right; right
      rw [List.getElem?_zip_eq_some] at h1
      refine ⟨k, t, j, h1.2, h2, ?_⟩
      rw [hload, he]
      simp only [Except.bind]
      have hs : S.sequences.take (k + 1) = S.sequences.take k ++ [s] := by
        rw [List.take_add_one, h1.1]; rfl
      rw [mk'_types _ _ (fun _ => hty (by
          rintro h'
          rw [h'] at h1; simp at h1)), List.map_append, List.map_append, e1, e2, hint, hs]
      rfl

/-- C12, training sets: cut at a record boundary, the file contains the first `k` records. -/
theorem loadSet_cut_boundary [DecidableEq (Val K)] (S : TSet (Val K)) (hlen : S.sequences.length = S.times.length)
    (hint : S.floatTimes = false) (hty : S.sequences ≠ [] → S.type ≠ none)
    (hfin : ∀ s ∈ S.sequences, ∀ v ∈ s, FiniteVal IO v) (k : ℕ) :
    saveSet printable IO { S with sequences := S.sequences.take k, times := S.times.take k } <+: saveSet printable IO S ∧
    loadSet IO (saveSet printable IO { S with sequences := S.sequences.take k, times := S.times.take k }) =
      .ok { S with sequences := S.sequences.take k, times := S.times.take k } := by
  constructor
  · rw [saveSet_eq printable IO S hint, saveSet_eq printable IO _ (by exact hint)]
    refine (List.prefix_append_right_inj _).2 (List.cons_prefix_cons.2 ⟨rfl, ?_⟩)
    have : (S.sequences.take k).zip (S.times.take k) = (S.sequences.zip S.times).take k := by
      rw [List.zip_eq_zipWith, List.zip_eq_zipWith, List.take_zipWith]
    rw [this]
    conv_rhs => rw [← List.take_append_drop k (S.sequences.zip S.times)]
    unfold recsText
    rw [List.flatMap_append]
    exact List.prefix_append _ _
  · refine loadSet_saveSet printable IO _ ?_ hint ?_ ?_
    · simp [hlen]
    · intro h
      exact hty (by rintro h'; simp [h'] at h)
    · intro s hs
      exact hfin s (List.mem_of_mem_take hs)

/-- C12 is violated for training sets: when only the last character of the file is missing, the last multiplicity is
silently divided by 10. -/
theorem loadSet_cut_multiplicity [DecidableEq (Val K)] (s : List (Val K)) (t ty : ℕ) (ht : 10 ≤ t)
    (hfin : ∀ v ∈ s, FiniteVal IO v) :
    loadSet IO (saveSet printable IO { sequences := [s], times := [t], floatTimes := false, type := some ty }).dropLast =
      .ok { sequences := [s], times := [t / 10], floatTimes := false, type := some ty } := by
  have hb := noBreak_repr printable IO _ (finite_type IO (some ty))
  have hb2 := noBreak_repr printable IO _ (FiniteVal.list hfin)
  obtain ⟨d1, d2, d3⟩ := reprNat_spec t
  have e : (saveSet printable IO { sequences := [s], times := [t], floatTimes := false, type := some ty }).dropLast =
      repr printable IO (typeVal (some ty)) ++ '\n' :: (repr printable IO (.list s) ++ '\n' :: reprNat t) := by
    rw [saveSet_eq _ _ _ rfl]
    have : repr printable IO (typeVal (some ty)) ++ '\n' :: recsText printable IO ([s].zip [t]) =
        (repr printable IO (typeVal (some ty)) ++ '\n' :: (repr printable IO (.list s) ++ '\n' :: reprNat t)) ++ ['\n'] := by
      simp [recsText]
    rw [this, List.dropLast_concat]
  have hlen : 2 ≤ (reprNat t).length := by
    by_contra h
    have h2 := natOfDigits_lt (reprNat t) d2
    rw [d3] at h2
    have : (10 : ℕ) ^ (reprNat t).length ≤ 10 ^ 1 := Nat.pow_le_pow_right (by norm_num) (by omega)
    omega
  have hd : (reprNat t).dropLast ≠ [] := by
    intro h
    have := congrArg List.length h
    simp at this; omega
  rw [e]
  unfold loadSet
  rw [universal_id]
  · dsimp only
    rw [line_eq _ _ hb.1, literalEval_repr printable IO _ (finite_type IO (some ty))]
    simp only [bind, Except.bind, typeOf_typeVal]
    obtain ⟨g, hg⟩ : ∃ g, (repr printable IO (.list s) ++ '\n' :: reprNat t).length = g + 1 :=
      ⟨_, by simp only [List.length_append, List.length_cons]; rfl⟩
    rw [hg, loadRecords, if_neg (by simp), line_eq _ _ hb2.1, literalEval_repr printable IO _ (FiniteVal.list hfin)]
    simp only [bind, Except.bind, traceOf]
    rw [line_last _ (noBreak_reprNat t).1, pyInt_digits _ hd (fun c hc => d2 c (List.mem_of_mem_dropLast hc)),
      natOfDigits_prefix (List.dropLast_prefix _)]
    simp only [timesOf_nat, loadRecords_nil, List.length_dropLast]
    rw [show (reprNat t).length - ((reprNat t).length - 1) = 1 by omega, pow_one]
    rfl
  · intro h
    rcases List.mem_append.1 h with h | h
    · exact hb.2 h
    · rcases List.mem_cons.1 h with h | h
      · exact absurd h (by decide)
      · rcases List.mem_append.1 h with h | h
        · exact hb2.2 h
        · rcases List.mem_cons.1 h with h | h
          · exact absurd h (by decide)
          · exact (noBreak_reprNat t).2 h

/-- A set with awkward labels and with numbers. -/
def exampleSet : TSet (Val ℚ) where
  sequences := [[.str "it's".toList, .float (3/20), .str "a\n\\\"b]".toList], [.str "é, [".toList]]
  times := [12, 1]
  floatTimes := false
  type := some 4

/-- It meets the hypotheses. -/
example : exampleSet.sequences.length = exampleSet.times.length ∧ exampleSet.floatTimes = false ∧
    (exampleSet.sequences ≠ [] → exampleSet.type ≠ none) ∧
    (∀ t, exampleSet.type = some t → t < 10) ∧ (∀ s ∈ exampleSet.sequences, ∀ v ∈ s, FiniteVal decIO v) := by
  refine ⟨rfl, rfl, by simp [exampleSet], by simp [exampleSet], ?_⟩
  intro s hs v hv
  simp only [exampleSet, List.mem_cons, List.not_mem_nil, or_false] at hs
  rcases hs with rfl | rfl <;> simp only [List.mem_cons, List.not_mem_nil, or_false] at hv
  · rcases hv with rfl | rfl | rfl
    · exact .str _
    · exact .float ⟨2, by decide +kernel⟩
    · exact .str _
  · subst hv; exact .str _

end Files
end Jajapy
