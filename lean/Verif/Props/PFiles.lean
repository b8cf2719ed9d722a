import Verif.Model.PFiles
import Verif.Props.ModelFiles
import Verif.Props.PCTMC

/-!
C12 and C17: the files of PCTMCs.
-/

namespace Jajapy
namespace Files

open Spec Create

section Values

variable {K : Type} (printable : Char → Bool) (IO : FloatIO K)

/-! ### Dictionaries -/

theorem noBrace_head {v : Val K} (hv : FiniteVal IO v) :
    ∃ c l, repr printable IO v = c :: l ∧ c ≠ ' ' ∧ c ≠ '}' := by
  have num : ∀ t : List Char, t ≠ [] → (∀ c ∈ t, isNumChar c = true) → ∃ c l, t = c :: l ∧ c ≠ ' ' ∧ c ≠ '}' := by
    intro t ht h
    obtain ⟨c, l, rfl⟩ := List.exists_cons_of_ne_nil ht
    have hc := h c (by simp)
    refine ⟨c, l, rfl, ?_, ?_⟩ <;> (rintro rfl; exact absurd hc (by decide))
  cases hv with
  | none => exact ⟨_, _, rfl, by decide, by decide⟩
  | int z => rw [repr]; exact num _ (reprInt_spec z).2.2.1 (reprInt_spec z).2.2.2
  | str s =>
    rw [repr]
    refine ⟨quoteFor s, _, rfl, ?_, ?_⟩ <;> (rcases quoteFor_cases s with h | h <;> rw [h] <;> decide)
  | float h => rw [repr]; exact num _ (IO.repr_ne _ h) (IO.repr_chars _ h)
  | list h => exact ⟨_, _, by rw [repr], by decide, by decide⟩

theorem delim_cons {c : Char} (h : isNumChar c = false) (l : List Char) : Delim (c :: l) := by
  intro d hd
  simp only [List.head?_cons, Option.mem_def, Option.some.injEq] at hd
  subst hd; exact h

theorem reprPairsTail_delim (l : List (Val K × Val K)) (rest : List Char) :
    Delim (reprPairsTail printable IO l ++ rest) := by
  cases l with
  | nil => exact delim_cons (by decide) _
  | cons v l => exact delim_cons (by decide) _

theorem readPair_repr {k v : Val K} (hk : FiniteVal IO k) (hv : FiniteVal IO v) (rest : List Char) (hr : Delim rest) (f : ℕ)
    (hf : 2 * (repr printable IO k).length ≤ f) (hf' : 2 * (repr printable IO v).length + 1 ≤ f) :
    readPair IO f (repr printable IO k ++ ':' :: ' ' :: (repr printable IO v ++ rest)) = some ((k, v), rest) := by
  have h1 := readVal_repr printable IO k hk (':' :: ' ' :: (repr printable IO v ++ rest)) (delim_cons (by decide) _) f hf
  obtain ⟨f, rfl⟩ : ∃ g, f = g + 1 := ⟨f - 1, by omega⟩
  have h2 := readVal_repr printable IO v hv rest hr f (by omega)
  unfold readPair
  simp only [h1]
  have hcol : readColon (':' :: ' ' :: (repr printable IO v ++ rest)) = some (' ' :: (repr printable IO v ++ rest)) := rfl
  simp only [hcol, readVal, if_true, h2]

theorem readPairsTail_repr (l : List (Val K × Val K)) (hl : ∀ p ∈ l, FiniteVal IO p.1 ∧ FiniteVal IO p.2) (rest : List Char)
    (f : ℕ) (hf : 2 * (reprPairsTail printable IO l).length ≤ f + 1) :
    readPairsTail IO f (reprPairsTail printable IO l ++ rest) = some (l, rest) := by
  induction l generalizing f with
  | nil =>
    obtain ⟨f, rfl⟩ : ∃ g, f = g + 1 := ⟨f - 1, by simp [reprPairsTail] at hf; omega⟩
    simp [reprPairsTail, readPairsTail]
  | cons p l ih =>
    obtain ⟨hk, hv⟩ := hl p (by simp)
    simp only [reprPairsTail, List.length_append, List.length_cons] at hf
    obtain ⟨f, rfl⟩ : ∃ g, f = g + 3 := ⟨f - 3, by omega⟩
    have h1 := readPair_repr printable IO hk hv (reprPairsTail printable IO l ++ rest) (reprPairsTail_delim printable IO l rest) f
      (by omega) (by omega)
    have h2 := ih (fun w hw => hl w (by simp [hw])) f (by omega)
    obtain ⟨c, s, hc, c1, c2⟩ := noBrace_head printable IO hk
    have e : reprPairsTail printable IO (p :: l) ++ rest =
        ',' :: ' ' :: (repr printable IO p.1 ++ ':' :: ' ' :: (repr printable IO p.2 ++ (reprPairsTail printable IO l ++ rest))) := by
      simp [reprPairsTail]
    rw [e, readPairsTail, if_neg (by decide), if_neg (by decide), if_pos rfl, readPairs, if_pos rfl]
    rw [hc, List.cons_append] at h1 ⊢
    rw [readPairs, if_neg c1, if_neg c2, h1]
    simp only [h2]

/-- A dictionary is read back as it was written. -/
theorem literalEvalDict_repr (l : List (Val K × Val K)) (hl : ∀ p ∈ l, FiniteVal IO p.1 ∧ FiniteVal IO p.2) :
    literalEvalDict IO (reprDict printable IO l) = .ok l := by
  cases l with
  | nil => simp [reprDict, literalEvalDict, readPairs]
  | cons p l =>
    obtain ⟨hk, hv⟩ := hl p (by simp)
    unfold reprDict literalEvalDict
    simp only
    generalize hF : 2 * ('{' :: (repr printable IO p.1 ++ ':' :: ' ' :: (repr printable IO p.2 ++ reprPairsTail printable IO l))).length + 1 = F
    simp only [List.length_cons, List.length_append] at hF
    obtain ⟨f, rfl⟩ : ∃ g, F = g + 1 := ⟨F - 1, by omega⟩
    have h1 := readPair_repr printable IO hk hv (reprPairsTail printable IO l)
      (by simpa using reprPairsTail_delim printable IO l []) f (by omega) (by omega)
    have h2 := readPairsTail_repr printable IO l (fun w hw => hl w (by simp [hw])) [] f (by omega)
    rw [List.append_nil] at h2
    obtain ⟨c, s, hc, c1, c2⟩ := noBrace_head printable IO hk
    rw [hc, List.cons_append] at h1 ⊢
    rw [readPairs, if_neg c1, if_neg c2, h1]
    simp [h2]

theorem readColon_local (s r t : List Char) (h : readColon s = some r) : s ≠ [] ∧ readColon (s ++ t) = some (r ++ t) := by
  induction s with
  | nil => cases h
  | cons c s ih =>
    refine ⟨by simp, ?_⟩
    unfold readColon at h ih ⊢
    rw [List.cons_append]
    by_cases hc : c = ' '
    · subst hc
      simp only [List.dropWhile_cons, decide_true, if_true] at h ⊢
      exact (ih h).2
    · simp only [List.dropWhile_cons, hc, decide_false, Bool.false_eq_true, if_false] at h ⊢
      by_cases hc' : c = ':'
      · subst hc'
        simp only [Option.some.injEq] at h ⊢
        rw [h]
      · split at h
        · rename_i e
          simp only [List.cons.injEq] at e
          exact absurd e.1 hc'
        · cases h

theorem readPair_local (f f' : ℕ) (hf : f ≤ f') (s r t : List Char) (p : Val K × Val K) (h : readPair IO f s = some (p, r)) (hr : r ≠ []) :
    readPair IO f' (s ++ t) = some (p, r ++ t) := by
  unfold readPair at h ⊢
  cases h1 : readVal IO f s with
  | none => rw [h1] at h; cases h
  | some q =>
    obtain ⟨k, s1⟩ := q
    rw [h1] at h
    dsimp only at h
    cases h2 : readColon s1 with
    | none => rw [h2] at h; cases h
    | some s2 =>
      rw [h2] at h
      dsimp only at h
      obtain ⟨e1, e2⟩ := readColon_local s1 s2 t h2
      cases h3 : readVal IO f s2 with
      | none => rw [h3] at h; cases h
      | some q =>
        obtain ⟨v, s3⟩ := q
        rw [h3] at h
        simp only [Option.some.injEq, Prod.mk.injEq] at h
        obtain ⟨rfl, rfl⟩ := h
        rw [(read_local IO f).1 f' hf s s1 t k h1 (.inl e1)]
        dsimp only
        rw [e2]
        dsimp only
        rw [(read_local IO f).1 f' hf s2 s3 t v h3 (.inl hr)]

theorem readPairs_local (f : ℕ) :
    (∀ f', f ≤ f' → ∀ s r t l, readPairs IO f s = some (l, r) → readPairs IO f' (s ++ t) = some (l, r ++ t)) ∧
    (∀ f', f ≤ f' → ∀ s r t l, readPairsTail IO f s = some (l, r) → readPairsTail IO f' (s ++ t) = some (l, r ++ t)) := by
  induction f with
  | zero =>
    refine ⟨?_, ?_⟩ <;> intro f' _ s r t v h
    · simp [readPairs] at h
    · simp [readPairsTail] at h
  | succ f ih =>
    obtain ⟨ih2, ih3⟩ := ih
    refine ⟨?_, ?_⟩ <;> intro f' hf s r t v h <;>
      (obtain ⟨f', rfl⟩ : ∃ g, f' = g + 1 := ⟨f' - 1, by omega⟩) <;> have hf : f ≤ f' := by omega
    · cases s with
      | nil => simp [readPairs] at h
      | cons c s =>
        rw [readPairs] at h
        rw [List.cons_append, readPairs]
        split_ifs at h ⊢ with h1 h2
        · exact ih2 f' hf s r t v h
        · simp only [Option.some.injEq, Prod.mk.injEq] at h ⊢; exact ⟨h.1, by rw [h.2]⟩
        · cases hv : readPair IO f (c :: s) with
          | none => simp [hv] at h
          | some p =>
            obtain ⟨w, s'⟩ := p
            simp only [hv] at h
            cases ht : readPairsTail IO f s' with
            | none => simp [ht] at h
            | some p =>
              obtain ⟨l, s''⟩ := p
              simp only [ht, Option.some.injEq, Prod.mk.injEq] at h
              have hne : s' ≠ [] := by
                rintro rfl
                cases f <;> simp [readPairsTail] at ht
              have e1 := readPair_local IO f f' hf (c :: s) s' t w hv hne
              have e2 := ih3 f' hf s' s'' t l ht
              rw [List.cons_append] at e1
              simp only [e1, e2, h.1, h.2]
    · cases s with
      | nil => simp [readPairsTail] at h
      | cons c s =>
        rw [readPairsTail] at h
        rw [List.cons_append, readPairsTail]
        split_ifs at h ⊢ with h1 h2 h3
        · exact ih3 f' hf s r t v h
        · simp only [Option.some.injEq, Prod.mk.injEq] at h ⊢; exact ⟨h.1, by rw [h.2]⟩
        · exact ih2 f' hf s r t v h

/-- An unfinished dictionary is refused. -/
theorem literalEvalDict_cut (l : List (Val K × Val K)) (hl : ∀ p ∈ l, FiniteVal IO p.1 ∧ FiniteVal IO p.2) (p : List Char)
    (hp : p <+: reprDict printable IO l) (hne : p ≠ reprDict printable IO l) : literalEvalDict IO p = .error .syntaxError := by
  obtain ⟨t, ht⟩ := hp
  have ht0 : t ≠ [] := by rintro rfl; exact hne (by simpa using ht)
  have hfull := literalEvalDict_repr printable IO l hl
  rw [← ht] at hfull
  cases p with
  | nil => rfl
  | cons c s =>
    by_cases hc : c = '{'
    · subst hc
      unfold literalEvalDict
      cases hv : readPairs IO (2 * ('{' :: s).length + 1) s with
      | none => simp only [hv]
      | some q =>
        exfalso
        obtain ⟨v, r⟩ := q
        have e := (readPairs_local IO _).1 (2 * ('{' :: s ++ t).length + 1) (by simp) s r t v hv
        -- the whole text ends with the closing brace
        have hlast : ∃ u, '{' :: s ++ t = u ++ ['}'] := by
          rw [ht]
          have htail : ∀ l : List (Val K × Val K), ∃ u, reprPairsTail printable IO l = u ++ ['}'] := by
            intro l
            induction l with
            | nil => exact ⟨[], rfl⟩
            | cons q l ih =>
              obtain ⟨u, hu⟩ := ih
              unfold reprPairsTail
              rw [hu]
              exact ⟨',' :: ' ' :: (repr printable IO q.1 ++ ':' :: ' ' :: (repr printable IO q.2 ++ u)), by simp⟩
          cases l with
          | nil => exact ⟨['{'], rfl⟩
          | cons q l =>
            obtain ⟨u, hu⟩ := htail l
            show ∃ u', '{' :: (repr printable IO q.1 ++ ':' :: ' ' :: (repr printable IO q.2 ++ reprPairsTail printable IO l)) = u' ++ ['}']
            rw [hu]
            exact ⟨'{' :: (repr printable IO q.1 ++ ':' :: ' ' :: (repr printable IO q.2 ++ u)), by simp⟩
        obtain ⟨u, hu⟩ := hlast
        unfold literalEvalDict at hfull
        rw [List.cons_append] at hfull e
        simp only [e] at hfull
        have hall : (r ++ t).all (· = ' ') = true := by
          by_contra hcon
          rw [if_neg hcon] at hfull
          cases hfull
        rw [List.all_append, Bool.and_eq_true] at hall
        have hmem : '}' ∈ t := by
          have hl1 := List.dropLast_append_getLast ht0
          have : t.getLast ht0 = '}' := by
            have e3 : ('{' :: s ++ t).getLast? = some '}' := by rw [hu]; simp
            rw [List.getLast?_append, List.getLast?_eq_some_getLast ht0] at e3
            simpa using e3
          rw [← this]
          exact List.getLast_mem ht0
        have := List.all_eq_true.1 hall.2 _ hmem
        simp at this
    · unfold literalEvalDict
      split
      · rename_i e
        simp only [List.cons.injEq] at e
        exact absurd e.1 hc
      · rfl

theorem noBreak_pairsTail (l : List (Val K × Val K)) (hl : ∀ p ∈ l, FiniteVal IO p.1 ∧ FiniteVal IO p.2) :
    NoBreak (reprPairsTail printable IO l) := by
  induction l with
  | nil => simp [NoBreak, reprPairsTail]
  | cons p l ih =>
    obtain ⟨hk, hv⟩ := hl p (by simp)
    refine noBreak_cons (by decide) (by decide) (noBreak_cons (by decide) (by decide) ?_)
    refine noBreak_append (noBreak_repr printable IO _ hk) ?_
    refine noBreak_cons (by decide) (by decide) (noBreak_cons (by decide) (by decide) ?_)
    exact noBreak_append (noBreak_repr printable IO _ hv) (ih (fun w hw => hl w (by simp [hw])))

theorem noBreak_dict (l : List (Val K × Val K)) (hl : ∀ p ∈ l, FiniteVal IO p.1 ∧ FiniteVal IO p.2) :
    NoBreak (reprDict printable IO l) := by
  cases l with
  | nil => simp [NoBreak, reprDict]
  | cons p l =>
    obtain ⟨hk, hv⟩ := hl p (by simp)
    refine noBreak_cons (by decide) (by decide) ?_
    refine noBreak_append (noBreak_repr printable IO _ hk) ?_
    refine noBreak_cons (by decide) (by decide) (noBreak_cons (by decide) (by decide) ?_)
    exact noBreak_append (noBreak_repr printable IO _ hv) (noBreak_pairsTail printable IO l (fun w hw => hl w (by simp [hw])))

theorem toDict_from [IntCast K] (d acc : List (String × K)) (h : ((acc ++ d).map Prod.fst).Nodup) :
    (valuesVal d).foldlM dictStep acc = (.ok (acc ++ d) : Py _) := by
  induction d generalizing acc with
  | nil => simp [valuesVal]; rfl
  | cons p d ih =>
    have hk : p.1 ∉ acc.map Prod.fst := by
      intro hin
      rw [List.map_append, List.map_cons, List.nodup_append] at h
      exact h.2.2 _ hin _ (by simp) rfl
    have e : setKey acc p.1 p.2 = acc ++ [p] := by
      unfold setKey; rw [if_neg hk]
    have e' : (valuesVal (p :: d)) = ((.str p.1.toList, .float p.2) : Val K × Val K) :: valuesVal d := rfl
    have e2 : dictStep acc ((.str p.1.toList, .float p.2) : Val K × Val K) = .ok (acc ++ [p]) := by
      simp only [dictStep, toStr, toNum, bind, Except.bind, pure, Except.pure, String.ofList_toList, e]
    rw [e', List.foldlM_cons, e2]
    have := ih (acc ++ [p]) (by simpa using h)
    simp only [bind, Except.bind]
    rw [this]
    simp

theorem toDict_valuesVal [IntCast K] (d : List (String × K)) (h : (d.map Prod.fst).Nodup) :
    toDict (valuesVal d) = .ok d := by
  have := toDict_from d [] (by simpa using h)
  simpa [toDict] using this

theorem finite_values (d : List (String × K)) (h : ∀ p ∈ d, IO.dom p.2) :
    ∀ p ∈ valuesVal d, FiniteVal IO p.1 ∧ FiniteVal IO p.2 := by
  intro p hp
  obtain ⟨q, hq, rfl⟩ := List.mem_map.1 hp
  exact ⟨.str _, .float (h q hq)⟩

/-! ### Indexes -/

theorem finite_natMat (l : List (List ℕ)) : FiniteVal IO (natMatVal l : Val K) := by
  refine .list (fun v hv => ?_)
  obtain ⟨r, _, rfl⟩ := List.mem_map.1 hv
  refine .list (fun v hv => ?_)
  obtain ⟨x, _, rfl⟩ := List.mem_map.1 hv
  exact .int _

theorem finite_indexes (l : List (List (ℕ × ℕ))) : FiniteVal IO (indexesVal l : Val K) := by
  refine .list (fun v hv => ?_)
  obtain ⟨r, _, rfl⟩ := List.mem_map.1 hv
  refine .list (fun v hv => ?_)
  obtain ⟨x, _, rfl⟩ := List.mem_map.1 hv
  refine .list (fun v hv => ?_)
  simp only [List.mem_cons, List.not_mem_nil, or_false] at hv
  rcases hv with rfl | rfl <;> exact .int _

theorem toNat_natVal (n : ℕ) : toNat (natVal n : Val K) = .ok n := by
  simp [toNat, natVal]

theorem toNatMat_natMatVal (l : List (List ℕ)) : toNatMat (natMatVal l : Val K) = .ok l :=
  mapM_map_ok toNats (fun r => .list (r.map natVal)) l (fun r => mapM_map_ok toNat natVal r toNat_natVal)

theorem toIndexes_indexesVal (l : List (List (ℕ × ℕ))) : toIndexes (indexesVal l : Val K) = .ok l := by
  refine mapM_map_ok toPairs _ l (fun r => ?_)
  refine mapM_map_ok toPair _ r (fun p => ?_)
  simp only [toPair, toNat_natVal, bind, Except.bind, pure, Except.pure]

theorem mapM_sympify (EIO : ExprIO K) (l : List (Expr K)) (h : ∀ e ∈ l, EIO.dom e) :
    (l.map EIO.str).mapM (sympify EIO) = .ok l := by
  induction l with
  | nil => rfl
  | cons e l ih =>
    rw [List.map_cons, List.mapM_cons, ih (fun x hx => h x (by simp [hx]))]
    simp only [sympify, EIO.parse_str e (h e (by simp)), bind, Except.bind, pure, Except.pure]

end Values

variable {K : Type} [Field K] [LinearOrder K] [IsStrictOrderedRing K] [FloorRing K] (printable : Char → Bool) (IO : FloatIO K)
  (EIO : ExprIO K)

theorem mkPCTMC_self (matrix : List (List ℕ)) (labelling : List String) (exprs : List (Expr K))
    (values : List (String × Option K)) (indexes : List (List (ℕ × ℕ))) (names : List String)
    (sync : List (ℕ × String × ℕ × Expr K)) (M : PCTMC K)
    (h : mkPCTMC matrix labelling exprs values indexes names sync = .ok M) :
    M.matrix = matrix ∧ mkPCTMC M.matrix M.labelling M.exprs (M.values.map (fun p => (p.1, some p.2))) M.indexes M.names [] =
      .ok { M with sync := [] } := by
  unfold mkPCTMC at h
  by_cases h1 : "init" ∉ labelling
  · rw [if_pos h1] at h; cases h
  rw [if_neg h1] at h
  by_cases h2 : indexes.length ≠ names.length
  · rw [if_pos h2] at h; cases h
  rw [if_neg h2] at h
  split at h
  · cases h
  · rename_i m hm
    split_ifs at h with h3 h4
    obtain ⟨init, hi, h⟩ := (Except.bind_eq_ok _ _ _).1 h
    injection h with h
    subst h
    refine ⟨rfl, ?_⟩
    unfold mkPCTMC
    dsimp only
    rw [if_neg h1, if_neg h2, hm]
    dsimp only
    rw [if_neg h3, if_neg h4, hi]
    simp [bind, Except.bind, pure, Except.pure, List.filterMap_map, Function.comp_def]

theorem noCR_PCTMC (M : PCTMC K) (name : List Char) (hn : OneLine name) (hv : ∀ p ∈ M.values, IO.dom p.2) :
    '\r' ∉ savePCTMC printable IO EIO M name := by
  refine noCR_lines _ (fun a ha => ?_)
  simp only [List.mem_cons, List.not_mem_nil, or_false] at ha
  rcases ha with rfl | rfl | rfl | rfl | rfl | rfl | rfl | rfl
  · exact ⟨by decide, by decide⟩
  · exact hn
  · exact noBreak_repr printable IO _ (finite_natMat IO _)
  · exact noBreak_repr printable IO _ (finite_strList IO _)
  · exact noBreak_dict printable IO _ (finite_values IO _ hv)
  · exact noBreak_repr printable IO _ (finite_indexes IO _)
  · exact noBreak_repr printable IO _ (finite_strList IO _)
  · exact noBreak_repr printable IO _ (finite_strList IO _)

/-- C17, PCTMCs: a PCTMC made by the constructor is read back with the same name, matrix, labels, expressions, values,
indexes, parameters and initial distribution. Its synchronous transitions are lost. -/
theorem loadPCTMC_savePCTMC_partial (matrix : List (List ℕ)) (labelling : List String) (exprs : List (Expr K))
    (values : List (String × Option K)) (indexes : List (List (ℕ × ℕ))) (names : List String)
    (sync : List (ℕ × String × ℕ × Expr K)) (M : PCTMC K)
    (h : mkPCTMC matrix labelling exprs values indexes names sync = .ok M) (hsq : ∀ r ∈ matrix, r.length = matrix.length)
    (name : List Char) (hn : OneLine name) (hd : (M.values.map Prod.fst).Nodup) (hv : ∀ p ∈ M.values, IO.dom p.2)
    (he : ∀ e ∈ M.exprs, EIO.dom e) :
    loadPCTMC IO EIO (savePCTMC printable IO EIO M name) = .ok (name, { M with sync := [] }) := by
  obtain ⟨hmat, hM⟩ := mkPCTMC_self _ _ _ _ _ _ _ M h
  rw [← hmat] at hsq
  have f2 := finite_natMat IO M.matrix
  have f3 := finite_strList IO M.labelling
  have f4 := finite_values IO _ hv
  have f5 := finite_indexes IO M.indexes
  have f6 := finite_strList IO M.names
  have f7 := finite_strList IO (M.exprs.map EIO.str)
  unfold loadPCTMC
  rw [universal_id _ (noCR_PCTMC printable IO EIO M name hn hv)]
  unfold savePCTMC
  simp only [lines_cons]
  rw [line_eq "PCTMC".toList _ (by decide)]
  dsimp only
  rw [if_neg (by simp), line_eq _ _ hn.1]
  dsimp only
  rw [line_eq _ _ (noBreak_repr printable IO _ f2).1, literalEval_repr printable IO _ f2]
  simp only [bind, Except.bind, toNatMat_natMatVal]
  rw [line_eq _ _ (noBreak_repr printable IO _ f3).1, literalEval_repr printable IO _ f3]
  simp only [toStrList_strList]
  rw [line_eq _ _ (noBreak_dict printable IO _ f4).1, literalEvalDict_repr printable IO _ f4]
  simp only [toDict_valuesVal _ hd]
  rw [line_eq _ _ (noBreak_repr printable IO _ f5).1, literalEval_repr printable IO _ f5]
  simp only [toIndexes_indexesVal]
  rw [line_eq _ _ (noBreak_repr printable IO _ f6).1, literalEval_repr printable IO _ f6]
  simp only [toStrList_strList]
  rw [line_eq _ _ (noBreak_repr printable IO _ f7).1, literalEval_repr printable IO _ f7]
  simp only [toStrList_strList, mapM_sympify EIO _ he]
  rw [if_pos hsq, hM]
  rfl

/-- C12, PCTMCs: what an interrupted `save` leaves is refused. -/
theorem loadPCTMC_cut (M : PCTMC K) (name : List Char) (hn : OneLine name) (hd : (M.values.map Prod.fst).Nodup)
    (hv : ∀ p ∈ M.values, IO.dom p.2) (p : List Char) (hp : CutOf p (savePCTMC printable IO EIO M name)) :
    ∃ e, loadPCTMC IO EIO p = .error e := by
  have f2 := finite_natMat IO M.matrix
  have f3 := finite_strList IO M.labelling
  have f4 := finite_values IO _ hv
  have f5 := finite_indexes IO M.indexes
  have f6 := finite_strList IO M.names
  have f7 := finite_strList IO (M.exprs.map EIO.str)
  have hcr := noCR_PCTMC printable IO EIO M name hn hv
  unfold savePCTMC at hp
  unfold loadPCTMC
  rw [universal_id p (fun h => hcr (hp.1.subset h))]
  simp only [lines_cons] at hp
  rcases cut_header hp with h | ⟨p, rfl, h0⟩
  · dsimp only
    rw [line_prefix h (by decide)]
    dsimp only
    by_cases hh : p.dropLast = "PCTMC".toList
    · rw [if_neg (by simpa using hh)]; exact ⟨_, rfl⟩
    · rw [if_pos hh]; exact ⟨_, rfl⟩
  dsimp only
  rw [line_eq "PCTMC".toList _ (by decide)]
  dsimp only
  rw [if_neg (by simp)]
  simp only [bind]
  rcases cut_header h0 with h | ⟨p, rfl, h1⟩
  · rw [line_prefix h hn.1]
    exact ⟨_, rfl⟩
  rw [line_eq _ _ hn.1]
  dsimp only
  rcases cut_header h1 with h | ⟨p, rfl, h2⟩
  · rw [line_prefix h (noBreak_repr printable IO _ f2).1]
    refine bind_fails _ _ (fun v => bind_fails _ _ (fun l => ?_))
    exact ⟨_, rfl⟩
  rw [line_eq _ _ (noBreak_repr printable IO _ f2).1, literalEval_repr printable IO _ f2]
  simp only [Except.bind, toNatMat_natMatVal]
  rcases cut_header h2 with h | ⟨p, rfl, h3⟩
  · rw [line_prefix h (noBreak_repr printable IO _ f3).1]
    refine bind_fails _ _ (fun v => bind_fails _ _ (fun l => ?_))
    exact ⟨_, rfl⟩
  rw [line_eq _ _ (noBreak_repr printable IO _ f3).1, literalEval_repr printable IO _ f3]
  simp only [toStrList_strList]
  rcases cut_header h3 with h | ⟨p, rfl, h4⟩
  · rw [line_prefix h (noBreak_dict printable IO _ f4).1]
    refine bind_fails _ _ (fun v => bind_fails _ _ (fun l => ?_))
    exact ⟨_, rfl⟩
  rw [line_eq _ _ (noBreak_dict printable IO _ f4).1, literalEvalDict_repr printable IO _ f4]
  simp only [toDict_valuesVal _ hd]
  rcases cut_header h4 with h | ⟨p, rfl, h5⟩
  · rw [line_prefix h (noBreak_repr printable IO _ f5).1]
    refine bind_fails _ _ (fun v => bind_fails _ _ (fun l => ?_))
    exact ⟨_, rfl⟩
  rw [line_eq _ _ (noBreak_repr printable IO _ f5).1, literalEval_repr printable IO _ f5]
  simp only [toIndexes_indexesVal]
  rcases cut_header h5 with h | ⟨p, rfl, h6⟩
  · rw [line_prefix h (noBreak_repr printable IO _ f6).1]
    refine bind_fails _ _ (fun v => bind_fails _ _ (fun l => ?_))
    exact ⟨_, rfl⟩
  rw [line_eq _ _ (noBreak_repr printable IO _ f6).1, literalEval_repr printable IO _ f6]
  simp only [toStrList_strList]
  rcases cut_header h6 with h | ⟨p, rfl, h7⟩
  · obtain ⟨c1, c2⟩ := dropLast_strict h (repr_ne_nil printable IO f7)
    rw [line_prefix h (noBreak_repr printable IO _ f7).1]
    have : literalEval IO p.dropLast = .error .syntaxError := by
      cases f7 with
      | list hl => exact literalEval_cut printable IO _ hl _ c1 c2
    rw [this]
    exact ⟨_, rfl⟩
  · exfalso
    have : p = [] := by simpa [lines] using h7.1
    exact h7.2 (by rw [this]; rfl)

/-- C17, PCTMCs: a file with another header is refused. -/
theorem loadPCTMC_wrong_header (text : List Char) (h : (line (universal text)).1 ≠ "PCTMC".toList) :
    loadPCTMC IO EIO text = .error .valueError := by
  unfold loadPCTMC
  dsimp only
  rw [if_pos h]

/-! ### An example -/

/-- A printer for `0.0` and single symbols. -/
def symIO : ExprIO ℚ where
  dom e := e = .num 0 ∨ ∃ p, p ≠ "0.0" ∧ e = .sym p
  str e := match e with
    | .sym p => p
    | _ => "0.0"
  parse s := if s = "0.0" then some (.num 0) else some (.sym s)
  parse_str e h := by
    rcases h with rfl | ⟨p, hp, rfl⟩
    · rfl
    · simp [hp]

/-- Two states, one with a synchronous transition. -/
def syncPCTMC : PCTMC ℚ :=
  ⟨[[0, 1], [2, 0]], ["a", "init"], [.num 0, .sym "p", .sym "q"], [("p", 1/2)], [[(0, 1)], [(1, 0)]], ["p", "q"], [0, 1],
    [(0, "act", 1, .num 1)]⟩

/-- The hypotheses of the theorems are met. -/
example : mkPCTMC [[0, 1], [2, 0]] ["a", "init"] [.num 0, .sym "p", .sym "q"] [("p", some (1/2 : ℚ))] [[(0, 1)], [(1, 0)]]
      ["p", "q"] [(0, "act", 1, .num 1)] = .ok syncPCTMC ∧ (syncPCTMC.values.map Prod.fst).Nodup ∧
    (∀ p ∈ syncPCTMC.values, decIO.dom p.2) ∧ (∀ e ∈ syncPCTMC.exprs, symIO.dom e) := by
  refine ⟨?_, by decide, ?_, ?_⟩
  · rw [PCTMC.mkPCTMC_ok_iff _ _ _ _ _ _ _ (by decide)]
    decide +kernel
  · intro p hp
    simp only [syncPCTMC, List.mem_cons, List.not_mem_nil, or_false] at hp
    subst hp
    exact ⟨1, by decide +kernel⟩
  · intro e he
    simp only [syncPCTMC, List.mem_cons, List.not_mem_nil, or_false] at he
    rcases he with rfl | rfl | rfl
    · exact .inl rfl
    · exact .inr ⟨"p", by decide, rfl⟩
    · exact .inr ⟨"q", by decide, rfl⟩

/-- C17 fails for the synchronous transitions: `save` then `load` gives a model without them. -/
theorem loadPCTMC_loses_sync :
    (match loadPCTMC decIO symIO (savePCTMC (fun _ => true) decIO symIO syncPCTMC "m".toList) with
      | .ok r => decide (r.1 = "m".toList ∧ r.2.matrix = syncPCTMC.matrix ∧ syncPCTMC.sync ≠ [] ∧ r.2.sync = [])
      | .error _ => false) = true := by decide +kernel

end Files
end Jajapy
