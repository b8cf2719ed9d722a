import Verif.Props.Print

/-!
C101: what `print(model)` shows, for HMMs and GoHMMs; and concrete cases.
-/

namespace Jajapy
namespace Print

open Files Spec

variable {K : Type} [Field K] [LinearOrder K] (IO : RoundIO K) {n : ℕ}

/-- The line between the transitions and the observations of a state. -/
def stars : List Char := "************".toList

theorem lines_base (matrix : Fin n → Fin n → K) (i : Fin n) (b : List (List Char)) :
    lines (headerLineHMM i :: (arrows (matrix i) (fun j => 1 / 10000 < matrix i j) i IO.repr ++ stars :: b)) =
      stateBase IO matrix i ++ lines b := by
  rw [show ∀ (a : List Char) c, lines (a :: c) = (a ++ ['\n']) ++ lines c from fun _ _ => rfl, lines_append, lines_arrows,
    show ∀ (a : List Char) c, lines (a :: c) = (a ++ ['\n']) ++ lines c from fun _ _ => rfl]
  unfold headerLineHMM stateBase stars
  rw [show "----\n".toList = "----".toList ++ ['\n'] from rfl, show "************\n".toList = "************".toList ++ ['\n'] from rfl]
  simp only [List.append_assoc, gt_iff_lt]

theorem stars_notMem {row : Fin n → K} {p : Fin n → Prop} [DecidablePred p] {i : ℕ} {f : K → List Char} : stars ∉ arrows row p i f := by
  intro h
  obtain ⟨j, _, e⟩ := mem_arrows.1 h
  have h1 : stars.head? = some '*' := rfl
  rw [e, show (arrowLine i j (f (row j))).head? = some 's' from rfl] at h1
  exact absurd h1 (by decide)

theorem stars_ok : '\n' ∉ stars ∧ stars ≠ [] ∧ stars.head? ≠ some '-' := by decide

/-- A block of a Base_HMM: the transitions, the stars and the lines `out i`. -/
theorem blockBase {matrix : Fin n → Fin n → K} {state : Fin n → List Char} {out : Fin n → List (List Char)}
    (hs : ∀ i, state i = stateBase IO matrix i ++ lines (out i)) (hm : ∀ i j, IO.dom (matrix i j))
    (ho : ∀ i, ∀ l ∈ out i, '\n' ∉ l ∧ l ≠ [] ∧ l.head? ≠ some '-') :
    Block state (fun i => headerLineHMM i)
      (fun i => arrows (matrix i) (fun j => 1 / 10000 < matrix i j) i IO.repr ++ stars :: out i) where
  text i := by rw [lines_base]; exact hs i
  head_ok i := headerLineHMM_ok
  body_ok i l h := by
    rcases List.mem_append.1 h with h | h
    · obtain ⟨j, _, rfl⟩ := mem_arrows.1 h
      exact arrowLine_ok (repr_notMem IO (by decide) (hm i j))
    · rcases List.mem_cons.1 h with rfl | h
      · exact stars_ok
      · exact ho i l h
  inj i j h := Fin.ext (headerLineHMM_inj h)

theorem headersHMM_iff {name : List Char} {init : Fin n → K} {state : Fin n → List Char}
    {body : Fin n → List (List Char)} (hn : '\n' ∉ name) (hd : ∀ i, IO.dom (init i))
    (B : Block state (fun i => headerLineHMM i) body) (k : ℕ) :
    headerLineHMM k ∈ textLines (modelText IO name init state) ↔ k < n := by
  rw [head_mem IO hn hd B rfl]
  constructor
  · rintro ⟨i, h⟩
    rw [headerLineHMM_inj h]
    exact i.2
  · intro h
    exact ⟨⟨k, h⟩, rfl⟩

theorem number_same {n' : ℕ} {P : ℕ → Prop} (h : ∀ k, P k ↔ k < n) (h' : ∀ k, P k ↔ k < n') : n = n' := by
  apply le_antisymm
  · by_contra hc
    push Not at hc
    exact absurd ((h' n').1 ((h n').2 hc)) (lt_irrefl _)
  · by_contra hc
    push Not at hc
    exact absurd ((h n).1 ((h' n).2 hc)) (lt_irrefl _)

/-! ### HMMs -/

/-- The lines of the observations of state `i`. -/
def outputLines (M : HMM K String n) (i : Fin n) : List (List Char) :=
  ((List.finRange M.alphabet.length).filter (fun k => decide (1 / 10000 < M.output i k))).map
    (fun k : Fin M.alphabet.length => outputLine i M.alphabet[k] (IO.repr (M.output i k)))

theorem mem_outputLines {M : HMM K String n} {i : Fin n} {l : List Char} :
    l ∈ outputLines IO M i ↔ ∃ k : Fin M.alphabet.length, 1 / 10000 < M.output i k ∧ l = outputLine i M.alphabet[k] (IO.repr (M.output i k)) := by
  unfold outputLines
  simp only [List.mem_finRange, true_and, List.mem_map, List.mem_filter, decide_eq_true_eq]
  exact ⟨fun ⟨a, h, e⟩ => ⟨a, h, e.symm⟩, fun ⟨a, h, e⟩ => ⟨a, h, e.symm⟩⟩

theorem blockHMM {M : HMM K String n} (ha : ∀ a ∈ M.alphabet, '\n' ∉ a.toList) (hm : ∀ i j, IO.dom (M.matrix i j))
    (ho : ∀ i k, IO.dom (M.output i k)) :
    Block (stateHMM IO M) (fun i => headerLineHMM i)
      (fun i => arrows (M.matrix i) (fun j => 1 / 10000 < M.matrix i j) i IO.repr ++ stars :: outputLines IO M i) := by
  refine blockBase IO (fun i => ?_) hm (fun i l h => ?_)
  · unfold stateHMM outputLines
    congr 1
    rw [← flatMap_if, lines_flatMap]
    congr 1
    funext k
    rw [lines_if]
    split_ifs
    · simp [outputLine]
    · rfl
  · obtain ⟨k, _, rfl⟩ := (mem_outputLines IO).1 h
    refine ⟨?_, by simp [outputLine], by simp [outputLine]⟩
    unfold outputLine
    exact notMem_append (notMem_append (notMem_append (notMem_append (notMem_append (by decide) (reprNat_notMem (by decide) _)) (by decide))
      (ha _ (List.getElem_mem _))) (by decide)) (repr_notMem IO (by decide) (ho i k))

/-- C101 (HMMs). The section of a state has one line per transition whose probability exceeds 0.0001, a line of stars, and one line
per observation whose probability exceeds 0.0001. -/
theorem hmm_print_section {M : HMM K String n} {name : List Char} (hn : '\n' ∉ name) (ha : ∀ a ∈ M.alphabet, '\n' ∉ a.toList)
    (hd : ∀ i, IO.dom (M.initialState i)) (hm : ∀ i j, IO.dom (M.matrix i j)) (ho : ∀ i k, IO.dom (M.output i k)) (i : Fin n) :
    sectionOf (printHMM IO M name) (headerLineHMM i) =
      ((List.finRange n).filter (fun j => decide (1 / 10000 < M.matrix i j))).map
        (fun j : Fin n => arrowLine i j (IO.repr (M.matrix i j))) ++
      "************".toList :: ((List.finRange M.alphabet.length).filter (fun k => decide (1 / 10000 < M.output i k))).map
        (fun k : Fin M.alphabet.length => outputLine i M.alphabet[k] (IO.repr (M.output i k))) :=
  section_model IO hn hd (blockHMM IO ha hm ho) i

variable [IsStrictOrderedRing K]

/-- C101 (HMMs). Name, initial distribution, headers. -/
theorem hmm_print_head {M : HMM K String n} {name : List Char} (hn : '\n' ∉ name) (ha : ∀ a ∈ M.alphabet, '\n' ∉ a.toList)
    (hd : ∀ i, IO.dom (M.initialState i)) (hm : ∀ i j, IO.dom (M.matrix i j)) (ho : ∀ i k, IO.dom (M.output i k))
    (hp : ∀ s, 0 ≤ M.initialState s) (hs : ∑ s, M.initialState s = 1) :
    (textLines (printHMM IO M name))[0]? = some ("Name: ".toList ++ name) ∧
    (∃ line, (textLines (printHMM IO M name))[1]? = some line ∧ InitialShown IO line M.initialState) ∧
    ∀ k, headerLineHMM k ∈ textLines (printHMM IO M name) ↔ k < n :=
  ⟨(first_lines IO hn hd (blockHMM IO ha hm ho)).1, ⟨_, (first_lines IO hn hd (blockHMM IO ha hm ho)).2, initialShown IO hp hs⟩,
    headersHMM_iff IO hn hd (blockHMM IO ha hm ho)⟩

/-- C101 (HMMs). Two models with the same text have the same name, the same number of states, initial distributions that differ by
at most 0.002, the same transition probabilities unless both are at most 0.0001, and exactly the same observations among those of
probability above 0.0001. -/
theorem hmm_print_determines {n' : ℕ} {M : HMM K String n} {M' : HMM K String n'} {name name' : List Char}
    (hn : '\n' ∉ name) (ha : ∀ a ∈ M.alphabet, '\n' ∉ a.toList)
    (hd : ∀ i, IO.dom (M.initialState i)) (hm : ∀ i j, IO.dom (M.matrix i j)) (ho : ∀ i k, IO.dom (M.output i k))
    (hp : ∀ s, 0 ≤ M.initialState s) (hs : ∑ s, M.initialState s = 1)
    (hn' : '\n' ∉ name') (ha' : ∀ a ∈ M'.alphabet, '\n' ∉ a.toList)
    (hd' : ∀ i, IO.dom (M'.initialState i)) (hm' : ∀ i j, IO.dom (M'.matrix i j)) (ho' : ∀ i k, IO.dom (M'.output i k))
    (hp' : ∀ s, 0 ≤ M'.initialState s) (hs' : ∑ s, M'.initialState s = 1)
    (h : printHMM IO M name = printHMM IO M' name') :
    name = name' ∧ ∃ e : n = n', (∀ i, |M.initialState i - M'.initialState (Fin.cast e i)| ≤ 1 / 500) ∧
      (∀ i j, M.matrix i j = M'.matrix (Fin.cast e i) (Fin.cast e j) ∨
        (M.matrix i j ≤ 1 / 10000 ∧ M'.matrix (Fin.cast e i) (Fin.cast e j) ≤ 1 / 10000)) ∧
      ∀ i o x, 1 / 10000 < x →
        ((∃ k : Fin M.alphabet.length, M.alphabet[k] = o ∧ M.output i k = x) ↔
          ∃ k : Fin M'.alphabet.length, M'.alphabet[k] = o ∧ M'.output (Fin.cast e i) k = x) := by
  have e : n = n' := number_same (h ▸ (hmm_print_head IO hn ha hd hm ho hp hs).2.2) (hmm_print_head IO hn' ha' hd' hm' ho' hp' hs').2.2
  subst e
  obtain ⟨hname, hinit⟩ := same_model IO hn hd (blockHMM IO ha hm ho) hp hs hn' hd' (blockHMM IO ha' hm' ho') hp' hs' h
  have hsec := fun i => by
    have hsec := section_model IO hn hd (blockHMM IO ha hm ho) i
    change sectionOf (printHMM IO M name) (headerLineHMM i) = _ at hsec
    rw [h] at hsec
    exact cut_left stars_notMem stars_notMem (hsec.symm.trans (section_model IO hn' hd' (blockHMM IO ha' hm' ho') i))
  refine ⟨hname, rfl, hinit, fun i j => ?_, fun i o x hx => ?_⟩
  · rcases arrows_same (row := M.matrix i) (row' := M'.matrix i) (p := fun j => 1 / 10000 < M.matrix i j)
      (p' := fun j => 1 / 10000 < M'.matrix i j) (i := i) (b := []) (b' := []) (f := IO.repr) (by simp) (by simp)
      (by rw [List.append_nil, List.append_nil]; exact (hsec i).1) j with h0 | ⟨_, _, h0⟩
    · exact .inr ⟨not_lt.1 h0.1, not_lt.1 h0.2⟩
    · exact .inl (repr_inj IO (hm i j) (hm' i j) h0)
  · have one : ∀ {M M' : HMM K String n}, (∀ i k, IO.dom (M.output i k)) → (∀ i k, IO.dom (M'.output i k)) →
        outputLines IO M i = outputLines IO M' i → (∃ k : Fin M.alphabet.length, M.alphabet[k] = o ∧ M.output i k = x) →
        ∃ k : Fin M'.alphabet.length, M'.alphabet[k] = o ∧ M'.output i k = x := by
      rintro M M' hm hm' key ⟨k, rfl, rfl⟩
      have := (mem_outputLines IO (M := M)).2 ⟨k, hx, rfl⟩
      rw [key] at this
      obtain ⟨b, _, e⟩ := (mem_outputLines IO).1 this
      obtain ⟨e1, e2⟩ := outputLine_inj (repr_notMem IO (by decide) (hm i k)) (repr_notMem IO (by decide) (hm' i b)) e
      exact ⟨b, e1.symm, (repr_inj IO (hm i k) (hm' i b) e2).symm⟩
    exact ⟨one ho ho' (hsec i).2, one ho' ho (hsec i).2.symm⟩

/-! ### GoHMMs -/

variable {d : ℕ}

/-- The lines of the distributions of state `i`. -/
def gaussLines (mu sigma : Fin n → Fin d → K) (i : Fin n) : List (List Char) :=
  (List.finRange d).flatMap (fun k : Fin d => [numberedLine "mean".toList (k + 1) (IO.repr (IO.round 4 (mu i k))),
    numberedLine "std".toList (k + 1) (IO.repr (IO.round 4 (sigma i k)))])

omit [IsStrictOrderedRing K] in
theorem mem_gaussLines {mu sigma : Fin n → Fin d → K} {i : Fin n} {l : List Char} :
    l ∈ gaussLines IO mu sigma i ↔ ∃ k : Fin d, l = numberedLine "mean".toList (k + 1) (IO.repr (IO.round 4 (mu i k))) ∨
      l = numberedLine "std".toList (k + 1) (IO.repr (IO.round 4 (sigma i k))) := by
  unfold gaussLines
  simp [List.mem_flatMap]

theorem numberedLine_inj {w : List Char} {j k : ℕ} {x y : List Char} (h : numberedLine w j x = numberedLine w k y) : j = k ∧ x = y := by
  unfold numberedLine at h
  simp only [List.append_assoc] at h
  obtain ⟨e1, e2⟩ := cut_left (c := ':') (reprNat_notMem (by decide) _) (reprNat_notMem (by decide) _)
    (List.append_cancel_left (List.append_cancel_left h))
  exact ⟨reprNat_inj e1, (List.cons_eq_cons.1 e2).2⟩

theorem mean_ne_std {j k : ℕ} {x y : List Char} : numberedLine "mean".toList j x ≠ numberedLine "std".toList k y := by
  intro h
  have := congrArg List.head? h
  simp [numberedLine] at this

omit [IsStrictOrderedRing K] in
theorem blockGoHMM {matrix : Fin n → Fin n → K} {mu sigma : Fin n → Fin d → K} (hm : ∀ i j, IO.dom (matrix i j))
    (hmu : ∀ i k, IO.dom (mu i k)) (hsi : ∀ i k, IO.dom (sigma i k)) :
    Block (stateGoHMM IO matrix mu sigma) (fun i => headerLineHMM i)
      (fun i => arrows (matrix i) (fun j => 1 / 10000 < matrix i j) i IO.repr ++ stars :: gaussLines IO mu sigma i) := by
  refine blockBase IO (fun i => ?_) hm (fun i l h => ?_)
  · unfold stateGoHMM gaussLines
    congr 1
    rw [lines_flatMap]
    congr 1
    funext k
    simp [lines, numberedLine]
  · have ok : ∀ (w : List Char) (k : ℕ) (x : K), IO.dom x → '\n' ∉ w → '\n' ∉ numberedLine w k (IO.repr (IO.round 4 x)) := by
      intro w k x hx hw
      unfold numberedLine
      exact notMem_append (notMem_append (notMem_append (notMem_append hw (by decide)) (reprNat_notMem (by decide) _)) (by decide))
        (repr_notMem IO (by decide) (IO.round_dom _ _ hx))
    obtain ⟨k, rfl | rfl⟩ := (mem_gaussLines IO).1 h
    · exact ⟨ok _ _ _ (hmu i k) (by decide), by simp [numberedLine], by simp [numberedLine]⟩
    · exact ⟨ok _ _ _ (hsi i k) (by decide), by simp [numberedLine], by simp [numberedLine]⟩

omit [IsStrictOrderedRing K] in
/-- C101 (GoHMMs). The section of a state has one line per transition whose probability exceeds 0.0001, a line of stars, and the
means and deviations of its distributions rounded to four digits. -/
theorem gohmm_print_section {matrix : Fin n → Fin n → K} {mu sigma : Fin n → Fin d → K} {init : Fin n → K} {name : List Char}
    (hn : '\n' ∉ name) (hd : ∀ i, IO.dom (init i)) (hm : ∀ i j, IO.dom (matrix i j)) (hmu : ∀ i k, IO.dom (mu i k))
    (hsi : ∀ i k, IO.dom (sigma i k)) (i : Fin n) :
    sectionOf (printGoHMM IO matrix mu sigma init name) (headerLineHMM i) =
      ((List.finRange n).filter (fun j => decide (1 / 10000 < matrix i j))).map (fun j : Fin n => arrowLine i j (IO.repr (matrix i j))) ++
      "************".toList :: (List.finRange d).flatMap (fun k : Fin d =>
        [numberedLine "mean".toList (k + 1) (IO.repr (IO.round 4 (mu i k))),
         numberedLine "std".toList (k + 1) (IO.repr (IO.round 4 (sigma i k)))]) :=
  section_model IO hn hd (blockGoHMM IO hm hmu hsi) i

/-- C101 (GoHMMs). Name, initial distribution, headers. -/
theorem gohmm_print_head {matrix : Fin n → Fin n → K} {mu sigma : Fin n → Fin d → K} {init : Fin n → K} {name : List Char}
    (hn : '\n' ∉ name) (hd : ∀ i, IO.dom (init i)) (hm : ∀ i j, IO.dom (matrix i j)) (hmu : ∀ i k, IO.dom (mu i k))
    (hsi : ∀ i k, IO.dom (sigma i k)) (hp : ∀ s, 0 ≤ init s) (hs : ∑ s, init s = 1) :
    (textLines (printGoHMM IO matrix mu sigma init name))[0]? = some ("Name: ".toList ++ name) ∧
    (∃ line, (textLines (printGoHMM IO matrix mu sigma init name))[1]? = some line ∧ InitialShown IO line init) ∧
    ∀ k, headerLineHMM k ∈ textLines (printGoHMM IO matrix mu sigma init name) ↔ k < n :=
  ⟨(first_lines IO hn hd (blockGoHMM IO hm hmu hsi)).1, ⟨_, (first_lines IO hn hd (blockGoHMM IO hm hmu hsi)).2, initialShown IO hp hs⟩,
    headersHMM_iff IO hn hd (blockGoHMM IO hm hmu hsi)⟩

/-- C101 (GoHMMs). Two models with the same text have the same name, the same numbers of states and distributions, initial
distributions that differ by at most 0.002, the same transition probabilities unless both are at most 0.0001, and means and
deviations that differ by at most 0.0002. -/
theorem gohmm_print_determines {n' d' : ℕ} {matrix : Fin n → Fin n → K} {mu sigma : Fin n → Fin d → K} {init : Fin n → K}
    {matrix' : Fin n' → Fin n' → K} {mu' sigma' : Fin n' → Fin d' → K} {init' : Fin n' → K} {name name' : List Char}
    (hn : '\n' ∉ name) (hd : ∀ i, IO.dom (init i)) (hm : ∀ i j, IO.dom (matrix i j)) (hmu : ∀ i k, IO.dom (mu i k))
    (hsi : ∀ i k, IO.dom (sigma i k)) (hp : ∀ s, 0 ≤ init s) (hs : ∑ s, init s = 1)
    (hn' : '\n' ∉ name') (hd' : ∀ i, IO.dom (init' i)) (hm' : ∀ i j, IO.dom (matrix' i j)) (hmu' : ∀ i k, IO.dom (mu' i k))
    (hsi' : ∀ i k, IO.dom (sigma' i k)) (hp' : ∀ s, 0 ≤ init' s) (hs' : ∑ s, init' s = 1)
    (h : printGoHMM IO matrix mu sigma init name = printGoHMM IO matrix' mu' sigma' init' name') :
    name = name' ∧ ∃ (e : n = n') (ed : d = d'), (∀ i, |init i - init' (Fin.cast e i)| ≤ 1 / 500) ∧
      (∀ i j, matrix i j = matrix' (Fin.cast e i) (Fin.cast e j) ∨
        (matrix i j ≤ 1 / 10000 ∧ matrix' (Fin.cast e i) (Fin.cast e j) ≤ 1 / 10000)) ∧
      ∀ i k, |mu i k - mu' (Fin.cast e i) (Fin.cast ed k)| ≤ 1 / 5000 ∧
        |sigma i k - sigma' (Fin.cast e i) (Fin.cast ed k)| ≤ 1 / 5000 := by
  have e : n = n' := number_same (h ▸ (gohmm_print_head IO hn hd hm hmu hsi hp hs).2.2) (gohmm_print_head IO hn' hd' hm' hmu' hsi' hp' hs').2.2
  subst e
  obtain ⟨hname, hinit⟩ := same_model IO hn hd (blockGoHMM IO hm hmu hsi) hp hs hn' hd' (blockGoHMM IO hm' hmu' hsi') hp' hs' h
  have hsec := fun i => by
    have hsec := section_model IO hn hd (blockGoHMM IO hm hmu hsi) i
    change sectionOf (printGoHMM IO matrix mu sigma init name) (headerLineHMM i) = _ at hsec
    rw [h] at hsec
    exact cut_left stars_notMem stars_notMem (hsec.symm.trans (section_model IO hn' hd' (blockGoHMM IO hm' hmu' hsi') i))
  have hn0 : 0 < n := by
    rcases Nat.eq_zero_or_pos n with h0 | h0
    · subst h0; simp at hs
    · exact h0
  have ed : d = d' := by
    have := congrArg List.length (hsec ⟨0, hn0⟩).2
    simpa [gaussLines] using this
  subst ed
  refine ⟨hname, rfl, rfl, hinit, fun i j => ?_, fun i k => ?_⟩
  · rcases arrows_same (row := matrix i) (row' := matrix' i) (p := fun j => 1 / 10000 < matrix i j)
      (p' := fun j => 1 / 10000 < matrix' i j) (i := i) (b := []) (b' := []) (f := IO.repr) (by simp) (by simp)
      (by rw [List.append_nil, List.append_nil]; exact (hsec i).1) j with h0 | ⟨_, _, h0⟩
    · exact .inr ⟨not_lt.1 h0.1, not_lt.1 h0.2⟩
    · exact .inl (repr_inj IO (hm i j) (hm' i j) h0)
  · constructor
    · have := (mem_gaussLines IO (mu := mu) (sigma := sigma) (i := i)).2 ⟨k, .inl rfl⟩
      rw [(hsec i).2] at this
      obtain ⟨k', e | e⟩ := (mem_gaussLines IO).1 this
      · obtain ⟨e1, e2⟩ := numberedLine_inj e
        have hk : k = k' := Fin.ext (by omega)
        subst hk
        have := round_close IO (hmu i k) (hmu' i k) (repr_inj IO (IO.round_dom _ _ (hmu i k)) (IO.round_dom _ _ (hmu' i k)) e2)
        norm_num at this ⊢
        exact this
      · exact absurd e mean_ne_std
    · have := (mem_gaussLines IO (mu := mu) (sigma := sigma) (i := i)).2 ⟨k, .inr rfl⟩
      rw [(hsec i).2] at this
      obtain ⟨k', e | e⟩ := (mem_gaussLines IO).1 this
      · exact absurd e.symm mean_ne_std
      · obtain ⟨e1, e2⟩ := numberedLine_inj e
        have hk : k = k' := Fin.ext (by omega)
        subst hk
        have := round_close IO (hsi i k) (hsi' i k) (repr_inj IO (IO.round_dom _ _ (hsi i k)) (IO.round_dom _ _ (hsi' i k)) e2)
        norm_num at this ⊢
        exact this

/-! ### Concrete cases -/

/-- Rational numbers with a finite decimal expansion, with the rounding half up. -/
def decRound : RoundIO ℚ where
  toFloatIO := decIO
  round d x := (⌊x * 10 ^ d + 1 / 2⌋ : ℚ) / 10 ^ d
  round_dom d x _ := by
    refine ⟨d, ?_⟩
    have := Rat.den_dvd ⌊x * 10 ^ d + 1 / 2⌋ (10 ^ d)
    push_cast at this
    exact_mod_cast this
  round_err d x _ := by
    have h1 := Int.floor_le (x * 10 ^ d + 1 / 2)
    have h2 := Int.lt_floor_add_one (x * 10 ^ d + 1 / 2)
    have hp : (0 : ℚ) < 10 ^ d := by positivity
    rw [abs_le]
    constructor
    · rw [neg_le_sub_iff_le_add, ← add_div, le_div_iff₀ hp]
      linarith
    · rw [sub_le_iff_le_add, div_le_iff₀ hp, add_mul, one_div_mul_cancel hp.ne']
      linarith

/-- Two states; one probability is below the threshold and one needs more than five digits. -/
def exMC (p : ℚ) : MC ℚ String 2 :=
  { matrix := ![![1 / 4, 3 / 4], ![1 - p, p]], labelling := ![ "a", "init"], initialState := ![0, 1] }

example : printMC decRound (exMC (1 / 20000)) "toy".toList =
    ("Name: toy\nInitial state: s1\n----STATE 0--a----\ns0 -> s0 : 0.25\ns0 -> s1 : 0.75\n\n" ++
      "----STATE 1--init----\ns1 -> s0 : 0.99995\n\n\n").toList := by
  decide +kernel

/-- The text does not determine the model: two different chains with the same text. -/
theorem mc_print_not_injective :
    printMC decRound (exMC 0) "toy".toList = printMC decRound (exMC (1 / 1000000)) "toy".toList ∧
    (exMC 0).matrix ≠ (exMC (1 / 1000000)).matrix := by
  refine ⟨by decide +kernel, fun h => ?_⟩
  have := congrFun (congrFun h 1) 1
  simp [exMC] at this

/-- The hypotheses of the theorems on Markov chains hold for it. -/
example : '\n' ∉ "toy".toList ∧ (∀ i, '\n' ∉ ((exMC (1 / 20000)).labelling i).toList) ∧
    (∀ i, decRound.dom ((exMC (1 / 20000)).initialState i)) ∧ (∀ i j, decRound.dom ((exMC (1 / 20000)).matrix i j)) ∧
    (∀ s, 0 ≤ (exMC (1 / 20000)).initialState s) ∧ ∑ s, (exMC (1 / 20000)).initialState s = 1 := by
  refine ⟨by decide, by decide +kernel, fun i => ⟨5, ?_⟩, fun i j => ⟨5, ?_⟩, by decide +kernel, by decide +kernel⟩
  · revert i; decide +kernel
  · revert i j; decide +kernel

/-- A CTMC with an absorbing state and a spread initial distribution. -/
def exCTMC : CTMC ℚ String 3 :=
  { matrix := ![![0, 2, 1 / 2], ![0, 0, 0], ![4, 0, 1 / 10000]], labelling := ![ "a", "b", "init"], initialState := ![1 / 4, 0, 3 / 4] }

example : printCTMC decRound exCTMC "toy".toList =
    ("Name: toy\nInitial state: s0: 0.25, s2: 0.75\n----STATE 0--a----\nExepected waiting time: 0.4\ns0 -> s1 : lambda = 2.0\n" ++
      "s0 -> s2 : lambda = 0.5\n\n----STATE 1--b----\nExepected waiting time: inf\n\n----STATE 2--init----\n" ++
      "Exepected waiting time: " ++ String.ofList (decRound.repr (1 / (4 + 1 / 10000))) ++ "\ns2 -> s0 : lambda = 4.0\n\n\n").toList := by
  decide +kernel

/-- An MDP. -/
def exMDP : MDP ℚ String 2 :=
  { actions := ["x", "y"], matrix := ![![![1 / 2, 1 / 2], ![0, 1]], ![![1, 0], ![0, 0]]], labelling := ![ "a", "init"], initialState := ![0, 1] }

example : printMDP decRound exMDP "toy".toList =
    ("Name: toy\nInitial state: s1\n----STATE 0--a----\ns0 - (x) -> s0 : 0.5\ns0 - (x) -> s1 : 0.5\ns0 - (y) -> s1 : 1.0\n\n" ++
      "----STATE 1--init----\ns1 - (x) -> s0 : 1.0\n\n\n").toList := by
  decide +kernel

/-- An HMM. -/
def exHMM : HMM ℚ String 2 :=
  { matrix := ![![1 / 4, 3 / 4], ![1, 0]], alphabet := ["x", "y"], output := ![![1, 0], ![1 / 2, 1 / 2]], initialState := ![1 / 2, 1 / 2] }

example : printHMM decRound exHMM "toy".toList =
    ("Name: toy\nInitial state: s0: 0.5, s1: 0.5\n----STATE s0----\ns0 -> s0 : 0.25\ns0 -> s1 : 0.75\n************\ns0 => x : 1.0\n\n" ++
      "----STATE s1----\ns1 -> s0 : 1.0\n************\ns1 => x : 0.5\ns1 => y : 0.5\n\n\n").toList := by
  decide +kernel

example : printGoHMM decRound ![![(1 : ℚ)]] ![![3, 1 / 3 * 3 + 1 / 20000]] ![![1, 1 / 2]] ![1] "toy".toList =
    ("Name: toy\nInitial state: s0\n----STATE s0----\ns0 -> s0 : 1.0\n************\nmean 1: 3.0\nstd 1: 1.0\nmean 2: 1.0001\n" ++
      "std 2: 0.5\n\n\n").toList := by
  decide +kernel

end Print
end Jajapy
