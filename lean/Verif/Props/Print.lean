import Verif.Lemmas.Print
import Verif.Lemmas.FilesDec

/-!
C101: what `print(model)` shows.
-/

namespace Jajapy
namespace Print

open Files Spec

variable {K : Type} [Field K] [LinearOrder K] (IO : RoundIO K) {n : ℕ}

/-! ### Blocks -/

theorem notMem_append {α : Type} {c : α} {a b : List α} (ha : c ∉ a) (hb : c ∉ b) : c ∉ a ++ b := by
  intro h
  rcases List.mem_append.1 h with h | h
  · exact ha h
  · exact hb h

theorem arrowLine_ok {i j : ℕ} {x : List Char} (hx : '\n' ∉ x) :
    '\n' ∉ arrowLine i j x ∧ arrowLine i j x ≠ [] ∧ (arrowLine i j x).head? ≠ some '-' := by
  refine ⟨?_, by simp [arrowLine], by simp [arrowLine]⟩
  unfold arrowLine
  exact notMem_append (notMem_append (notMem_append (notMem_append (notMem_append (by decide) (reprNat_notMem (by decide) _)) (by decide))
    (reprNat_notMem (by decide) _)) (by decide)) hx

theorem headerLine_ok {i : ℕ} {l : String} (hl : '\n' ∉ l.toList) : '\n' ∉ headerLine i l ∧ (headerLine i l).head? = some '-' := by
  refine ⟨?_, rfl⟩
  unfold headerLine
  exact notMem_append (notMem_append (notMem_append (notMem_append (by decide) (reprNat_notMem (by decide) _)) (by decide)) hl) (by decide)

theorem headerLineHMM_ok {i : ℕ} : '\n' ∉ headerLineHMM i ∧ (headerLineHMM i).head? = some '-' := by
  refine ⟨?_, rfl⟩
  unfold headerLineHMM
  exact notMem_append (notMem_append (by decide) (reprNat_notMem (by decide) _)) (by decide)

theorem headerLine_inj {i j : ℕ} {l l' : String} (h : headerLine i l = headerLine j l') : i = j ∧ l = l' := by
  unfold headerLine at h
  have h1 := List.append_cancel_right h
  simp only [List.append_assoc] at h1
  obtain ⟨e1, e2⟩ := cut_left (c := '-') (reprNat_notMem (by decide) _) (reprNat_notMem (by decide) _) (List.append_cancel_left h1)
  exact ⟨reprNat_inj e1, String.toList_inj.1 (List.cons_eq_cons.1 e2).2⟩

theorem headerLineHMM_inj {i j : ℕ} (h : headerLineHMM i = headerLineHMM j) : i = j :=
  reprNat_inj (List.append_cancel_left (List.append_cancel_right h))

theorem arrowLine_inj {i j k : ℕ} {x y : List Char} (h : arrowLine i j x = arrowLine i k y) : j = k ∧ x = y := by
  unfold arrowLine at h
  simp only [List.append_assoc] at h
  have h1 := List.append_cancel_left (List.append_cancel_left (List.append_cancel_left h))
  obtain ⟨e1, e2⟩ := cut_left (c := ' ') (reprNat_notMem (by decide) _) (reprNat_notMem (by decide) _) h1
  exact ⟨reprNat_inj e1, by simpa using e2⟩

theorem actionLine_inj {i j k : ℕ} {a b : String} {x y : List Char} (hx : ' ' ∉ x) (hy : ' ' ∉ y)
    (h : actionLine i a j x = actionLine i b k y) : a = b ∧ j = k ∧ x = y := by
  have e : ∀ (a : String) (j : ℕ) (x : List Char), actionLine i a j x =
      ("s".toList ++ reprNat i ++ " - (".toList) ++ (((a.toList ++ ") -> ".toList ++ 's' :: reprNat j) ++ [' ', ':']) ++ ' ' :: x) := by
    intro a j x; simp [actionLine]
  rw [e, e] at h
  obtain ⟨h1, h2⟩ := cut_right hx hy (List.append_cancel_left h)
  obtain ⟨h3, h4⟩ := cut_right (reprNat_notMem (by decide) _) (reprNat_notMem (by decide) _) (List.append_cancel_right h1)
  exact ⟨String.toList_inj.1 (List.append_cancel_right h3), reprNat_inj h4, h2⟩

theorem outputLine_inj {i : ℕ} {a b : String} {x y : List Char} (hx : ' ' ∉ x) (hy : ' ' ∉ y)
    (h : outputLine i a x = outputLine i b y) : a = b ∧ x = y := by
  have e : ∀ (a : String) (x : List Char), outputLine i a x =
      ("s".toList ++ reprNat i ++ " => ".toList) ++ ((a.toList ++ [' ', ':']) ++ ' ' :: x) := by
    intro a x; simp [outputLine]
  rw [e, e] at h
  obtain ⟨h1, h2⟩ := cut_right hx hy (List.append_cancel_left h)
  exact ⟨String.toList_inj.1 (List.append_cancel_right h1), h2⟩

theorem arrowLine_ne_outputLine {i j : ℕ} {o : String} {x y : List Char} : arrowLine i j x ≠ outputLine i o y := by
  intro h
  unfold arrowLine outputLine at h
  simp only [List.append_assoc] at h
  have := List.append_cancel_left (List.append_cancel_left h)
  simp at this

/-- The lines of the transitions out of state `i`. -/
def arrows (row : Fin n → K) (p : Fin n → Prop) [DecidablePred p] (i : ℕ) (f : K → List Char) : List (List Char) :=
  ((List.finRange n).filter (fun j => decide (p j))).map (fun j : Fin n => arrowLine i j (f (row j)))

theorem lines_arrows (row : Fin n → K) (p : Fin n → Prop) [DecidablePred p] (i : ℕ) (f : K → List Char) :
    lines (arrows row p i f) = (List.finRange n).flatMap (fun j => if p j then transition i j (f (row j)) else []) := by
  unfold arrows
  rw [← flatMap_if, lines_flatMap]
  congr 1
  funext j
  rw [lines_if]
  split_ifs
  · simp [arrowLine, transition]
  · rfl

theorem mem_arrows {row : Fin n → K} {p : Fin n → Prop} [DecidablePred p] {i : ℕ} {f : K → List Char} {l : List Char} :
    l ∈ arrows row p i f ↔ ∃ j, p j ∧ l = arrowLine i j (f (row j)) := by
  unfold arrows
  simp [eq_comm]

theorem lines_header (i : ℕ) (l : String) (b : List (List Char)) : lines (headerLine i l :: b) = header i l.toList ++ lines b := by
  unfold headerLine header
  rw [show "----\n".toList = "----".toList ++ ['\n'] from rfl]
  simp only [lines, List.flatMap_cons, List.append_assoc]

theorem blockMC {M : MC K String n} (hl : ∀ i, '\n' ∉ (M.labelling i).toList) (hm : ∀ i j, IO.dom (M.matrix i j)) :
    Block (stateMC IO M) (fun i => headerLine i (M.labelling i))
      (fun i => arrows (M.matrix i) (fun j => 1 / 10000 < M.matrix i j) i (fun x => IO.repr (IO.round 5 x))) where
  text i := by rw [lines_header, lines_arrows]; rfl
  head_ok i := headerLine_ok (hl i)
  body_ok i l h := by
    obtain ⟨j, _, rfl⟩ := mem_arrows.1 h
    exact arrowLine_ok (repr_notMem IO (by decide) (IO.round_dom _ _ (hm i j)))
  inj i j h := Fin.ext (headerLine_inj h).1

/-- The second line of a printed model, for an initial distribution. -/
structure InitialShown (line : List Char) (init : Fin n → K) : Prop where
  /-- One state has the probability 1. -/
  one : ∀ i, init i = 1 → line = "Initial state: s".toList ++ reprNat i
  /-- No state has the probability 1, and some has at least 0.001. -/
  spread : (∀ i, init i ≠ 1) → (∃ i, 1 / 1000 ≤ init i) → line = "Initial state: ".toList ++ List.intercalate ", ".toList
    (((List.finRange n).filter (fun i => decide (1 / 1000 ≤ init i))).map (fun i : Fin n => initialItem i (IO.repr (IO.round 3 (init i)))))
  /-- All the probabilities are below 0.001. -/
  small : (∀ i, init i ≠ 1) → (∀ i, init i < 1 / 1000) → line = "Initial state".toList

theorem initialShown [IsStrictOrderedRing K] {init : Fin n → K} (hp : ∀ s, 0 ≤ init s) (hs : ∑ s, init s = 1) :
    InitialShown IO (initialLine IO init) init where
  one i h := (initialLine_one IO hp hs h).1
  spread h1 h2 := by
    rw [initialLine_spread IO h1, if_neg]
    · rfl
    · obtain ⟨i, hi⟩ := h2
      intro h
      have : i ∈ shown init := by simpa [shown] using hi
      rw [h] at this
      cases this
  small h1 h2 := by
    rw [initialLine_spread IO h1, if_pos]
    simpa [shown, List.filter_eq_nil_iff] using h2

section
variable [IsStrictOrderedRing K]

/-- C101 (Markov chains). The text of a model starts with its name and its initial distribution. -/
theorem mc_print_head {M : MC K String n} {name : List Char} (hn : '\n' ∉ name) (hl : ∀ i, '\n' ∉ (M.labelling i).toList)
    (hd : ∀ i, IO.dom (M.initialState i)) (hm : ∀ i j, IO.dom (M.matrix i j)) (hp : ∀ s, 0 ≤ M.initialState s)
    (hs : ∑ s, M.initialState s = 1) :
    (textLines (printMC IO M name))[0]? = some ("Name: ".toList ++ name) ∧
    ∃ line, (textLines (printMC IO M name))[1]? = some line ∧ InitialShown IO line M.initialState :=
  ⟨(first_lines IO hn hd (blockMC IO hl hm)).1, _, (first_lines IO hn hd (blockMC IO hl hm)).2, initialShown IO hp hs⟩

end

/-- C101 (Markov chains). The headers of the text are those of the states, with their labels. -/
theorem mc_print_states {M : MC K String n} {name : List Char} (hn : '\n' ∉ name) (hl : ∀ i, '\n' ∉ (M.labelling i).toList)
    (hd : ∀ i, IO.dom (M.initialState i)) (hm : ∀ i j, IO.dom (M.matrix i j)) (k : ℕ) (l : String) :
    headerLine k l ∈ textLines (printMC IO M name) ↔ ∃ i : Fin n, i.val = k ∧ M.labelling i = l := by
  unfold printMC
  rw [head_mem IO hn hd (blockMC IO hl hm) rfl]
  constructor
  · rintro ⟨i, h⟩
    obtain ⟨e1, e2⟩ := headerLine_inj h
    exact ⟨i, e1.symm, e2.symm⟩
  · rintro ⟨i, rfl, rfl⟩
    exact ⟨i, rfl⟩

/-- C101 (Markov chains). The section of a state has one line per transition whose probability exceeds 0.0001, in the order of
the destinations, with its probability rounded to five digits, and no other line. -/
theorem mc_print_section {M : MC K String n} {name : List Char} (hn : '\n' ∉ name) (hl : ∀ i, '\n' ∉ (M.labelling i).toList)
    (hd : ∀ i, IO.dom (M.initialState i)) (hm : ∀ i j, IO.dom (M.matrix i j)) (i : Fin n) :
    sectionOf (printMC IO M name) (headerLine i (M.labelling i)) =
      ((List.finRange n).filter (fun j => decide (1 / 10000 < M.matrix i j))).map
        (fun j : Fin n => arrowLine i j (IO.repr (IO.round 5 (M.matrix i j)))) :=
  section_model IO hn hd (blockMC IO hl hm) i

/-- The same sections: what it says of the transitions. -/
theorem arrows_same {row row' : Fin n → K} {p p' : Fin n → Prop} [DecidablePred p] [DecidablePred p'] {i : ℕ} {f : K → List Char}
    {b b' : List (List Char)} (hb : ∀ j x, arrowLine i j x ∉ b) (hb' : ∀ j x, arrowLine i j x ∉ b')
    (h : arrows row p i f ++ b = arrows row' p' i f ++ b') (j : Fin n) :
    (¬ p j ∧ ¬ p' j) ∨ (p j ∧ p' j ∧ f (row j) = f (row' j)) := by
  have one : ∀ {row row' : Fin n → K} {p p' : Fin n → Prop} [DecidablePred p] [DecidablePred p'] {b b' : List (List Char)},
      (∀ j x, arrowLine i j x ∉ b') → arrows row p i f ++ b = arrows row' p' i f ++ b' → p j → p' j ∧ f (row j) = f (row' j) := by
    intro row row' p p' _ _ b b' hb' h hj
    have : arrowLine i j (f (row j)) ∈ arrows row' p' i f ++ b' := h ▸ List.mem_append_left _ (mem_arrows.2 ⟨j, hj, rfl⟩)
    rcases List.mem_append.1 this with this | this
    · obtain ⟨k, hk, e⟩ := mem_arrows.1 this
      obtain ⟨e1, e2⟩ := arrowLine_inj e
      have : j = k := Fin.ext e1
      subst this
      exact ⟨hk, e2⟩
    · exact absurd this (hb' _ _)
  by_cases h1 : p j
  · exact .inr ⟨h1, one hb' h h1⟩
  · refine .inl ⟨h1, fun h2 => h1 (one hb h.symm h2).1⟩

/-- The number of states and the labels are in the text. -/
theorem headers_same {n' : ℕ} {lab : Fin n → String} {lab' : Fin n' → String} {t : List Char}
    (h : ∀ k l, headerLine k l ∈ textLines t ↔ ∃ i : Fin n, i.val = k ∧ lab i = l)
    (h' : ∀ k l, headerLine k l ∈ textLines t ↔ ∃ i : Fin n', i.val = k ∧ lab' i = l) :
    ∃ e : n = n', ∀ i, lab i = lab' (Fin.cast e i) := by
  have key : ∀ k l, (∃ i : Fin n, i.val = k ∧ lab i = l) ↔ ∃ i : Fin n', i.val = k ∧ lab' i = l := fun k l => (h k l).symm.trans (h' k l)
  have e : n = n' := by
    apply le_antisymm
    · by_contra hc
      push Not at hc
      obtain ⟨i, hi, _⟩ := (key n' (lab ⟨n', hc⟩)).1 ⟨⟨n', hc⟩, rfl, rfl⟩
      omega
    · by_contra hc
      push Not at hc
      obtain ⟨i, hi, _⟩ := (key n (lab' ⟨n, hc⟩)).2 ⟨⟨n, hc⟩, rfl, rfl⟩
      omega
  refine ⟨e, fun i => ?_⟩
  obtain ⟨j, hj, hl⟩ := (key i.val (lab i)).1 ⟨i, rfl, rfl⟩
  rw [← hl]
  congr 1
  exact Fin.ext hj

variable [IsStrictOrderedRing K]

omit [IsStrictOrderedRing K] in
theorem headers_iff {name : List Char} {init : Fin n → K} {state : Fin n → List Char} {lab : Fin n → String}
    {body : Fin n → List (List Char)} (hn : '\n' ∉ name) (hd : ∀ i, IO.dom (init i))
    (B : Block state (fun i => headerLine i (lab i)) body) (k : ℕ) (l : String) :
    headerLine k l ∈ textLines (modelText IO name init state) ↔ ∃ i : Fin n, i.val = k ∧ lab i = l := by
  rw [head_mem IO hn hd B rfl]
  constructor
  · rintro ⟨i, h⟩
    obtain ⟨e1, e2⟩ := headerLine_inj h
    exact ⟨i, e1.symm, e2.symm⟩
  · rintro ⟨i, rfl, rfl⟩
    exact ⟨i, rfl⟩

theorem same_model {name name' : List Char} {init init' : Fin n → K} {state state' head head' : Fin n → List Char}
    {body body' : Fin n → List (List Char)} (hn : '\n' ∉ name) (hd : ∀ i, IO.dom (init i)) (B : Block state head body)
    (hp : ∀ s, 0 ≤ init s) (hs : ∑ s, init s = 1) (hn' : '\n' ∉ name') (hd' : ∀ i, IO.dom (init' i)) (B' : Block state' head' body')
    (hp' : ∀ s, 0 ≤ init' s) (hs' : ∑ s, init' s = 1) (h : modelText IO name init state = modelText IO name' init' state') :
    name = name' ∧ ∀ i, |init i - init' i| ≤ 1 / 500 := by
  obtain ⟨f1, f2⟩ := first_lines IO hn hd B
  obtain ⟨g1, g2⟩ := first_lines IO hn' hd' B'
  rw [h, g1] at f1
  rw [h, g2] at f2
  exact ⟨List.append_cancel_left (Option.some.inj f1).symm, initial_close IO hd hd' hp hs hp' hs' (Option.some.inj f2).symm⟩

/-- C101 (Markov chains). Two models with the same text have the same name, the same number of states, the same labels, initial
distributions that differ by at most 0.002, and transition probabilities that differ by at most 0.00002 or are both at most
0.0001. -/
theorem mc_print_determines {n' : ℕ} {M : MC K String n} {M' : MC K String n'} {name name' : List Char}
    (hn : '\n' ∉ name) (hl : ∀ i, '\n' ∉ (M.labelling i).toList) (hd : ∀ i, IO.dom (M.initialState i))
    (hm : ∀ i j, IO.dom (M.matrix i j)) (hp : ∀ s, 0 ≤ M.initialState s) (hs : ∑ s, M.initialState s = 1)
    (hn' : '\n' ∉ name') (hl' : ∀ i, '\n' ∉ (M'.labelling i).toList) (hd' : ∀ i, IO.dom (M'.initialState i))
    (hm' : ∀ i j, IO.dom (M'.matrix i j)) (hp' : ∀ s, 0 ≤ M'.initialState s) (hs' : ∑ s, M'.initialState s = 1)
    (h : printMC IO M name = printMC IO M' name') :
    name = name' ∧ ∃ e : n = n', (∀ i, M.labelling i = M'.labelling (Fin.cast e i)) ∧
      (∀ i, |M.initialState i - M'.initialState (Fin.cast e i)| ≤ 1 / 500) ∧
      ∀ i j, (M.matrix i j ≤ 1 / 10000 ∧ M'.matrix (Fin.cast e i) (Fin.cast e j) ≤ 1 / 10000) ∨
        |M.matrix i j - M'.matrix (Fin.cast e i) (Fin.cast e j)| ≤ 1 / 50000 := by
  obtain ⟨e, hlab⟩ := headers_same (h ▸ mc_print_states IO hn hl hd hm) (mc_print_states IO hn' hl' hd' hm')
  subst e
  obtain ⟨hname, hinit⟩ := same_model IO hn hd (blockMC IO hl hm) hp hs hn' hd' (blockMC IO hl' hm') hp' hs' h
  refine ⟨hname, rfl, hlab, hinit, fun i j => ?_⟩
  have hsec := mc_print_section IO hn hl hd hm i
  rw [h, hlab i] at hsec
  have := hsec.symm.trans (mc_print_section IO hn' hl' hd' hm' i)
  rcases arrows_same (row := M.matrix i) (row' := M'.matrix i) (p := fun j => 1 / 10000 < M.matrix i j)
      (p' := fun j => 1 / 10000 < M'.matrix i j) (i := i) (b := []) (b' := []) (f := fun x => IO.repr (IO.round 5 x)) (by simp) (by simp)
      (by rw [List.append_nil, List.append_nil]; exact this) j with h0 | ⟨_, _, h0⟩
  · exact .inl ⟨not_lt.1 h0.1, not_lt.1 h0.2⟩
  · right
    have := round_close IO (hm i j) (hm' i j) (repr_inj IO (IO.round_dom _ _ (hm i j)) (IO.round_dom _ _ (hm' i j)) h0)
    norm_num at this ⊢
    exact this

/-! ### CTMCs -/

omit [IsStrictOrderedRing K] in
theorem waitingText_ok {e : K} (h : e = 0 ∨ IO.dom (1 / e)) : '\n' ∉ waitingText IO e := by
  unfold waitingText
  split_ifs with h0
  · decide
  · exact repr_notMem IO (by decide) (h.resolve_left h0)

omit [IsStrictOrderedRing K] in
theorem waitingText_inj {e e' : K} (h : e = 0 ∨ IO.dom (1 / e)) (h' : e' = 0 ∨ IO.dom (1 / e'))
    (he : waitingText IO e = waitingText IO e') : e = e' := by
  have hne : ∀ {x : K}, IO.dom x → IO.repr x ≠ "inf".toList := by
    intro x hx hc
    exact repr_notMem IO (c := 'i') (by decide) hx (hc ▸ by decide)
  unfold waitingText at he
  split_ifs at he with h0 h1 h1
  · rw [h0, h1]
  · exact absurd he.symm (hne (h'.resolve_left h1))
  · exact absurd he (hne (h.resolve_left h0))
  · have := repr_inj IO (h.resolve_left h0) (h'.resolve_left h1) he
    field_simp at this
    exact this.symm

/-- The lines of a state of a CTMC. -/
def ctmcLines (M : CTMC K String n) (i : Fin n) : List (List Char) :=
  ("Exepected waiting time: ".toList ++ waitingText IO (M.e i)) ::
    arrows (M.matrix i) (fun j => M.e i ≠ 0 ∧ 1 / 10000 < M.matrix i j / M.e i) i (fun x => "lambda = ".toList ++ IO.repr x)

omit [IsStrictOrderedRing K] in
theorem blockCTMC {M : CTMC K String n} (hl : ∀ i, '\n' ∉ (M.labelling i).toList) (hm : ∀ i j, IO.dom (M.matrix i j))
    (he : ∀ i, M.e i = 0 ∨ IO.dom (1 / M.e i)) :
    Block (stateCTMC IO M) (fun i => headerLine i (M.labelling i))
      (ctmcLines IO M) where
  text i := by
    rw [lines_header]
    unfold stateCTMC ctmcLines
    rw [List.append_assoc]
    congr 1
    rw [show ∀ (a : List Char) b, lines (a :: b) = (a ++ ['\n']) ++ lines b from fun _ _ => rfl, lines_arrows]
  head_ok i := headerLine_ok (hl i)
  body_ok i l h := by
    rcases List.mem_cons.1 h with rfl | h
    · exact ⟨notMem_append (by decide) (waitingText_ok IO (he i)), by simp, by simp⟩
    · obtain ⟨j, _, rfl⟩ := mem_arrows.1 h
      exact arrowLine_ok (notMem_append (by decide) (repr_notMem IO (by decide) (hm i j)))
  inj i j h := Fin.ext (headerLine_inj h).1

/-- C101 (CTMCs). Name, initial distribution, headers. -/
theorem ctmc_print_head {M : CTMC K String n} {name : List Char} (hn : '\n' ∉ name) (hl : ∀ i, '\n' ∉ (M.labelling i).toList)
    (hd : ∀ i, IO.dom (M.initialState i)) (hm : ∀ i j, IO.dom (M.matrix i j)) (he : ∀ i, M.e i = 0 ∨ IO.dom (1 / M.e i))
    (hp : ∀ s, 0 ≤ M.initialState s) (hs : ∑ s, M.initialState s = 1) :
    (textLines (printCTMC IO M name))[0]? = some ("Name: ".toList ++ name) ∧
    (∃ line, (textLines (printCTMC IO M name))[1]? = some line ∧ InitialShown IO line M.initialState) ∧
    ∀ k l, headerLine k l ∈ textLines (printCTMC IO M name) ↔ ∃ i : Fin n, i.val = k ∧ M.labelling i = l :=
  ⟨(first_lines IO hn hd (blockCTMC IO hl hm he)).1, ⟨_, (first_lines IO hn hd (blockCTMC IO hl hm he)).2, initialShown IO hp hs⟩,
    headers_iff IO hn hd (blockCTMC IO hl hm he)⟩

omit [IsStrictOrderedRing K] in
/-- C101 (CTMCs). The section of a state has the expected waiting time (`inf` for an absorbing state), then one line per
transition whose probability (the rate divided by the exit rate) exceeds 0.0001, with its rate. -/
theorem ctmc_print_section {M : CTMC K String n} {name : List Char} (hn : '\n' ∉ name) (hl : ∀ i, '\n' ∉ (M.labelling i).toList)
    (hd : ∀ i, IO.dom (M.initialState i)) (hm : ∀ i j, IO.dom (M.matrix i j)) (he : ∀ i, M.e i = 0 ∨ IO.dom (1 / M.e i)) (i : Fin n) :
    sectionOf (printCTMC IO M name) (headerLine i (M.labelling i)) =
      ("Exepected waiting time: ".toList ++ if ∑ j, M.matrix i j = 0 then "inf".toList else IO.repr (1 / ∑ j, M.matrix i j)) ::
      ((List.finRange n).filter (fun j => decide (∑ k, M.matrix i k ≠ 0 ∧ 1 / 10000 < M.matrix i j / ∑ k, M.matrix i k))).map
        (fun j : Fin n => arrowLine i j ("lambda = ".toList ++ IO.repr (M.matrix i j))) :=
  section_model IO hn hd (blockCTMC IO hl hm he) i

/-- C101 (CTMCs). Two models with the same text have the same name, the same number of states, labels and exit rates, initial
distributions that differ by at most 0.002; the rates of a transition are equal, or both are at most one ten-thousandth of the
exit rate. -/
theorem ctmc_print_determines {n' : ℕ} {M : CTMC K String n} {M' : CTMC K String n'} {name name' : List Char}
    (hn : '\n' ∉ name) (hl : ∀ i, '\n' ∉ (M.labelling i).toList) (hd : ∀ i, IO.dom (M.initialState i))
    (hm : ∀ i j, IO.dom (M.matrix i j)) (he : ∀ i, M.e i = 0 ∨ IO.dom (1 / M.e i)) (hr : ∀ i j, 0 ≤ M.matrix i j)
    (hp : ∀ s, 0 ≤ M.initialState s) (hs : ∑ s, M.initialState s = 1)
    (hn' : '\n' ∉ name') (hl' : ∀ i, '\n' ∉ (M'.labelling i).toList) (hd' : ∀ i, IO.dom (M'.initialState i))
    (hm' : ∀ i j, IO.dom (M'.matrix i j)) (he' : ∀ i, M'.e i = 0 ∨ IO.dom (1 / M'.e i)) (hr' : ∀ i j, 0 ≤ M'.matrix i j)
    (hp' : ∀ s, 0 ≤ M'.initialState s) (hs' : ∑ s, M'.initialState s = 1)
    (h : printCTMC IO M name = printCTMC IO M' name') :
    name = name' ∧ ∃ e : n = n', (∀ i, M.labelling i = M'.labelling (Fin.cast e i)) ∧
      (∀ i, |M.initialState i - M'.initialState (Fin.cast e i)| ≤ 1 / 500) ∧
      (∀ i, ∑ j, M.matrix i j = ∑ j, M'.matrix (Fin.cast e i) j) ∧
      ∀ i j, M.matrix i j = M'.matrix (Fin.cast e i) (Fin.cast e j) ∨
        (M.matrix i j ≤ (∑ k, M.matrix i k) / 10000 ∧ M'.matrix (Fin.cast e i) (Fin.cast e j) ≤ (∑ k, M.matrix i k) / 10000) := by
  obtain ⟨e, hlab⟩ := headers_same (h ▸ (ctmc_print_head IO hn hl hd hm he hp hs).2.2) (ctmc_print_head IO hn' hl' hd' hm' he' hp' hs').2.2
  subst e
  obtain ⟨hname, hinit⟩ := same_model IO hn hd (blockCTMC IO hl hm he) hp hs hn' hd' (blockCTMC IO hl' hm' he') hp' hs' h
  have hsec := fun i => by
    have hsec := section_model IO hn hd (blockCTMC IO hl hm he) i
    change sectionOf (printCTMC IO M name) (headerLine i (M.labelling i)) = _ at hsec
    rw [h, hlab i] at hsec
    have key : ctmcLines IO M i = ctmcLines IO M' i := hsec.symm.trans (section_model IO hn' hd' (blockCTMC IO hl' hm' he') i)
    exact List.cons_eq_cons.1 key
  have hexit : ∀ i, M.e i = M'.e i := fun i => waitingText_inj IO (he i) (he' i) (List.append_cancel_left (hsec i).1)
  refine ⟨hname, rfl, hlab, hinit, hexit, fun i j => ?_⟩
  have hz : ∀ {M : CTMC K String n}, (∀ i j, 0 ≤ M.matrix i j) → ∀ i j, ¬ (M.e i ≠ 0 ∧ 1 / 10000 < M.matrix i j / M.e i) →
      M.matrix i j ≤ M.e i / 10000 := by
    intro M hr i j hc
    by_cases h0 : M.e i = 0
    · rw [h0, (Finset.sum_eq_zero_iff_of_nonneg (fun k _ => hr i k)).1 h0 j (Finset.mem_univ j)]; simp
    · have h1 : M.matrix i j / M.e i ≤ 1 / 10000 := not_lt.1 (fun h2 => hc ⟨h0, h2⟩)
      have hpos : 0 < M.e i := lt_of_le_of_ne (Finset.sum_nonneg (fun k _ => hr i k)) (Ne.symm h0)
      rw [div_le_iff₀ hpos] at h1
      linarith
  rcases arrows_same (row := M.matrix i) (row' := M'.matrix i) (p := fun j => M.e i ≠ 0 ∧ 1 / 10000 < M.matrix i j / M.e i)
      (p' := fun j => M'.e i ≠ 0 ∧ 1 / 10000 < M'.matrix i j / M'.e i) (i := i) (b := []) (b' := [])
      (f := fun x => "lambda = ".toList ++ IO.repr x) (by simp) (by simp)
      (by rw [List.append_nil, List.append_nil]; exact (hsec i).2) j with h0 | ⟨_, _, h0⟩
  · right
    refine ⟨hz hr i j h0.1, ?_⟩
    have := hz hr' i j h0.2
    rw [← hexit i] at this
    exact this
  · exact .inl (repr_inj IO (hm i j) (hm' i j) (List.append_cancel_left h0))

/-! ### MDPs -/

/-- The lines of the transitions of an MDP out of state `i`. -/
def actionLines (M : MDP K String n) (i : Fin n) : List (List Char) :=
  (List.finRange M.actions.length).flatMap (fun a =>
    ((List.finRange n).filter (fun j => decide (1 / 10000 < M.matrix i a j))).map
      (fun j : Fin n => actionLine i M.actions[a] j (IO.repr (M.matrix i a j))))

omit [IsStrictOrderedRing K] in
theorem mem_actionLines {M : MDP K String n} {i : Fin n} {l : List Char} :
    l ∈ actionLines IO M i ↔ ∃ (a : Fin M.actions.length) (j : Fin n), 1 / 10000 < M.matrix i a j ∧
      l = actionLine i M.actions[a] j (IO.repr (M.matrix i a j)) := by
  unfold actionLines
  simp only [List.mem_flatMap, List.mem_finRange, true_and, List.mem_map, List.mem_filter, decide_eq_true_eq]
  exact ⟨fun ⟨a, j, h, e⟩ => ⟨a, j, h, e.symm⟩, fun ⟨a, j, h, e⟩ => ⟨a, j, h, e.symm⟩⟩

omit [IsStrictOrderedRing K] in
theorem blockMDP {M : MDP K String n} (hl : ∀ i, '\n' ∉ (M.labelling i).toList) (ha : ∀ a ∈ M.actions, '\n' ∉ a.toList)
    (hm : ∀ i a j, IO.dom (M.matrix i a j)) :
    Block (stateMDP IO M) (fun i => headerLine i (M.labelling i)) (actionLines IO M) where
  text i := by
    rw [lines_header]
    unfold stateMDP actionLines
    congr 1
    rw [lines_flatMap]
    congr 1
    funext a
    rw [← flatMap_if, lines_flatMap]
    congr 1
    funext j
    rw [lines_if]
    split_ifs
    · simp [actionLine]
    · rfl
  head_ok i := headerLine_ok (hl i)
  body_ok i l h := by
    obtain ⟨a, j, _, rfl⟩ := (mem_actionLines IO).1 h
    refine ⟨?_, by simp [actionLine], by simp [actionLine]⟩
    unfold actionLine
    exact notMem_append (notMem_append (notMem_append (notMem_append (notMem_append (notMem_append (notMem_append (by decide)
      (reprNat_notMem (by decide) _)) (by decide)) (ha _ (List.getElem_mem _))) (by decide)) (reprNat_notMem (by decide) _)) (by decide))
      (repr_notMem IO (by decide) (hm i a j))
  inj i j h := Fin.ext (headerLine_inj h).1

/-- C101 (MDPs). Name, initial distribution, headers. -/
theorem mdp_print_head {M : MDP K String n} {name : List Char} (hn : '\n' ∉ name) (hl : ∀ i, '\n' ∉ (M.labelling i).toList)
    (ha : ∀ a ∈ M.actions, '\n' ∉ a.toList) (hd : ∀ i, IO.dom (M.initialState i)) (hm : ∀ i a j, IO.dom (M.matrix i a j))
    (hp : ∀ s, 0 ≤ M.initialState s) (hs : ∑ s, M.initialState s = 1) :
    (textLines (printMDP IO M name))[0]? = some ("Name: ".toList ++ name) ∧
    (∃ line, (textLines (printMDP IO M name))[1]? = some line ∧ InitialShown IO line M.initialState) ∧
    ∀ k l, headerLine k l ∈ textLines (printMDP IO M name) ↔ ∃ i : Fin n, i.val = k ∧ M.labelling i = l :=
  ⟨(first_lines IO hn hd (blockMDP IO hl ha hm)).1, ⟨_, (first_lines IO hn hd (blockMDP IO hl ha hm)).2, initialShown IO hp hs⟩,
    headers_iff IO hn hd (blockMDP IO hl ha hm)⟩

omit [IsStrictOrderedRing K] in
/-- C101 (MDPs). The section of a state has one line per action and destination whose probability exceeds 0.0001, action by
action, and no other line. -/
theorem mdp_print_section {M : MDP K String n} {name : List Char} (hn : '\n' ∉ name) (hl : ∀ i, '\n' ∉ (M.labelling i).toList)
    (ha : ∀ a ∈ M.actions, '\n' ∉ a.toList) (hd : ∀ i, IO.dom (M.initialState i)) (hm : ∀ i a j, IO.dom (M.matrix i a j)) (i : Fin n) :
    sectionOf (printMDP IO M name) (headerLine i (M.labelling i)) =
      (List.finRange M.actions.length).flatMap (fun a => ((List.finRange n).filter (fun j => decide (1 / 10000 < M.matrix i a j))).map
        (fun j : Fin n => actionLine i M.actions[a] j (IO.repr (M.matrix i a j)))) :=
  section_model IO hn hd (blockMDP IO hl ha hm) i

/-- C101 (MDPs). Two models with the same text have the same name, the same number of states and labels, initial distributions
that differ by at most 0.002, and exactly the same transitions among those of probability above 0.0001. -/
theorem mdp_print_determines {n' : ℕ} {M : MDP K String n} {M' : MDP K String n'} {name name' : List Char}
    (hn : '\n' ∉ name) (hl : ∀ i, '\n' ∉ (M.labelling i).toList) (ha : ∀ a ∈ M.actions, '\n' ∉ a.toList)
    (hd : ∀ i, IO.dom (M.initialState i)) (hm : ∀ i a j, IO.dom (M.matrix i a j))
    (hp : ∀ s, 0 ≤ M.initialState s) (hs : ∑ s, M.initialState s = 1)
    (hn' : '\n' ∉ name') (hl' : ∀ i, '\n' ∉ (M'.labelling i).toList) (ha' : ∀ a ∈ M'.actions, '\n' ∉ a.toList)
    (hd' : ∀ i, IO.dom (M'.initialState i)) (hm' : ∀ i a j, IO.dom (M'.matrix i a j))
    (hp' : ∀ s, 0 ≤ M'.initialState s) (hs' : ∑ s, M'.initialState s = 1)
    (h : printMDP IO M name = printMDP IO M' name') :
    name = name' ∧ ∃ e : n = n', (∀ i, M.labelling i = M'.labelling (Fin.cast e i)) ∧
      (∀ i, |M.initialState i - M'.initialState (Fin.cast e i)| ≤ 1 / 500) ∧
      ∀ i j act x, 1 / 10000 < x →
        ((∃ a : Fin M.actions.length, M.actions[a] = act ∧ M.matrix i a j = x) ↔
          ∃ a : Fin M'.actions.length, M'.actions[a] = act ∧ M'.matrix (Fin.cast e i) a (Fin.cast e j) = x) := by
  obtain ⟨e, hlab⟩ := headers_same (h ▸ (mdp_print_head IO hn hl ha hd hm hp hs).2.2) (mdp_print_head IO hn' hl' ha' hd' hm' hp' hs').2.2
  subst e
  obtain ⟨hname, hinit⟩ := same_model IO hn hd (blockMDP IO hl ha hm) hp hs hn' hd' (blockMDP IO hl' ha' hm') hp' hs' h
  refine ⟨hname, rfl, hlab, hinit, fun i j act x hx => ?_⟩
  have hsec := section_model IO hn hd (blockMDP IO hl ha hm) i
  change sectionOf (printMDP IO M name) (headerLine i (M.labelling i)) = _ at hsec
  rw [h, hlab i] at hsec
  have key := hsec.symm.trans (section_model IO hn' hd' (blockMDP IO hl' ha' hm') i)
  have one : ∀ {M M' : MDP K String n}, (∀ i a j, IO.dom (M.matrix i a j)) → (∀ i a j, IO.dom (M'.matrix i a j)) →
      actionLines IO M i = actionLines IO M' i → (∃ a : Fin M.actions.length, M.actions[a] = act ∧ M.matrix i a j = x) →
      ∃ a : Fin M'.actions.length, M'.actions[a] = act ∧ M'.matrix i a j = x := by
    rintro M M' hm hm' key ⟨a, rfl, rfl⟩
    have := (mem_actionLines IO (M := M)).2 ⟨a, j, hx, rfl⟩
    rw [key] at this
    obtain ⟨b, k, _, e⟩ := (mem_actionLines IO).1 this
    obtain ⟨e1, e2, e3⟩ := actionLine_inj (repr_notMem IO (by decide) (hm i a j)) (repr_notMem IO (by decide) (hm' i b k)) e
    have : j = k := Fin.ext e2
    subst this
    exact ⟨b, e1.symm, (repr_inj IO (hm i a j) (hm' i b j) e3).symm⟩
  exact ⟨one hm hm' key, one hm' hm key.symm⟩

end Print
end Jajapy
