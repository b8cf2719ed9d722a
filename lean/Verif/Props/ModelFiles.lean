import Verif.Props.Files

/-!
C12 and C17: model files.
-/

namespace Jajapy
namespace Files

open Spec Create

section Values

variable {K : Type} (printable : Char → Bool) (IO : FloatIO K)

theorem finite_strList (l : List String) : FiniteVal IO (strList l : Val K) := by
  refine .list (fun v hv => ?_)
  obtain ⟨s, _, rfl⟩ := List.mem_map.1 hv
  exact .str _

theorem finite_vec {l : List K} (h : ∀ x ∈ l, IO.dom x) : FiniteVal IO (vecVal l) := by
  refine .list (fun v hv => ?_)
  obtain ⟨x, hx, rfl⟩ := List.mem_map.1 hv
  exact .float (h x hx)

theorem finite_mat {l : List (List K)} (h : ∀ r ∈ l, ∀ x ∈ r, IO.dom x) : FiniteVal IO (matVal l) := by
  refine .list (fun v hv => ?_)
  obtain ⟨r, hr, rfl⟩ := List.mem_map.1 hv
  exact finite_vec IO (h r hr)

theorem finite_cube {l : List (List (List K))} (h : ∀ m ∈ l, ∀ r ∈ m, ∀ x ∈ r, IO.dom x) : FiniteVal IO (cubeVal l) := by
  refine .list (fun v hv => ?_)
  obtain ⟨r, hr, rfl⟩ := List.mem_map.1 hv
  exact finite_mat IO (h r hr)

theorem mapM_map_ok {α β : Type} (f : β → Py α) (g : α → β) (l : List α) (h : ∀ x, f (g x) = .ok x) :
    (l.map g).mapM f = .ok l := by
  induction l with
  | nil => rfl
  | cons x l ih =>
    rw [List.map_cons, List.mapM_cons, h x, ih]
    rfl

theorem toStrList_strList (l : List String) : toStrList (strList l : Val K) = .ok l :=
  mapM_map_ok toStr (fun s => .str s.toList) l (fun s => by simp [toStr])

theorem toVec_vecVal [IntCast K] (l : List K) : toVec (vecVal l) = .ok l :=
  mapM_map_ok toNum .float l (fun _ => rfl)

theorem toMat_matVal [IntCast K] (l : List (List K)) : toMat (matVal l) = .ok l :=
  mapM_map_ok toVec vecVal l toVec_vecVal

theorem toCube_cubeVal [IntCast K] (l : List (List (List K))) : toCube (cubeVal l) = .ok l :=
  mapM_map_ok toMat matVal l toMat_matVal

theorem ofMat_rows [Zero K] {n m : ℕ} (f : Fin n → Fin m → K) : ofMat n m (rows f) = .ok f := by
  unfold ofMat
  rw [if_pos]
  · congr 1
    funext i j
    simp [rows, List.getD_eq_getElem?_getD]
  · refine ⟨by simp [rows], ?_⟩
    intro r hr
    obtain ⟨i, rfl⟩ := (List.mem_ofFn' _ _).1 hr
    simp

theorem ofCube_rows [Zero K] {n m k : ℕ} (f : Fin n → Fin m → Fin k → K) :
    ofCube n m k (List.ofFn (fun i => rows (f i))) = .ok f := by
  unfold ofCube
  rw [if_pos]
  · congr 1
    funext i a j
    simp [rows, List.getD_eq_getElem?_getD]
  · refine ⟨by simp, ?_⟩
    intro r hr
    obtain ⟨i, rfl⟩ := (List.mem_ofFn' _ _).1 hr
    refine ⟨by simp [rows], ?_⟩
    intro s hs
    obtain ⟨a, rfl⟩ := (List.mem_ofFn' _ _).1 hs
    simp

theorem dom_rows {n m : ℕ} (f : Fin n → Fin m → K) (h : ∀ i j, IO.dom (f i j)) : ∀ r ∈ rows f, ∀ x ∈ r, IO.dom x := by
  intro r hr x hx
  obtain ⟨i, rfl⟩ := (List.mem_ofFn' _ _).1 hr
  obtain ⟨j, rfl⟩ := (List.mem_ofFn' _ _).1 hx
  exact h i j

theorem dom_ofFn {n : ℕ} (f : Fin n → K) (h : ∀ i, IO.dom (f i)) : ∀ x ∈ List.ofFn f, IO.dom x := by
  intro x hx
  obtain ⟨i, rfl⟩ := (List.mem_ofFn' _ _).1 hx
  exact h i

theorem lines_cons (a : List Char) (l : List (List Char)) : lines (a :: l) = a ++ '\n' :: lines l := by
  simp [lines]

theorem noCR_lines (l : List (List Char)) (h : ∀ a ∈ l, NoBreak a) : '\r' ∉ lines l := by
  intro hc
  obtain ⟨a, ha, hc⟩ := List.mem_flatMap.1 hc
  rcases List.mem_append.1 hc with hc | hc
  · exact (h a ha).2 hc
  · simp at hc

theorem noBreak_name {name : List Char} (h : OneLine name) : NoBreak name := h

end Values

variable {K : Type} [Field K] [LinearOrder K] [IsStrictOrderedRing K] [FloorRing K] (printable : Char → Bool) (IO : FloatIO K)

/-! ### Labelled models -/

theorem readBase_ok (lab : List String) (name : List Char) (init : List K) (mat : List (List K)) (hn : OneLine name)
    (hi : ∀ x ∈ init, IO.dom x) (hm : ∀ r ∈ mat, ∀ x ∈ r, IO.dom x) :
    readBase IO (lines [repr printable IO (strList lab), name, repr printable IO (vecVal init), repr printable IO (matVal mat)]) =
      .ok (lab, name, mat) := by
  have f1 := finite_strList IO lab
  have f2 := finite_vec IO hi
  have f3 := finite_mat IO hm
  simp only [lines_cons]
  unfold readBase
  rw [line_eq _ _ (noBreak_repr printable IO _ f1).1, literalEval_repr printable IO _ f1]
  simp only [bind, Except.bind, toStrList_strList]
  rw [line_eq _ _ hn.1]
  simp only
  rw [line_eq _ _ (noBreak_repr printable IO _ f2).1, literalEval_repr printable IO _ f2]
  simp only [toVec_vecVal]
  rw [line_eq _ _ (noBreak_repr printable IO _ f3).1, literalEval_repr printable IO _ f3]
  simp only [toMat_matVal]
  rfl

theorem ofFn_labels {n : ℕ} {lab : List String} {f : Fin n → String} (hl : lab.length = n)
    (h : ∀ s : Fin n, lab[s]? = some (f s)) : List.ofFn f = lab := by
  refine List.ext_getElem (by simp [hl]) ?_
  intro i h1 h2
  have := h ⟨i, by simpa using h1⟩
  simp only [Fin.getElem?_fin, List.getElem?_eq_getElem h2, Option.some.injEq] at this
  simp [this]

theorem noBreak_header : ∀ h ∈ ["MC".toList, "CTMC".toList, "MDP".toList, "HMM".toList, "GoHMM".toList], NoBreak h := by decide

/-- The lines of a labelled model have no carriage return. -/
theorem noCR_base (header : List Char) (hh : NoBreak header) (lab : List String) (name : List Char) (init : List K)
    (mat : List (List K)) (hn : OneLine name) (hi : ∀ x ∈ init, IO.dom x) (hm : ∀ r ∈ mat, ∀ x ∈ r, IO.dom x) :
    '\r' ∉ lines [header, repr printable IO (strList lab), name, repr printable IO (vecVal init), repr printable IO (matVal mat)] := by
  refine noCR_lines _ ?_
  intro a ha
  simp only [List.mem_cons, List.not_mem_nil, or_false] at ha
  rcases ha with rfl | rfl | rfl | rfl | rfl
  · exact hh
  · exact noBreak_repr printable IO _ (finite_strList IO lab)
  · exact hn
  · exact noBreak_repr printable IO _ (finite_vec IO hi)
  · exact noBreak_repr printable IO _ (finite_mat IO hm)

theorem finish_MC {n : ℕ} (M : MC K String n) (lab : List String) (hM : mkMC M.matrix lab = .ok M) (name : List Char) (k : ℕ)
    (hk : k = n) :
    (do let m ← ofMat k k (rows M.matrix)
        let M ← mkMC m lab
        return (name, ⟨_, M⟩) : Py (Loaded (MC K String))) = .ok (name, ⟨n, M⟩) := by
  subst hk
  rw [ofMat_rows]
  simp only [bind, Except.bind, hM]
  rfl

theorem finish_CTMC {n : ℕ} (M : CTMC K String n) (lab : List String) (hM : mkCTMC M.matrix lab = .ok M) (name : List Char) (k : ℕ)
    (hk : k = n) :
    (do let m ← ofMat k k (rows M.matrix)
        let M ← mkCTMC m lab
        return (name, ⟨_, M⟩) : Py (Loaded (CTMC K String))) = .ok (name, ⟨n, M⟩) := by
  subst hk
  rw [ofMat_rows]
  simp only [bind, Except.bind, hM]
  rfl

/-- C17, Markov chains: a model obtained from the constructor, with finite numbers and a one-line name, is loaded from
its file with the same name, labels, initial distribution and transition probabilities. -/
theorem loadMC_saveMC {n : ℕ} (matrix : Fin n → Fin n → K) (lab : List String) (M : MC K String n) (h : mkMC matrix lab = .ok M)
    (name : List Char) (hn : OneLine name) (hm : ∀ i j, IO.dom (M.matrix i j)) (hi : ∀ s, IO.dom (M.initialState s)) :
    loadMC IO (saveMC printable IO M name) = .ok (name, ⟨n, M⟩) := by
  obtain ⟨a, b, c, d, e⟩ := (mkMC_ok_iff _ _ _).1 h
  have hlab : List.ofFn M.labelling = lab := ofFn_labels b e.1
  have hi' := dom_ofFn IO _ hi
  have hm' := dom_rows IO _ hm
  unfold loadMC saveMC
  rw [universal_id _ (noCR_base printable IO _ (noBreak_header _ (by simp)) _ name _ _ hn hi' hm'), lines_cons]
  dsimp only
  rw [line_eq _ _ (by decide), if_neg (by simp), readBase_ok printable IO _ name _ _ hn hi' hm']
  simp only [bind, Except.bind, hlab]
  have := finish_MC M lab (by rw [d]; exact h) name _ (show (rows M.matrix).length = n by simp [rows])
  simpa only [bind, Except.bind] using this

/-- C17, CTMCs. -/
theorem loadCTMC_saveCTMC {n : ℕ} (matrix : Fin n → Fin n → K) (lab : List String) (M : CTMC K String n)
    (h : mkCTMC matrix lab = .ok M) (name : List Char) (hn : OneLine name) (hm : ∀ i j, IO.dom (M.matrix i j))
    (hi : ∀ s, IO.dom (M.initialState s)) :
    loadCTMC IO (saveCTMC printable IO M name) = .ok (name, ⟨n, M⟩) := by
  obtain ⟨a, b, d, e⟩ := (mkCTMC_ok_iff _ _ _).1 h
  have hlab : List.ofFn M.labelling = lab := ofFn_labels b e.1
  have hi' := dom_ofFn IO _ hi
  have hm' := dom_rows IO _ hm
  unfold loadCTMC saveCTMC
  rw [universal_id _ (noCR_base printable IO _ (noBreak_header _ (by simp)) _ name _ _ hn hi' hm'), lines_cons]
  dsimp only
  rw [line_eq _ _ (by decide), readBase_ok printable IO _ name _ _ hn hi' hm']
  simp only [bind, Except.bind, hlab]
  have := finish_CTMC M lab (by rw [d]; exact h) name _ (show (rows M.matrix).length = n by simp [rows])
  simpa only [bind, Except.bind] using this

/-- `loadMC` refuses the file of another kind of model. -/
theorem loadMC_wrong_header (text : List Char) (h : (line (universal text)).1 ≠ "MC".toList) :
    loadMC (K := K) IO text = .error .valueError := by
  unfold loadMC
  dsimp only
  rw [if_pos h]

/-- `loadCTMC` does not (it prints a message and goes on): the file of a Markov chain is loaded as a CTMC whose rates are
the probabilities. -/
theorem loadCTMC_accepts_MC {n : ℕ} (matrix : Fin n → Fin n → K) (lab : List String) (M : MC K String n)
    (h : mkMC matrix lab = .ok M) (name : List Char) (hn : OneLine name) (hm : ∀ i j, IO.dom (M.matrix i j))
    (hi : ∀ s, IO.dom (M.initialState s)) :
    loadCTMC IO (saveMC printable IO M name) =
      .ok (name, ⟨n, { matrix := M.matrix, labelling := M.labelling, initialState := M.initialState }⟩) := by
  obtain ⟨a, b, c, d, e⟩ := (mkMC_ok_iff _ _ _).1 h
  have hM : mkCTMC M.matrix lab = .ok { matrix := M.matrix, labelling := M.labelling, initialState := M.initialState } :=
    (mkCTMC_ok_iff _ _ _).2 ⟨a, b, rfl, e⟩
  have := loadCTMC_saveCTMC printable IO M.matrix lab _ hM name hn hm hi
  have hlab : List.ofFn M.labelling = lab := ofFn_labels b e.1
  have hi' := dom_ofFn IO _ hi
  have hm' := dom_rows IO _ hm
  rw [← this]
  unfold loadCTMC saveCTMC saveMC
  rw [universal_id _ (noCR_base printable IO _ (noBreak_header _ (by simp)) _ name _ _ hn hi' hm'), lines_cons,
    universal_id _ (noCR_base printable IO _ (noBreak_header _ (by simp)) _ name _ _ hn hi' hm'), lines_cons "CTMC".toList]
  dsimp only
  rw [line_eq "MC".toList _ (by decide), line_eq "CTMC".toList _ (by decide)]

/-! ### Interrupted save -/

theorem readBase_cut (lab : List String) (name : List Char) (init : List K) (mat : List (List K)) (hn : OneLine name)
    (hi : ∀ x ∈ init, IO.dom x) (hm : ∀ r ∈ mat, ∀ x ∈ r, IO.dom x) (p : List Char)
    (hp : CutOf p (lines [repr printable IO (strList lab), name, repr printable IO (vecVal init), repr printable IO (matVal mat)])) :
    ∃ e, readBase IO p = .error e := by
  obtain ⟨hp, hne⟩ := hp
  have f1 := finite_strList IO lab
  have f2 := finite_vec IO hi
  have f3 := finite_mat IO hm
  simp only [lines_cons] at hp hne
  have hnil : literalEval IO (line (line (line []).2).2).1 = (.error .syntaxError : Py (Val K)) := rfl
  rcases prefix_cases hp with h | ⟨p, rfl, hp1⟩
  · unfold readBase
    rw [line_prefix h (noBreak_repr printable IO _ f1).1]
    simp only [bind, Except.bind, line_nil, literalEval_nil]
    cases literalEval IO p.dropLast with
    | error e => exact ⟨e, rfl⟩
    | ok v =>
      simp only
      cases toStrList v with
      | error e => exact ⟨e, rfl⟩
      | ok l => exact ⟨_, rfl⟩
  unfold readBase
  rw [line_eq _ _ (noBreak_repr printable IO _ f1).1, literalEval_repr printable IO _ f1]
  simp only [bind, Except.bind, toStrList_strList]
  rcases prefix_cases hp1 with h | ⟨p, rfl, hp2⟩
  · rw [line_prefix h hn.1]
    exact ⟨_, rfl⟩
  rw [line_eq _ _ hn.1]
  simp only
  rcases prefix_cases hp2 with h | ⟨p, rfl, hp3⟩
  · rw [line_prefix h (noBreak_repr printable IO _ f2).1]
    simp only [line_nil, literalEval_nil]
    cases literalEval IO p.dropLast with
    | error e => exact ⟨e, rfl⟩
    | ok v =>
      simp only
      cases toVec v with
      | error e => exact ⟨e, rfl⟩
      | ok l => exact ⟨_, rfl⟩
  rw [line_eq _ _ (noBreak_repr printable IO _ f2).1, literalEval_repr printable IO _ f2]
  simp only [toVec_vecVal]
  rcases prefix_cases hp3 with h | ⟨p, rfl, hp4⟩
  · obtain ⟨c1, c2⟩ := dropLast_strict h (repr_ne_nil printable IO f3)
    rw [line_prefix h (noBreak_repr printable IO _ f3).1]
    have : literalEval IO p.dropLast = .error .syntaxError := by
      cases f3 with
      | list hl => exact literalEval_cut printable IO _ hl _ c1 c2
    rw [this]
    exact ⟨_, rfl⟩
  · exfalso
    have : p = [] := by simpa [lines] using hp4
    subst this
    exact hne rfl

theorem cut_header {header rest p : List Char} (hp : CutOf p (header ++ '\n' :: rest)) :
    p <+: header ∨ ∃ p', p = header ++ '\n' :: p' ∧ CutOf p' rest := by
  rcases prefix_cases hp.1 with h | ⟨p', rfl, h⟩
  · exact Or.inl h
  · exact Or.inr ⟨p', rfl, h, fun e => hp.2 (by rw [e])⟩

/-- C12, Markov chains: whatever the point at which the writing of the file stopped, loading it raises. -/
theorem loadMC_cut {n : ℕ} (M : MC K String n) (name : List Char) (hn : OneLine name) (hm : ∀ i j, IO.dom (M.matrix i j))
    (hi : ∀ s, IO.dom (M.initialState s)) (p : List Char) (hp : CutOf p (saveMC printable IO M name)) :
    ∃ e, loadMC (K := K) IO p = .error e := by
  have hi' := dom_ofFn IO _ hi
  have hm' := dom_rows IO _ hm
  have hcr := noCR_base printable IO "MC".toList (noBreak_header _ (by simp)) (List.ofFn M.labelling) name _ _ hn hi' hm'
  unfold saveMC at hp
  unfold loadMC
  rw [universal_id p (fun h => hcr (hp.1.subset h))]
  rw [lines_cons] at hp
  rcases cut_header hp with h | ⟨p, rfl, h⟩
  · dsimp only
    rw [line_prefix h (by decide), if_pos]
    · exact ⟨_, rfl⟩
    · exact (dropLast_strict h (by decide)).2
  · dsimp only
    rw [line_eq _ _ (by decide), if_neg (by simp)]
    obtain ⟨e, he⟩ := readBase_cut printable IO _ name _ _ hn hi' hm' p h
    exact ⟨e, by rw [he]; rfl⟩

/-- C12, CTMCs. -/
theorem loadCTMC_cut {n : ℕ} (M : CTMC K String n) (name : List Char) (hn : OneLine name) (hm : ∀ i j, IO.dom (M.matrix i j))
    (hi : ∀ s, IO.dom (M.initialState s)) (p : List Char) (hp : CutOf p (saveCTMC printable IO M name)) :
    ∃ e, loadCTMC (K := K) IO p = .error e := by
  have hi' := dom_ofFn IO _ hi
  have hm' := dom_rows IO _ hm
  have hcr := noCR_base printable IO "CTMC".toList (noBreak_header _ (by simp)) (List.ofFn M.labelling) name _ _ hn hi' hm'
  unfold saveCTMC at hp
  unfold loadCTMC
  rw [universal_id p (fun h => hcr (hp.1.subset h))]
  rw [lines_cons] at hp
  rcases cut_header hp with h | ⟨p, rfl, h⟩
  · dsimp only
    rw [line_prefix h (by decide)]
    exact ⟨_, rfl⟩
  · dsimp only
    rw [line_eq _ _ (by decide)]
    obtain ⟨e, he⟩ := readBase_cut printable IO _ name _ _ hn hi' hm' p h
    exact ⟨e, by rw [he]; rfl⟩

theorem bind_fails {α β : Type} (x : Py α) (f : α → Py β) (h : ∀ a, ∃ e, f a = .error e) : ∃ e, x.bind f = .error e := by
  cases x with
  | error e => exact ⟨e, rfl⟩
  | ok a => exact h a

/-! ### Markov decision processes -/

theorem mkMDP_self {n : ℕ} (actions : List String) (matrix : Fin n → Fin actions.length → Fin n → K) (lab : List String)
    (M : MDP K String n) (h : mkMDP actions matrix lab = .ok M) : mkMDP M.actions M.matrix lab = .ok M := by
  have h' := h
  unfold mkMDP at h'
  simp only [Except.bind_eq_ok] at h'
  obtain ⟨li, h1, h2⟩ := h'
  split_ifs at h2 with h3
  injection h2 with h2
  subst h2
  exact h

theorem finish_MDP {n : ℕ} (M : MDP K String n) (lab : List String) (hM : mkMDP M.actions M.matrix lab = .ok M)
    (name : List Char) (k : ℕ) (hk : k = n) :
    (do let m ← ofCube k M.actions.length k (List.ofFn (fun i => rows (M.matrix i)))
        let M ← mkMDP M.actions m lab
        return (name, ⟨_, M⟩) : Py (Loaded (MDP K String))) = .ok (name, ⟨n, M⟩) := by
  subst hk
  rw [ofCube_rows]
  simp only [bind, Except.bind, hM]
  rfl

theorem dom_cube {n m k : ℕ} (f : Fin n → Fin m → Fin k → K) (h : ∀ i a j, IO.dom (f i a j)) :
    ∀ m ∈ List.ofFn (fun i => rows (f i)), ∀ r ∈ m, ∀ x ∈ r, IO.dom x := by
  intro r hr
  obtain ⟨i, rfl⟩ := (List.mem_ofFn' _ _).1 hr
  exact dom_rows IO _ (h i)

theorem noCR_MDP (actions lab : List String) (name : List Char) (init : List K)
    (mat : List (List (List K))) (hn : OneLine name) (hi : ∀ x ∈ init, IO.dom x) (hm : ∀ m ∈ mat, ∀ r ∈ m, ∀ x ∈ r, IO.dom x) :
    '\r' ∉ lines ["MDP".toList, repr printable IO (strList actions), repr printable IO (strList lab), name,
      repr printable IO (vecVal init), repr printable IO (cubeVal mat)] := by
  refine noCR_lines _ ?_
  intro a ha
  simp only [List.mem_cons, List.not_mem_nil, or_false] at ha
  rcases ha with rfl | rfl | rfl | rfl | rfl | rfl
  · exact noBreak_header _ (by simp)
  · exact noBreak_repr printable IO _ (finite_strList IO actions)
  · exact noBreak_repr printable IO _ (finite_strList IO lab)
  · exact hn
  · exact noBreak_repr printable IO _ (finite_vec IO hi)
  · exact noBreak_repr printable IO _ (finite_cube IO hm)

/-- C17, MDPs. -/
theorem loadMDP_saveMDP {n : ℕ} (actions : List String) (matrix : Fin n → Fin actions.length → Fin n → K) (lab : List String)
    (M : MDP K String n) (h : mkMDP actions matrix lab = .ok M) (name : List Char) (hn : OneLine name)
    (hm : ∀ i a j, IO.dom (M.matrix i a j)) (hi : ∀ s, IO.dom (M.initialState s)) :
    loadMDP IO (saveMDP printable IO M name) = .ok (name, ⟨n, M⟩) := by
  obtain ⟨a, b, c, d, e⟩ := (mkMDP_ok_iff _ _ _ _).1 h
  have hlab : List.ofFn M.labelling = lab := ofFn_labels b e.1
  have hi' := dom_ofFn IO _ hi
  have hm' := dom_cube IO _ hm
  have f0 := finite_strList IO M.actions
  have f1 := finite_strList IO (List.ofFn M.labelling)
  have f2 := finite_vec IO hi'
  have f3 := finite_cube IO hm'
  unfold loadMDP saveMDP
  rw [universal_id _ (noCR_MDP printable IO _ _ name _ _ hn hi' hm')]
  simp only [lines_cons]
  rw [line_eq "MDP".toList _ (by decide), if_neg (by simp)]
  dsimp only
  rw [line_eq _ _ (noBreak_repr printable IO _ f0).1, literalEval_repr printable IO _ f0]
  simp only [bind, Except.bind, toStrList_strList]
  rw [line_eq _ _ (noBreak_repr printable IO _ f1).1, literalEval_repr printable IO _ f1]
  simp only [toStrList_strList]
  rw [line_eq _ _ hn.1]
  dsimp only
  rw [line_eq _ _ (noBreak_repr printable IO _ f2).1, literalEval_repr printable IO _ f2]
  simp only [toVec_vecVal]
  rw [line_eq _ _ (noBreak_repr printable IO _ f3).1, literalEval_repr printable IO _ f3]
  simp only [toCube_cubeVal, hlab]
  have := finish_MDP M lab (mkMDP_self _ _ _ _ h) name _ (show (List.ofFn (fun i => rows (M.matrix i))).length = n by simp)
  simpa only [bind, Except.bind] using this

/-- C12, MDPs. -/
theorem loadMDP_cut {n : ℕ} (M : MDP K String n) (name : List Char) (hn : OneLine name)
    (hm : ∀ i a j, IO.dom (M.matrix i a j)) (hi : ∀ s, IO.dom (M.initialState s)) (p : List Char)
    (hp : CutOf p (saveMDP printable IO M name)) : ∃ e, loadMDP (K := K) IO p = .error e := by
  have hi' := dom_ofFn IO _ hi
  have hm' := dom_cube IO _ hm
  have f0 := finite_strList IO M.actions
  have f1 := finite_strList IO (List.ofFn M.labelling)
  have f2 := finite_vec IO hi'
  have f3 := finite_cube IO hm'
  have hcr := noCR_MDP printable IO M.actions (List.ofFn M.labelling) name _ _ hn hi' hm'
  unfold saveMDP at hp
  unfold loadMDP
  rw [universal_id p (fun h => hcr (hp.1.subset h))]
  simp only [lines_cons] at hp
  rcases cut_header hp with h | ⟨p, rfl, h0⟩
  · dsimp only
    rw [line_prefix h (by decide), if_pos]
    · exact ⟨_, rfl⟩
    · exact (dropLast_strict h (by decide)).2
  dsimp only
  rw [line_eq "MDP".toList _ (by decide), if_neg (by simp)]
  simp only [bind]
  rcases cut_header h0 with h | ⟨p, rfl, h1⟩
  · rw [line_prefix h (noBreak_repr printable IO _ f0).1]
    refine bind_fails _ _ (fun v => bind_fails _ _ (fun l => ?_))
    exact ⟨_, rfl⟩
  rw [line_eq _ _ (noBreak_repr printable IO _ f0).1, literalEval_repr printable IO _ f0]
  simp only [Except.bind, toStrList_strList]
  rcases cut_header h1 with h | ⟨p, rfl, h2⟩
  · rw [line_prefix h (noBreak_repr printable IO _ f1).1]
    refine bind_fails _ _ (fun v => bind_fails _ _ (fun l => ?_))
    exact ⟨_, rfl⟩
  rw [line_eq _ _ (noBreak_repr printable IO _ f1).1, literalEval_repr printable IO _ f1]
  simp only [toStrList_strList]
  rcases cut_header h2 with h | ⟨p, rfl, h3⟩
  · rw [line_prefix h hn.1]
    exact ⟨_, rfl⟩
  rw [line_eq _ _ hn.1]
  dsimp only
  rcases cut_header h3 with h | ⟨p, rfl, h4⟩
  · rw [line_prefix h (noBreak_repr printable IO _ f2).1]
    refine bind_fails _ _ (fun v => bind_fails _ _ (fun l => ?_))
    exact ⟨_, rfl⟩
  rw [line_eq _ _ (noBreak_repr printable IO _ f2).1, literalEval_repr printable IO _ f2]
  simp only [toVec_vecVal]
  rcases cut_header h4 with h | ⟨p, rfl, h5⟩
  · obtain ⟨c1, c2⟩ := dropLast_strict h (repr_ne_nil printable IO f3)
    rw [line_prefix h (noBreak_repr printable IO _ f3).1]
    have : literalEval IO p.dropLast = .error .syntaxError := by
      cases f3 with
      | list hl => exact literalEval_cut printable IO _ hl _ c1 c2
    rw [this]
    exact ⟨_, rfl⟩
  · exfalso
    have : p = [] := by simpa [lines] using h5.1
    exact h5.2 (by rw [this]; rfl)

/-! ### Hidden Markov models -/

/-- The initial distribution kept by the constructor is accepted when given as a list. -/
theorem modelInit_self (n : ℕ) (initial : InitArg K) (init : List K) (h : modelInit n initial = .ok init) :
    modelInit n (.list init) = .ok init := by
  cases initial with
  | list l =>
    have h' : (if Tools.roundHalfEven l.sum ≠ 1 then .error .valueError else .ok l : Py (List K)) = .ok init := h
    split_ifs at h' with h1
    injection h' with h'
    subst h'
    exact h
  | int i =>
    have h' : (pyIndex n i >>= fun k => Except.ok (List.ofFn (fun s : Fin n => if s = k then (1 : K) else 0))) = .ok init := h
    rw [Except.bind_eq_ok] at h'
    obtain ⟨k, _, h'⟩ := h'
    injection h' with h'
    subst h'
    show (if Tools.roundHalfEven _ ≠ 1 then _ else _ : Py (List K)) = _
    rw [if_neg]
    rw [not_not, roundHalfEven_eq_one, List.sum_ofFn, Finset.sum_ite_eq']
    simp only [Finset.mem_univ, if_true]
    norm_num

theorem mkHMM_self {n : ℕ} (matrix : Fin n → Fin n → K) (alphabet : List String)
    (output : Fin n → Fin alphabet.length → K) (initial : InitArg K) (M : HMMObj K n)
    (h : mkHMM matrix alphabet output initial = .ok M) :
    mkHMM M.matrix M.alphabet M.output (.list M.initialState) = .ok M := by
  unfold mkHMM at h
  simp only [Except.bind_eq_ok] at h
  obtain ⟨init, h1, h2⟩ := h
  split_ifs at h2 with h3 h4
  injection h2 with h2
  subst h2
  unfold mkHMM
  rw [modelInit_self n initial init h1]
  simp only [bind, Except.bind]
  rw [if_neg (not_not.2 h3), if_neg (not_not.2 h4)]
  rfl

theorem finish_HMM {n : ℕ} (M : HMMObj K n) (hM : mkHMM M.matrix M.alphabet M.output (.list M.initialState) = .ok M)
    (name : List Char) (k : ℕ) (hk : k = n) :
    (do let m ← ofMat k k (rows M.matrix)
        let o ← ofMat k M.alphabet.length (rows M.output)
        let M ← mkHMM m M.alphabet o (.list M.initialState)
        return (name, ⟨_, M⟩) : Py (Loaded (HMMObj K))) = .ok (name, ⟨n, M⟩) := by
  subst hk
  rw [ofMat_rows, ofMat_rows]
  simp only [bind, Except.bind, hM]
  rfl

theorem noCR_HMM (alphabet : List String) (name : List Char) (init : List K) (out mat : List (List K)) (hn : OneLine name)
    (hi : ∀ x ∈ init, IO.dom x) (ho : ∀ r ∈ out, ∀ x ∈ r, IO.dom x) (hm : ∀ r ∈ mat, ∀ x ∈ r, IO.dom x) :
    '\r' ∉ lines ["HMM".toList, repr printable IO (strList alphabet), repr printable IO (matVal out), name,
      repr printable IO (vecVal init), repr printable IO (matVal mat)] := by
  refine noCR_lines _ ?_
  intro a ha
  simp only [List.mem_cons, List.not_mem_nil, or_false] at ha
  rcases ha with rfl | rfl | rfl | rfl | rfl | rfl
  · exact noBreak_header _ (by simp)
  · exact noBreak_repr printable IO _ (finite_strList IO alphabet)
  · exact noBreak_repr printable IO _ (finite_mat IO ho)
  · exact hn
  · exact noBreak_repr printable IO _ (finite_vec IO hi)
  · exact noBreak_repr printable IO _ (finite_mat IO hm)

/-- C17, HMMs. -/
theorem loadHMM_saveHMM {n : ℕ} (matrix : Fin n → Fin n → K) (alphabet : List String)
    (output : Fin n → Fin alphabet.length → K) (initial : InitArg K) (M : HMMObj K n)
    (h : mkHMM matrix alphabet output initial = .ok M)
    (name : List Char) (hn : OneLine name) (hm : ∀ i j, IO.dom (M.matrix i j)) (ho : ∀ i k, IO.dom (M.output i k))
    (hi : ∀ x ∈ M.initialState, IO.dom x) :
    loadHMM IO (saveHMM printable IO M name) = .ok (name, ⟨n, M⟩) := by
  have hm' := dom_rows IO _ hm
  have ho' := dom_rows IO _ ho
  have f0 := finite_strList IO M.alphabet
  have f1 := finite_mat IO ho'
  have f2 := finite_vec IO hi
  have f3 := finite_mat IO hm'
  unfold loadHMM saveHMM
  rw [universal_id _ (noCR_HMM printable IO _ name _ _ _ hn hi ho' hm')]
  simp only [lines_cons]
  rw [line_eq "HMM".toList _ (by decide)]
  dsimp only
  rw [line_eq _ _ (noBreak_repr printable IO _ f0).1, literalEval_repr printable IO _ f0]
  simp only [bind, Except.bind, toStrList_strList]
  rw [line_eq _ _ (noBreak_repr printable IO _ f1).1, literalEval_repr printable IO _ f1]
  simp only [toMat_matVal]
  rw [line_eq _ _ hn.1]
  dsimp only
  rw [line_eq _ _ (noBreak_repr printable IO _ f2).1, literalEval_repr printable IO _ f2]
  simp only [toVec_vecVal]
  rw [line_eq _ _ (noBreak_repr printable IO _ f3).1, literalEval_repr printable IO _ f3]
  simp only [toMat_matVal]
  have := finish_HMM M (mkHMM_self _ _ _ _ _ h) name _ (show (rows M.matrix).length = n by simp [rows])
  simpa only [bind, Except.bind] using this

/-- C12, HMMs. -/
theorem loadHMM_cut {n : ℕ} (M : HMMObj K n) (name : List Char) (hn : OneLine name) (hm : ∀ i j, IO.dom (M.matrix i j))
    (ho : ∀ i k, IO.dom (M.output i k)) (hi : ∀ x ∈ M.initialState, IO.dom x) (p : List Char)
    (hp : CutOf p (saveHMM printable IO M name)) : ∃ e, loadHMM (K := K) IO p = .error e := by
  have hm' := dom_rows IO _ hm
  have ho' := dom_rows IO _ ho
  have f0 := finite_strList IO M.alphabet
  have f1 := finite_mat IO ho'
  have f2 := finite_vec IO hi
  have f3 := finite_mat IO hm'
  have hcr := noCR_HMM printable IO M.alphabet name _ _ _ hn hi ho' hm'
  unfold saveHMM at hp
  unfold loadHMM
  rw [universal_id p (fun h => hcr (hp.1.subset h))]
  simp only [lines_cons] at hp
  rcases cut_header hp with h | ⟨p, rfl, h0⟩
  · dsimp only
    rw [line_prefix h (by decide)]
    exact ⟨_, rfl⟩
  dsimp only
  rw [line_eq "HMM".toList _ (by decide)]
  simp only [bind]
  rcases cut_header h0 with h | ⟨p, rfl, h1⟩
  · rw [line_prefix h (noBreak_repr printable IO _ f0).1]
    refine bind_fails _ _ (fun v => bind_fails _ _ (fun l => ?_))
    exact ⟨_, rfl⟩
  rw [line_eq _ _ (noBreak_repr printable IO _ f0).1, literalEval_repr printable IO _ f0]
  simp only [Except.bind, toStrList_strList]
  rcases cut_header h1 with h | ⟨p, rfl, h2⟩
  · rw [line_prefix h (noBreak_repr printable IO _ f1).1]
    refine bind_fails _ _ (fun v => bind_fails _ _ (fun l => ?_))
    exact ⟨_, rfl⟩
  rw [line_eq _ _ (noBreak_repr printable IO _ f1).1, literalEval_repr printable IO _ f1]
  simp only [toMat_matVal]
  rcases cut_header h2 with h | ⟨p, rfl, h3⟩
  · rw [line_prefix h hn.1]
    exact ⟨_, rfl⟩
  rw [line_eq _ _ hn.1]
  dsimp only
  rcases cut_header h3 with h | ⟨p, rfl, h4⟩
  · rw [line_prefix h (noBreak_repr printable IO _ f2).1]
    refine bind_fails _ _ (fun v => bind_fails _ _ (fun l => ?_))
    exact ⟨_, rfl⟩
  rw [line_eq _ _ (noBreak_repr printable IO _ f2).1, literalEval_repr printable IO _ f2]
  simp only [toVec_vecVal]
  rcases cut_header h4 with h | ⟨p, rfl, h5⟩
  · obtain ⟨c1, c2⟩ := dropLast_strict h (repr_ne_nil printable IO f3)
    rw [line_prefix h (noBreak_repr printable IO _ f3).1]
    have : literalEval IO p.dropLast = .error .syntaxError := by
      cases f3 with
      | list hl => exact literalEval_cut printable IO _ hl _ c1 c2
    rw [this]
    exact ⟨_, rfl⟩
  · exfalso
    have : p = [] := by simpa [lines] using h5.1
    exact h5.2 (by rw [this]; rfl)

/-! ### Gaussian-observation HMMs -/

theorem mkGoHMM_self {n d : ℕ} (matrix : Fin n → Fin n → K) (mu sigma : Fin n → Fin d → K) (initial : InitArg K)
    (M : GoHMMObj K n d) (h : mkGoHMM matrix mu sigma initial = .ok M) :
    0 < n ∧ mkGoHMM M.matrix M.mu M.sigma (.list M.initialState) = .ok M := by
  unfold mkGoHMM at h
  split_ifs at h with h1 h2 h5
  · simp only [Except.bind_eq_ok] at h
    obtain ⟨init, h3, h4⟩ := h
    injection h4 with h4
    subst h4
    refine ⟨Nat.pos_of_ne_zero h1, ?_⟩
    unfold mkGoHMM
    rw [if_neg h1, if_neg h2, modelInit_self n initial init h3]
    simp only [bind, Except.bind]
    rw [if_neg (not_not.2 h5)]
    rfl
  · simp only [Except.bind_eq_ok] at h
    obtain ⟨init, h3, h4⟩ := h
    cases h4

theorem goOutput_eq {n d : ℕ} (M : GoHMMObj K n d) :
    goOutput M = List.ofFn (fun i => rows (fun j (k : Fin 2) => if k = 0 then M.mu i j else M.sigma i j)) := by
  unfold goOutput rows
  simp

theorem finish_GoHMM {n d : ℕ} (M : GoHMMObj K n d) (hM : mkGoHMM M.matrix M.mu M.sigma (.list M.initialState) = .ok M)
    (name : List Char) (k : ℕ) (hk : k = n) (d' : ℕ) (hd : d' = d) :
    (do let m ← ofMat k k (rows M.matrix)
        let o ← ofCube k d' 2 (goOutput M)
        let M ← mkGoHMM m (fun i j => o i j 0) (fun i j => o i j 1) (.list M.initialState)
        return (name, ⟨_, _, M⟩) : Py (List Char × (Σ n, Σ d, GoHMMObj K n d))) = .ok (name, ⟨n, d, M⟩) := by
  subst hk hd
  rw [ofMat_rows, goOutput_eq, ofCube_rows]
  simp only [bind, Except.bind, if_true, one_ne_zero, if_false, hM]
  rfl

theorem noCR_GoHMM (name : List Char) (init : List K) (out : List (List (List K))) (mat : List (List K)) (hn : OneLine name)
    (hi : ∀ x ∈ init, IO.dom x) (ho : ∀ m ∈ out, ∀ r ∈ m, ∀ x ∈ r, IO.dom x) (hm : ∀ r ∈ mat, ∀ x ∈ r, IO.dom x) :
    '\r' ∉ lines ["GoHMM".toList, repr printable IO (cubeVal out), name,
      repr printable IO (vecVal init), repr printable IO (matVal mat)] := by
  refine noCR_lines _ ?_
  intro a ha
  simp only [List.mem_cons, List.not_mem_nil, or_false] at ha
  rcases ha with rfl | rfl | rfl | rfl | rfl
  · exact noBreak_header _ (by simp)
  · exact noBreak_repr printable IO _ (finite_cube IO ho)
  · exact hn
  · exact noBreak_repr printable IO _ (finite_vec IO hi)
  · exact noBreak_repr printable IO _ (finite_mat IO hm)

theorem dom_goOutput {n d : ℕ} (M : GoHMMObj K n d) (ho : ∀ i j, IO.dom (M.mu i j) ∧ IO.dom (M.sigma i j)) :
    ∀ m ∈ goOutput M, ∀ r ∈ m, ∀ x ∈ r, IO.dom x := by
  rw [goOutput_eq]
  refine dom_cube IO _ ?_
  intro i j k
  beta_reduce
  split_ifs
  · exact (ho i j).1
  · exact (ho i j).2

/-- C17, GoHMMs. -/
theorem loadGoHMM_saveGoHMM {n d : ℕ} (matrix : Fin n → Fin n → K) (mu sigma : Fin n → Fin d → K) (initial : InitArg K)
    (M : GoHMMObj K n d) (h : mkGoHMM matrix mu sigma initial = .ok M) (name : List Char) (hn : OneLine name)
    (hm : ∀ i j, IO.dom (M.matrix i j)) (ho : ∀ i j, IO.dom (M.mu i j) ∧ IO.dom (M.sigma i j))
    (hi : ∀ x ∈ M.initialState, IO.dom x) :
    loadGoHMM IO (saveGoHMM printable IO M name) = .ok (name, ⟨n, d, M⟩) := by
  have hm' := dom_rows IO _ hm
  have ho' := dom_goOutput IO M ho
  have f1 := finite_cube IO ho'
  have f2 := finite_vec IO hi
  have f3 := finite_mat IO hm'
  obtain ⟨hpos, hM⟩ := mkGoHMM_self _ _ _ _ _ h
  unfold loadGoHMM saveGoHMM
  rw [universal_id _ (noCR_GoHMM printable IO name _ _ _ hn hi ho' hm')]
  simp only [lines_cons]
  rw [line_eq "GoHMM".toList _ (by decide)]
  dsimp only
  rw [line_eq _ _ (noBreak_repr printable IO _ f1).1, literalEval_repr printable IO _ f1]
  simp only [bind, Except.bind, toCube_cubeVal]
  rw [line_eq _ _ hn.1]
  dsimp only
  rw [line_eq _ _ (noBreak_repr printable IO _ f2).1, literalEval_repr printable IO _ f2]
  simp only [toVec_vecVal]
  rw [line_eq _ _ (noBreak_repr printable IO _ f3).1, literalEval_repr printable IO _ f3]
  simp only [toMat_matVal]
  have := finish_GoHMM M hM name _ (show (rows M.matrix).length = n by simp [rows])
    ((goOutput M).headD []).length (by
      obtain ⟨m, rfl⟩ := Nat.exists_eq_succ_of_ne_zero hpos.ne'
      simp [goOutput, List.ofFn_succ])
  simpa only [bind, Except.bind] using this

/-- C12, GoHMMs. -/
theorem loadGoHMM_cut {n d : ℕ} (M : GoHMMObj K n d) (name : List Char) (hn : OneLine name)
    (hm : ∀ i j, IO.dom (M.matrix i j)) (ho : ∀ i j, IO.dom (M.mu i j) ∧ IO.dom (M.sigma i j))
    (hi : ∀ x ∈ M.initialState, IO.dom x) (p : List Char)
    (hp : CutOf p (saveGoHMM printable IO M name)) : ∃ e, loadGoHMM (K := K) IO p = .error e := by
  have hm' := dom_rows IO _ hm
  have ho' := dom_goOutput IO M ho
  have f1 := finite_cube IO ho'
  have f2 := finite_vec IO hi
  have f3 := finite_mat IO hm'
  have hcr := noCR_GoHMM printable IO name _ _ _ hn hi ho' hm'
  unfold saveGoHMM at hp
  unfold loadGoHMM
  rw [universal_id p (fun h => hcr (hp.1.subset h))]
  simp only [lines_cons] at hp
  rcases cut_header hp with h | ⟨p, rfl, h0⟩
  · dsimp only
    rw [line_prefix h (by decide)]
    exact ⟨_, rfl⟩
  dsimp only
  rw [line_eq "GoHMM".toList _ (by decide)]
  simp only [bind]
  rcases cut_header h0 with h | ⟨p, rfl, h2⟩
  · rw [line_prefix h (noBreak_repr printable IO _ f1).1]
    refine bind_fails _ _ (fun v => bind_fails _ _ (fun l => ?_))
    exact ⟨_, rfl⟩
  rw [line_eq _ _ (noBreak_repr printable IO _ f1).1, literalEval_repr printable IO _ f1]
  simp only [Except.bind, toCube_cubeVal]
  rcases cut_header h2 with h | ⟨p, rfl, h3⟩
  · rw [line_prefix h hn.1]
    exact ⟨_, rfl⟩
  rw [line_eq _ _ hn.1]
  dsimp only
  rcases cut_header h3 with h | ⟨p, rfl, h4⟩
  · rw [line_prefix h (noBreak_repr printable IO _ f2).1]
    refine bind_fails _ _ (fun v => bind_fails _ _ (fun l => ?_))
    exact ⟨_, rfl⟩
  rw [line_eq _ _ (noBreak_repr printable IO _ f2).1, literalEval_repr printable IO _ f2]
  simp only [toVec_vecVal]
  rcases cut_header h4 with h | ⟨p, rfl, h5⟩
  · obtain ⟨c1, c2⟩ := dropLast_strict h (repr_ne_nil printable IO f3)
    rw [line_prefix h (noBreak_repr printable IO _ f3).1]
    have : literalEval IO p.dropLast = .error .syntaxError := by
      cases f3 with
      | list hl => exact literalEval_cut printable IO _ hl _ c1 c2
    rw [this]
    exact ⟨_, rfl⟩
  · exfalso
    have : p = [] := by simpa [lines] using h5.1
    exact h5.2 (by rw [this]; rfl)

/-! ### Names on several lines -/

/-- A two-state chain made of two loops. -/
def twoLoops : MC ℚ String 2 := ⟨fun i j => if i = j then 1 else 0, ![("init" : String), "a"], ![1, 0]⟩

/-- It is the result of the constructor and meets the hypotheses of the theorems above. -/
example : mkMC twoLoops.matrix ["init", "a"] = .ok twoLoops ∧ OneLine "my model".toList ∧
    (∀ i j, decIO.dom (twoLoops.matrix i j)) ∧ (∀ s, decIO.dom (twoLoops.initialState s)) := by
  refine ⟨?_, ⟨by decide, by decide⟩, ?_, ?_⟩
  · rw [mkMC_ok_iff]
    refine ⟨by decide, rfl, by decide +kernel, rfl, by decide, by decide +kernel⟩
  · intro i j
    exact ⟨0, by revert i j; decide +kernel⟩
  · intro i
    exact ⟨0, by revert i; decide +kernel⟩

/-- Without the hypothesis on the name the round trip fails: nothing refuses a name with a line break, and the loader
takes its second and third lines for the initial distribution and the matrix. The chain made of two loops is loaded with
other probabilities and another name. -/
theorem loadMC_name_on_several_lines :
    ∃ r, loadMC decIO (saveMC (fun _ => true) decIO twoLoops "x\n[1.0]\n[[0.5, 0.5], [1.0, 0.0]]".toList) = .ok r ∧
      r.1 = "x".toList ∧ List.ofFn (fun i => List.ofFn (r.2.2.matrix i)) = [[1/2, 1/2], [1, 0]] := by
  have h : (match loadMC decIO (saveMC (fun _ => true) decIO twoLoops "x\n[1.0]\n[[0.5, 0.5], [1.0, 0.0]]".toList) with
      | .ok r => decide (r.1 = "x".toList ∧ List.ofFn (fun i => List.ofFn (r.2.2.matrix i)) = [[1/2, 1/2], [1, 0]])
      | .error _ => false) = true := by decide +kernel
  generalize loadMC decIO (saveMC (fun _ => true) decIO twoLoops "x\n[1.0]\n[[0.5, 0.5], [1.0, 0.0]]".toList) = x at h ⊢
  cases x with
  | error e => cases h
  | ok r => exact ⟨r, rfl, of_decide_eq_true h⟩

/-- The same with carriage returns: Python reads them as line breaks. -/
theorem loadMC_name_with_carriage_returns :
    ∃ r, loadMC decIO (saveMC (fun _ => true) decIO twoLoops "x\r[1.0]\r[[0.5, 0.5], [1.0, 0.0]]".toList) = .ok r ∧
      r.1 = "x".toList ∧ List.ofFn (fun i => List.ofFn (r.2.2.matrix i)) = [[1/2, 1/2], [1, 0]] := by
  have h : (match loadMC decIO (saveMC (fun _ => true) decIO twoLoops "x\r[1.0]\r[[0.5, 0.5], [1.0, 0.0]]".toList) with
      | .ok r => decide (r.1 = "x".toList ∧ List.ofFn (fun i => List.ofFn (r.2.2.matrix i)) = [[1/2, 1/2], [1, 0]])
      | .error _ => false) = true := by decide +kernel
  generalize loadMC decIO (saveMC (fun _ => true) decIO twoLoops "x\r[1.0]\r[[0.5, 0.5], [1.0, 0.0]]".toList) = x at h ⊢
  cases x with
  | error e => cases h
  | ok r => exact ⟨r, rfl, of_decide_eq_true h⟩

/-- A line with anything but spaces after a value is refused. -/
theorem literalEval_garbage (v : Val K) (hv : FiniteVal IO v) (rest : List Char) (hd : Delim rest) (h : ∃ c ∈ rest, c ≠ ' ') :
    ∃ e, literalEval IO (repr printable IO v ++ rest) = .error e := by
  have := readVal_repr printable IO v hv rest hd (2 * (repr printable IO v ++ rest).length + 1)
    (by rw [List.length_append]; omega)
  refine ⟨.syntaxError, ?_⟩
  unfold literalEval
  rw [this]
  simp only
  rw [if_neg]
  obtain ⟨c, hc, hne⟩ := h
  intro hall
  exact hne (of_decide_eq_true (List.all_eq_true.1 hall c hc))

end Files
end Jajapy
