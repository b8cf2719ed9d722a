import Verif.Props.Create
import Verif.Spec.CTMC

/-!
Property theorems for the random generators (C16).
-/

set_option linter.unusedSectionVars false

namespace Jajapy.Create

open Finset Tools Spec

variable {K : Type} [Field K] [LinearOrder K] [IsStrictOrderedRing K] [FloorRing K]

/-- "The labels of a random model with `nb` states": only given labels, the first states labelled by the list in order,
every label used when there are enough states, and 'init' for the added state only. -/
def RandomLabels {nb : ℕ} (labelling : List String) (lab : Fin (nb + 1) → String) : Prop :=
  (∀ i : Fin nb, lab i.castSucc ∈ labelling) ∧
  (∀ i : Fin nb, (i : ℕ) < labelling.length → labelling[i]? = some (lab i.castSucc)) ∧
  (labelling.length ≤ nb → ∀ x ∈ labelling, ∃ i : Fin nb, lab i.castSucc = x) ∧
  ∀ i, lab i = "init" ↔ i = Fin.last nb

/-- The values that `randint(1,11)` can return. -/
def DrawsOK (draws : ℕ → ℕ) : Prop := ∀ k, 1 ≤ draws k ∧ draws k ≤ 10

theorem labelsForRandomModel_spec (nb : ℕ) (labelling : List String) (choice : ℕ → ℕ) (hi : "init" ∉ labelling)
    (hc : ∀ k, k < nb - labelling.length → choice k < labelling.length) :
    ∃ l, labelsForRandomModel nb labelling choice = .ok (l ++ ["init"]) ∧ l.length = nb ∧
      (∀ x ∈ l, x ∈ labelling) ∧ ∀ i, i < nb → i < labelling.length → l[i]? = labelling[i]? := by
  have hm : ∀ k ∈ List.range (nb - labelling.length),
      labelAt labelling (choice k) = .ok (labelling.getD (choice k) "") := by
    intro k hk
    have := hc k (List.mem_range.1 hk)
    simp [labelAt, List.getElem?_eq_getElem this, List.getD_eq_getElem?_getD]
  refine ⟨labelling.take (min labelling.length nb) ++
    (List.range (nb - labelling.length)).map (fun k => labelling.getD (choice k) ""), ?_, ?_, ?_, ?_⟩
  · unfold labelsForRandomModel
    rw [if_neg hi, List.mapM_ok _ _ _ hm]
    simp [bind, Except.bind, pure, Except.pure]
  · simp; omega
  · intro x hx
    rcases List.mem_append.1 hx with hx | hx
    · exact List.mem_of_mem_take hx
    · obtain ⟨k, hk, rfl⟩ := List.mem_map.1 hx
      have := hc k (List.mem_range.1 hk)
      simp [List.getD_eq_getElem?_getD, this]
  · intro i h1 h2
    rw [List.getElem?_append_left (by simp; omega), List.getElem?_take, if_pos (by omega)]

theorem randomLabels_of {nb : ℕ} {labelling l : List String} {lab : Fin (nb + 1) → String}
    {init : Fin (nb + 1) → K} (hi : "init" ∉ labelling) (h1 : l.length = nb) (h2 : ∀ x ∈ l, x ∈ labelling)
    (h3 : ∀ i, i < nb → i < labelling.length → l[i]? = labelling[i]?) (h : FromLabels (l ++ ["init"]) lab init) :
    RandomLabels labelling lab ∧ ∀ s, init s = if s = Fin.last nb then 1 else 0 := by
  have hil : "init" ∉ l := fun hm => hi (h2 _ hm)
  obtain ⟨⟨e1, e2, e3, e4⟩, e5⟩ := labels_of (by simp [h1]) hil h
  have hmem : ∀ i : Fin nb, lab i.castSucc ∈ labelling := fun i => h2 _ (List.mem_of_getElem? (e3 i))
  have hfirst : ∀ i : Fin nb, (i : ℕ) < labelling.length → labelling[i]? = some (lab i.castSucc) := by
    intro i hlt
    have := h3 i i.2 hlt
    have e := e3 i
    simp only [Fin.getElem?_fin] at e ⊢
    rw [← this, e]
  refine ⟨⟨hmem, hfirst, ?_, ?_⟩, e5⟩
  · intro hle x hx
    obtain ⟨i, hlt, rfl⟩ := List.mem_iff_getElem.1 hx
    refine ⟨⟨i, by omega⟩, ?_⟩
    have := hfirst ⟨i, by omega⟩ hlt
    simp only [Fin.getElem?_fin, List.getElem?_eq_getElem hlt, Option.some.injEq] at this
    exact this.symm
  · intro i
    constructor
    · intro hi'
      by_contra hne
      obtain ⟨j, rfl⟩ := Fin.exists_castSucc_eq.2 hne
      exact hi (hi' ▸ hmem j)
    · rintro rfl; exact e4

theorem ofRows_lt (rows : List (List K)) (last : List K) (i j : ℕ) (h : i < rows.length) :
    ofRows (rows ++ [last]) i j = (rows[i]).getD j 0 := by
  simp [ofRows, List.getD_eq_getElem?_getD, List.getElem?_append_left h, h]

theorem ofRows_last (rows : List (List K)) (last : List K) (j : ℕ) :
    ofRows (rows ++ [last]) rows.length j = last.getD j 0 := by
  simp [ofRows, List.getD_eq_getElem?_getD]

/-- "`p` is a distribution over the `nb` states, extended by 0 for the added state". -/
def Dist (nb : ℕ) (p : List K) : Prop := p.length = nb + 1 ∧ p.sum = 1 ∧ (∀ x ∈ p, 0 ≤ x) ∧ p.getD nb 0 = 0

theorem dist_append {nb : ℕ} {p : List K} (h1 : p.length = nb) (h2 : p.sum = 1) (h3 : ∀ x ∈ p, 0 ≤ x) :
    Dist nb (p ++ [0]) := by
  refine ⟨by simp [h1], by simp [h2], ?_, ?_⟩
  · intro x hx
    rcases List.mem_append.1 hx with hx | hx
    · exact h3 x hx
    · rw [List.mem_singleton.1 hx]
  · simp [List.getD_eq_getElem?_getD, ← h1]

theorem lastRow_spec {nb : ℕ} (hn : 1 ≤ nb) (randomInit : Bool) (draws : ℕ → ℕ) (hd : DrawsOK draws) :
    ∃ p : List K, lastRow nb randomInit draws = .ok p ∧ Dist nb p ∧
      (randomInit = true → ∀ j, j < nb → 0 < p.getD j 0) ∧ (randomInit = false → p.getD 0 0 = 1) := by
  unfold lastRow
  cases randomInit with
  | true =>
    obtain ⟨p, hp, h1, h2, h3⟩ := randomProbabilities_spec (K := K) draws hd nb hn
    refine ⟨p ++ [0], ?_, dist_append h1 h2 (fun x hx => (h3 x hx).le), fun _ j hj => ?_, by simp⟩
    · simp [hp, Except.map]
    · have : j < p.length := by omega
      simp only [List.getD_eq_getElem?_getD, List.getElem?_append_left this, List.getElem?_eq_getElem this]
      exact h3 _ (List.getElem_mem this)
  | false =>
    refine ⟨1 :: List.replicate nb 0, rfl, ⟨by simp, by simp, ?_, ?_⟩, by simp, by simp⟩
    · intro x hx
      rcases List.mem_cons.1 hx with rfl | hx
      · exact zero_le_one
      · rw [(List.mem_replicate.1 hx).2]
    · obtain ⟨m, rfl⟩ : ∃ m, nb = m + 1 := ⟨nb - 1, by omega⟩
      simp [List.getD_eq_getElem?_getD]

theorem getD_nonneg {p : List K} (h : ∀ x ∈ p, 0 ≤ x) (j : ℕ) : 0 ≤ p.getD j 0 := by
  rw [List.getD_eq_getElem?_getD]
  by_cases hj : j < p.length
  · simp only [List.getElem?_eq_getElem hj, Option.getD_some]; exact h _ (List.getElem_mem hj)
  · simp [List.getElem?_eq_none (not_lt.1 hj)]

/-- C16. `MC_random`: for every outcome of the draws, a Markov chain with `nb` states plus the added one; every
transition between the `nb` states has a positive probability and none enters the added state; the added state leads to
each state with a positive probability, or to state 0. -/
theorem MC_random_spec (nb : ℕ) (hn : 1 ≤ nb) (labelling : List String) (randomInit : Bool) (draws : ℕ → ℕ → ℕ)
    (choice : ℕ → ℕ) (hd : ∀ s, DrawsOK (draws s)) (hi : "init" ∉ labelling)
    (hc : ∀ k, k < nb - labelling.length → choice k < labelling.length) :
    ∃ M : MC K String (nb + 1), MC_random nb labelling randomInit draws choice = .ok M ∧
      M.Stochastic ∧ RandomLabels labelling M.labelling ∧
      (∀ s, M.initialState s = if s = Fin.last nb then 1 else 0) ∧
      (∀ i j : Fin nb, 0 < M.matrix i.castSucc j.castSucc) ∧
      (∀ i, M.matrix i (Fin.last nb) = 0) ∧
      (randomInit = true → ∀ j : Fin nb, 0 < M.matrix (Fin.last nb) j.castSucc) ∧
      (randomInit = false → M.matrix (Fin.last nb) 0 = 1) := by
  choose p hp h1 h2 h3 using fun s => randomProbabilities_spec (K := K) (draws s) (hd s) nb hn
  have hrows : ∀ s ∈ List.range nb, (randomProbabilities (draws s) (.int nb)).map (· ++ [(0 : K)]) = .ok (p s ++ [0]) := by
    intro s _
    rw [hp s]; rfl
  obtain ⟨last, hlast, hdl, hl1, hl2⟩ := lastRow_spec (K := K) hn randomInit (draws nb) (hd nb)
  obtain ⟨l, hl, g1, g2, g3⟩ := labelsForRandomModel_spec nb labelling choice hi hc
  set rows := (List.range nb).map (fun s => p s ++ [(0 : K)]) with hrowsdef
  have hlen : rows.length = nb := by simp [hrowsdef]
  have hrow : ∀ (i : Fin nb) (j : ℕ), ofRows (rows ++ [last]) i j = (p i ++ [0]).getD j 0 := by
    intro i j
    rw [ofRows_lt _ _ _ _ (by rw [hlen]; exact i.2)]
    simp [hrowsdef]
  have hlastrow : ∀ j : ℕ, ofRows (rows ++ [last]) nb j = last.getD j 0 := by
    intro j
    conv_lhs => rw [← hlen]
    exact ofRows_last _ _ _
  have hdist : ∀ i : Fin nb, Dist nb (p i ++ [0]) := fun i => dist_append (h1 i) (h2 i) (fun x hx => (h3 i x hx).le)
  have hsum : ∀ i : Fin (nb + 1), ∑ j : Fin (nb + 1), ofRows (rows ++ [last]) i j = 1 := by
    intro i
    induction i using Fin.lastCases with
    | last =>
      rw [Fin.val_last, sum_congr rfl (fun (j : Fin (nb + 1)) _ => hlastrow j), sum_getD _ hdl.1, hdl.2.1]
    | cast i =>
      rw [Fin.val_castSucc, sum_congr rfl (fun (j : Fin (nb + 1)) _ => hrow i j), sum_getD _ (hdist i).1, (hdist i).2.1]
  obtain ⟨M, hM⟩ := mkMC_total (fun i j : Fin (nb + 1) => ofRows (rows ++ [last]) i j) (l ++ ["init"]) (by simp)
    (by simp [g1]) (fun i => Or.inl (by rw [hsum i]; norm_num))
  obtain ⟨_, _, _, hm, hf⟩ := (mkMC_ok_iff _ _ _).1 hM
  obtain ⟨r1, r2⟩ := randomLabels_of hi g1 g2 g3 hf
  refine ⟨M, ?_, ⟨?_, ?_, ?_, ?_⟩, r1, r2, ?_, ?_, ?_, ?_⟩
  · unfold MC_random
    rw [List.mapM_ok _ _ _ hrows]
    simp only [bind, Except.bind, hlast, hl]
    exact hM
  · intro s; rw [r2]; split_ifs; exacts [zero_le_one, le_rfl]
  · rw [sum_congr rfl (fun s _ => r2 s)]; simp
  · intro i j
    rw [hm]
    beta_reduce
    induction i using Fin.lastCases with
    | last => rw [Fin.val_last, hlastrow]; exact getD_nonneg hdl.2.2.1 _
    | cast i => rw [Fin.val_castSucc, hrow]; exact getD_nonneg (hdist i).2.2.1 _
  · intro i
    rw [hm]
    exact hsum i
  · intro i j
    rw [hm]
    have hj : (j : ℕ) < (p i).length := by rw [h1]; exact j.2
    simp only [Fin.val_castSucc, hrow, List.getD_eq_getElem?_getD, List.getElem?_append_left hj,
      List.getElem?_eq_getElem hj]
    exact h3 i _ (List.getElem_mem hj)
  · intro i
    rw [hm]
    beta_reduce
    induction i using Fin.lastCases with
    | last => rw [Fin.val_last, hlastrow]; exact hdl.2.2.2
    | cast i => rw [Fin.val_castSucc, hrow]; exact (hdist i).2.2.2
  · intro hr j
    rw [hm]
    beta_reduce
    rw [Fin.val_last, hlastrow]
    exact hl1 hr j j.2
  · intro hr
    rw [hm]
    beta_reduce
    rw [Fin.val_last, hlastrow]
    exact hl2 hr

/-- C16. The label 'init' is refused. -/
theorem MC_random_refuses_init (nb : ℕ) (hn : 1 ≤ nb) (labelling : List String) (randomInit : Bool) (draws : ℕ → ℕ → ℕ)
    (choice : ℕ → ℕ) (hd : ∀ s, DrawsOK (draws s)) (hi : "init" ∈ labelling) :
    (MC_random nb labelling randomInit draws choice : Py (MC K String (nb + 1))) = .error .syntaxError := by
  choose p hp h1 h2 h3 using fun s => randomProbabilities_spec (K := K) (draws s) (hd s) nb hn
  have hrows : ∀ s ∈ List.range nb, (randomProbabilities (draws s) (.int nb)).map (· ++ [(0 : K)]) = .ok (p s ++ [0]) := by
    intro s _
    rw [hp s]; rfl
  obtain ⟨last, hlast, -⟩ := lastRow_spec (K := K) hn randomInit (draws nb) (hd nb)
  unfold MC_random
  rw [List.mapM_ok _ _ _ hrows]
  simp only [bind, Except.bind, hlast, labelsForRandomModel, if_pos hi]

example : (∀ s : ℕ, DrawsOK (fun k => (s + k) % 10 + 1)) ∧ "init" ∉ ["a", "b"] ∧
    ∀ k, k < 3 - ["a", "b"].length → (fun _ => 0 : ℕ → ℕ) k < ["a", "b"].length :=
  ⟨fun s k => by beta_reduce; constructor <;> omega, by decide, by intros; simp⟩

theorem rows_at (nb : ℕ) (q : ℕ → List K) (last : List K) (i : Fin nb) (j : ℕ) :
    ofRows ((List.range nb).map q ++ [last]) i j = (q i).getD j 0 := by
  rw [ofRows_lt _ _ _ _ (by simp)]
  simp

theorem rows_last (nb : ℕ) (q : ℕ → List K) (last : List K) (j : ℕ) :
    ofRows ((List.range nb).map q ++ [last]) nb j = last.getD j 0 := by
  have := ofRows_last ((List.range nb).map q) last j
  simpa using this

/-! #### CTMC -/

theorem sum_insertIdx (l : List K) (i : ℕ) (x : K) (h : i ≤ l.length) : (l.insertIdx i x).sum = x + l.sum := by
  have := (List.perm_insertIdx x l h).sum_eq
  simpa using this

/-- The row of state `s` before the division by the waiting time: a distribution with positive entries, except for the
state itself when there is no self loop. -/
theorem ctmcRow_spec (nb s : ℕ) (hs : s < nb) (selfLoop : Bool) (hn : selfLoop = false → 2 ≤ nb) (draws : ℕ → ℕ)
    (hd : DrawsOK draws) :
    ∃ p : List K, ctmcRow nb s selfLoop draws = .ok p ∧
      p.length = nb ∧ p.sum = 1 ∧ (∀ j, j < nb → (selfLoop = true ∨ j ≠ s) → 0 < p.getD j 0) ∧
      (selfLoop = false → p.getD s 0 = 0) := by
  unfold ctmcRow
  cases selfLoop with
  | true =>
    obtain ⟨p, hp, h1, h2, h3⟩ := randomProbabilities_spec (K := K) draws hd nb (by omega)
    refine ⟨p, by simpa using hp, h1, h2, fun j hj _ => ?_, by simp⟩
    have : j < p.length := by omega
    simp only [List.getD_eq_getElem?_getD, List.getElem?_eq_getElem this]
    exact h3 _ (List.getElem_mem this)
  | false =>
    have hn := hn rfl
    obtain ⟨p, hp, h1, h2, h3⟩ := randomProbabilities_spec (K := K) draws hd (nb - 1) (by omega)
    have hcast : ((nb : ℤ) - 1) = ((nb - 1 : ℕ) : ℤ) := by omega
    have hle : s ≤ p.length := by omega
    refine ⟨p.insertIdx s 0, ?_, ?_, ?_, ?_, ?_⟩
    · simp [hcast, hp, Except.map]
    · rw [List.length_insertIdx_of_le_length hle]; omega
    · rw [sum_insertIdx _ _ _ hle, h2, zero_add]
    · intro j hj hne
      have hne : j ≠ s := by simpa using hne
      rw [List.getD_eq_getElem?_getD]
      rcases lt_or_gt_of_ne hne with hlt | hgt
      · have : j < p.length := by omega
        rw [List.getElem?_insertIdx_of_lt hlt, List.getElem?_eq_getElem this]
        exact h3 _ (List.getElem_mem this)
      · have : j - 1 < p.length := by omega
        rw [List.getElem?_insertIdx_of_gt hgt, List.getElem?_eq_getElem this]
        exact h3 _ (List.getElem_mem this)
    · intro _
      rw [List.getD_eq_getElem?_getD, List.getElem?_insertIdx_self, if_pos hle]
      rfl

theorem getD_map_div (p : List K) (w : K) (j : ℕ) : (p.map (· / w)).getD j 0 = p.getD j 0 / w := by
  simp only [List.getD_eq_getElem?_getD, List.getElem?_map]
  cases p[j]? <;> simp

theorem sum_map_div (p : List K) (w : K) : (p.map (· / w)).sum = p.sum / w := by
  induction p with
  | nil => simp
  | cons a p ih => simp [ih, add_div]

theorem getD_append_zero (p : List K) (j : ℕ) : (p ++ [0]).getD j 0 = p.getD j 0 := by
  simp only [List.getD_eq_getElem?_getD]
  by_cases h : j < p.length
  · rw [List.getElem?_append_left h]
  · rw [List.getElem?_eq_none (l := p) (by omega)]
    by_cases h' : j = p.length
    · subst h'; simp
    · rw [List.getElem?_eq_none (by simp; omega)]

/-- C16. `CTMC_random`: for every outcome of the draws, non-negative rates; state `i` is left after an expected time
equal to the drawn integer; every transition between two different states has a positive rate, and self loops exist
exactly when asked for; no transition enters the added state, whose exit rate is 1. -/
theorem CTMC_random_spec (nb : ℕ) (hn : 1 ≤ nb) (labelling : List String) (selfLoop randomInit : Bool)
    (hn' : selfLoop = false → 2 ≤ nb) (draws : ℕ → ℕ → ℕ) (wait choice : ℕ → ℕ) (hd : ∀ s, DrawsOK (draws s))
    (hw : ∀ s, 1 ≤ wait s) (hi : "init" ∉ labelling)
    (hc : ∀ k, k < nb - labelling.length → choice k < labelling.length) :
    ∃ M : CTMC K String (nb + 1), CTMC_random nb labelling selfLoop randomInit draws wait choice = .ok M ∧
      RandomLabels labelling M.labelling ∧
      (∀ s, M.initialState s = if s = Fin.last nb then 1 else 0) ∧
      (∀ i j, 0 ≤ M.matrix i j) ∧
      (∀ i : Fin nb, ∑ j, M.matrix i.castSucc j = 1 / (wait i : K)) ∧ ∑ j, M.matrix (Fin.last nb) j = 1 ∧
      (∀ i j : Fin nb, i ≠ j → 0 < M.matrix i.castSucc j.castSucc) ∧
      (∀ i : Fin nb, 0 < M.matrix i.castSucc i.castSucc ↔ selfLoop = true) ∧
      (∀ i, M.matrix i (Fin.last nb) = 0) ∧
      (randomInit = true → ∀ j : Fin nb, 0 < M.matrix (Fin.last nb) j.castSucc) ∧
      (randomInit = false → M.matrix (Fin.last nb) 0 = 1) := by
  have hex := fun (s : ℕ) (hs : s < nb) => ctmcRow_spec (K := K) nb s hs selfLoop hn' (draws s) (hd s)
  choose! p hp h1 h2 h3 h4 using hex
  set q : ℕ → List K := fun s => (p s).map (· / (wait s : K)) ++ [0] with hq
  have hrows : ∀ s ∈ List.range nb, 
      (ctmcRow nb s selfLoop (draws s)).map (fun p => p.map (· / (wait s : K)) ++ [0]) = .ok (q s) := by
    intro s hs
    rw [hp s (List.mem_range.1 hs)]; rfl
  obtain ⟨last, hlast, hdl, hl1, hl2⟩ := lastRow_spec (K := K) hn randomInit (draws nb) (hd nb)
  obtain ⟨l, hl, g1, g2, g3⟩ := labelsForRandomModel_spec nb labelling choice hi hc
  have hent : ∀ (i : Fin nb) (j : ℕ), (q i).getD j 0 = (p i).getD j 0 / (wait i : K) := by
    intro i j
    rw [hq]
    beta_reduce
    rw [getD_append_zero, getD_map_div]
  have hwpos : ∀ i : ℕ, (0 : K) < (wait i : K) := fun i => by exact_mod_cast hw i
  have hlenq : ∀ i : Fin nb, (q i).length = nb + 1 := by intro i; simp [hq, h1 i i.2]
  have hpos : ∀ (i : Fin nb) (j : ℕ), 0 ≤ (p i).getD j 0 := by
    intro i j
    by_cases hj : j < nb
    · by_cases hs : selfLoop = true ∨ j ≠ i
      · exact (h3 i i.2 j hj hs).le
      · push Not at hs
        rw [hs.2, h4 i i.2 (by simpa using hs.1)]
    · rw [List.getD_eq_getElem?_getD, List.getElem?_eq_none (by rw [h1 i i.2]; omega)]
      rfl
  obtain ⟨M, hM⟩ := mkCTMC_total (fun i j : Fin (nb + 1) => ofRows ((List.range nb).map q ++ [last]) i j) (l ++ ["init"])
    (by simp) (by simp [g1])
  obtain ⟨_, _, hm, hf⟩ := (mkCTMC_ok_iff _ _ _).1 hM
  obtain ⟨r1, r2⟩ := randomLabels_of hi g1 g2 g3 hf
  have m1 : ∀ (i : Fin nb) (j : Fin (nb + 1)), M.matrix i.castSucc j = (p i).getD j 0 / (wait i : K) := by
    intro i j
    rw [hm]
    beta_reduce
    rw [Fin.val_castSucc, rows_at, hent]
  have m2 : ∀ (j : Fin (nb + 1)), M.matrix (Fin.last nb) j = last.getD j 0 := by
    intro j
    rw [hm]
    beta_reduce
    rw [Fin.val_last, rows_last]
  refine ⟨M, ?_, r1, r2, ?_, ?_, ?_, ?_, ?_, ?_, ?_, ?_⟩
  · unfold CTMC_random
    rw [List.mapM_ok _ _ _ hrows]
    simp only [bind, Except.bind, hlast, hl]
    rw [if_neg (by omega)]
    exact hM
  · intro i j
    induction i using Fin.lastCases with
    | last => rw [m2]; exact getD_nonneg hdl.2.2.1 _
    | cast i => rw [m1]; exact div_nonneg (hpos i j) (hwpos i).le
  · intro i
    rw [sum_congr rfl (fun (j : Fin (nb + 1)) _ => (m1 i j).trans (hent i j).symm), sum_getD _ (hlenq i)]
    simp only [hq, List.sum_append, sum_map_div, h2 i i.2, List.sum_cons, List.sum_nil, add_zero]
  · rw [sum_congr rfl (fun j _ => m2 j), sum_getD _ hdl.1, hdl.2.1]
  · intro i j hij
    rw [m1]
    exact div_pos (h3 i i.2 j j.2 (Or.inr (fun h => hij (Fin.ext h.symm)))) (hwpos i)
  · intro i
    rw [m1]
    constructor
    · intro h
      by_contra hs
      rw [Fin.val_castSucc, h4 i i.2 (by simpa using hs), zero_div] at h
      exact lt_irrefl _ h
    · intro hs
      exact div_pos (h3 i i.2 i i.2 (Or.inl hs)) (hwpos i)
  · intro i
    induction i using Fin.lastCases with
    | last => rw [m2]; exact hdl.2.2.2
    | cast i =>
      rw [m1, Fin.val_last, List.getD_eq_getElem?_getD, List.getElem?_eq_none (by rw [h1 i i.2])]
      simp
  · intro hr j
    rw [m2]; exact hl1 hr j j.2
  · intro hr
    rw [m2]; exact hl2 hr

/-- C16. A single state without self loop is refused. -/
theorem CTMC_random_one_state (labelling : List String) (randomInit : Bool) (draws : ℕ → ℕ → ℕ) (wait choice : ℕ → ℕ) :
    (CTMC_random 1 labelling false randomInit draws wait choice : Py (CTMC K String 2)) = .error .valueError := by
  unfold CTMC_random
  simp [ctmcRow, randomProbabilities, Except.map, bind, Except.bind]

/-- The documentation of `CTMC_random` ("All the exit rates will be integers") is not satisfied: a drawn value 2 gives
an exit rate 1/2. -/
theorem CTMC_random_exit_rate_not_integer :
    ∃ M : CTMC ℚ String 2, CTMC_random 1 ["a"] true true (fun _ _ => 1) (fun _ => 2) (fun _ => 0) = .ok M ∧
      M.e 0 = 1/2 := by
  obtain ⟨M, hM, _, _, _, h, _⟩ := CTMC_random_spec (K := ℚ) 1 le_rfl ["a"] true true (by simp) (fun _ _ => 1)
    (fun _ => 2) (fun _ => 0) (fun _ _ => by simp) (fun _ => by simp) (by decide) (by intro k hk; simp)
  refine ⟨M, hM, ?_⟩
  have := h 0
  simpa [CTMC.e] using this

/-! #### HMM and GoHMM -/

theorem rows_all (nb : ℕ) (q : ℕ → List K) (i : Fin nb) (j : ℕ) :
    ofRows ((List.range nb).map q) i j = (q i).getD j 0 := by
  simp [ofRows, List.getD_eq_getElem?_getD]

theorem getD_pos {p : List K} (h : ∀ x ∈ p, 0 < x) {j : ℕ} (hj : j < p.length) : 0 < p.getD j 0 := by
  rw [List.getD_eq_getElem?_getD, List.getElem?_eq_getElem hj]
  exact h _ (List.getElem_mem hj)

theorem randomInitArg_spec {nb : ℕ} (hn : 1 ≤ nb) (randomInit : Bool) (draws : ℕ → ℕ) (hd : DrawsOK draws) :
    ∃ (a : InitArg K) (l : List K), randomInitArg nb randomInit draws = .ok a ∧ modelInit nb a = .ok l ∧
      l.length = nb ∧ (∀ x ∈ l, 0 ≤ x) ∧ l.sum = 1 ∧
      (randomInit = true → ∀ x ∈ l, 0 < x) ∧ (randomInit = false → l.getD 0 0 = 1) := by
  unfold randomInitArg
  cases randomInit with
  | true =>
    obtain ⟨p, hp, h1, h2, h3⟩ := randomProbabilities_spec (K := K) draws hd nb hn
    refine ⟨.list p, p, by simp [hp, Except.map], ?_, h1, fun x hx => (h3 x hx).le, h2, fun _ => h3, by simp⟩
    simp only [modelInit]
    rw [if_neg (by rw [not_not, roundHalfEven_eq_one, h2]; norm_num)]
  | false =>
    refine ⟨.int 0, List.ofFn (fun s : Fin nb => if s = ⟨0, by omega⟩ then 1 else 0), rfl, ?_, by simp, ?_, ?_, by simp, ?_⟩
    · have : pyIndex nb 0 = .ok ⟨0, by omega⟩ := pyIndex_nat (i := 0) (by omega)
      simp [modelInit, this, bind, Except.bind, pure, Except.pure]
    · intro x hx
      obtain ⟨s, rfl⟩ := List.mem_ofFn.1 hx
      beta_reduce
      split_ifs; exacts [zero_le_one, le_rfl]
    · rw [List.sum_ofFn]; simp
    · intro _
      have : 0 < (List.ofFn (fun s : Fin nb => if s = ⟨0, by omega⟩ then (1 : K) else 0)).length := by simp; omega
      rw [List.getD_eq_getElem?_getD, List.getElem?_eq_getElem this]
      simp

/-- C16. `HMM_random`: for every outcome of the draws, an HMM with `nb` states and the given alphabet, whose two matrices
have positive entries and rows of sum 1; the initial distribution is positive, or state 0. -/
theorem HMM_random_spec (nb : ℕ) (hn : 1 ≤ nb) (alphabet : List String) (ha : alphabet ≠ []) (randomInit : Bool)
    (draws : ℕ → ℕ → ℕ) (hd : ∀ s, DrawsOK (draws s)) :
    ∃ (o : HMMObj K nb) (hl : o.initialState.length = nb), HMM_random nb alphabet randomInit draws = .ok o ∧
      o.alphabet = alphabet ∧ (o.toHMM hl).Stochastic ∧
      (∀ i j, 0 < o.matrix i j) ∧ (∀ i k, 0 < o.output i k) ∧
      (randomInit = true → ∀ s, 0 < (o.toHMM hl).initialState s) ∧
      (randomInit = false → (o.toHMM hl).initialState ⟨0, by omega⟩ = 1) := by
  have hm : 1 ≤ alphabet.length := List.length_pos_iff.2 ha
  choose p hp h1 h2 h3 using fun s => randomProbabilities_spec (K := K) (draws (2 * s)) (hd _) nb hn
  choose r hr g1 g2 g3 using fun s => randomProbabilities_spec (K := K) (draws (2 * s + 1)) (hd _) alphabet.length hm
  obtain ⟨a, l, ha1, ha2, l1, l2, l3, l4, l5⟩ := randomInitArg_spec (K := K) hn randomInit (draws (2 * nb)) (hd _)
  have hrows : ∀ s ∈ List.range nb,
      (hmmRows nb alphabet.length (draws (2 * s)) (draws (2 * s + 1)) : Py (List K × List K)) = .ok (p s, r s) := by
    intro s _
    simp only [hmmRows, hp, hr]
    rfl
  set rows := (List.range nb).map (fun s => (p s, r s)) with hrowsdef
  have e1 : rows.map (·.1) = (List.range nb).map p := by simp [hrowsdef, Function.comp_def]
  have e2 : rows.map (·.2) = (List.range nb).map r := by simp [hrowsdef, Function.comp_def]
  have m1 : ∀ (i j : Fin nb), ofRows (rows.map (·.1)) i j = (p i).getD j 0 := fun i j => by rw [e1, rows_all]
  have m2 : ∀ (i : Fin nb) (j : Fin alphabet.length), ofRows (rows.map (·.2)) i j = (r i).getD j 0 := fun i j => by
    rw [e2, rows_all]
  have s1 : ∀ i : Fin nb, ∑ j : Fin nb, ofRows (rows.map (·.1)) i j = 1 := fun i => by
    rw [sum_congr rfl (fun j _ => m1 i j), sum_getD _ (h1 i), h2]
  have s2 : ∀ i : Fin nb, ∑ j : Fin alphabet.length, ofRows (rows.map (·.2)) i j = 1 := fun i => by
    rw [sum_congr rfl (fun j _ => m2 i j), sum_getD _ (g1 i), g2]
  have p1 : ∀ (i j : Fin nb), 0 < ofRows (rows.map (·.1)) i j := fun i j => by
    rw [m1]; exact getD_pos (h3 i) (by rw [h1]; exact j.2)
  have p2 : ∀ (i : Fin nb) (j : Fin alphabet.length), 0 < ofRows (rows.map (·.2)) i j := fun i j => by
    rw [m2]; exact getD_pos (g3 i) (by rw [g1]; exact j.2)
  refine ⟨HMMObj.mk (fun i j => ofRows (rows.map (·.1)) i j) alphabet (fun i k => ofRows (rows.map (·.2)) i k) l, l1, ?_, rfl, ?_, p1, p2, ?_, ?_⟩
  · unfold HMM_random
    rw [List.mapM_ok _ _ _ hrows]
    simp only [bind, Except.bind, ha1, mkHMM, ha2]
    rw [if_neg (not_not.2 (fun i => (checkRow _).2 (Or.inl (by rw [s1 i]; norm_num)))),
      if_neg (not_not.2 (fun i => (checkRow _).2 (Or.inl (by rw [s2 i]; norm_num))))]
    rfl
  · refine ⟨fun s => l2 _ (List.getElem_mem _), ?_, fun i j => (p1 i j).le, s1, fun i k => (p2 i k).le, s2⟩
    rw [← l3, ← sum_getD l l1]
    refine sum_congr rfl (fun s _ => ?_)
    simp [HMMObj.toHMM, List.getD_eq_getElem?_getD, show (s : ℕ) < l.length by rw [l1]; exact s.2]
  · intro hr s
    exact l4 hr _ (List.getElem_mem _)
  · intro hr
    have := l5 hr
    have h0 : 0 < l.length := by omega
    rw [List.getD_eq_getElem?_getD, List.getElem?_eq_getElem h0] at this
    exact this

/-- C16. `GoHMM_random`: the same for the transitions and the initial distribution; the means and deviations are the
drawn ones, provided that no drawn deviation is negative (otherwise it raises ValueError). -/
theorem GoHMM_random_spec (nb d : ℕ) (hn : 1 ≤ nb) (hd0 : 1 ≤ d) (randomInit : Bool)
    (draws : ℕ → ℕ → ℕ) (hd : ∀ s, DrawsOK (draws s)) (u v : ℕ → ℕ → K) (hv : ∀ s j, 0 ≤ v s j) :
    ∃ (o : GoHMMObj K nb d), GoHMM_random nb d randomInit draws u v = .ok o ∧
      (∀ i j, 0 < o.matrix i j) ∧ (∀ i, ∑ j, o.matrix i j = 1) ∧
      (∀ i j, o.mu i j = u i j) ∧ (∀ i j, o.sigma i j = v i j) ∧
      o.initialState.length = nb ∧ (∀ x ∈ o.initialState, 0 ≤ x) ∧ o.initialState.sum = 1 := by
  choose p hp h1 h2 h3 using fun s => randomProbabilities_spec (K := K) (draws s) (hd _) nb hn
  obtain ⟨a, l, ha1, ha2, l1, l2, l3, l4, l5⟩ := randomInitArg_spec (K := K) hn randomInit (draws nb) (hd _)
  have hrows : ∀ s ∈ List.range nb, (randomProbabilities (draws s) (.int nb) : Py (List K)) = .ok (p s) :=
    fun s _ => hp s
  have m1 : ∀ (i j : Fin nb), ofRows ((List.range nb).map p) i j = (p i).getD j 0 := fun i j => by rw [rows_all]
  have s1 : ∀ i : Fin nb, ∑ j : Fin nb, ofRows ((List.range nb).map p) i j = 1 := fun i => by
    rw [sum_congr rfl (fun j _ => m1 i j), sum_getD _ (h1 i), h2]
  refine ⟨GoHMMObj.mk (fun i j => ofRows ((List.range nb).map p) i j) (fun i j => u i j) (fun i j => v i j) l, ?_, ?_, s1, fun _ _ => rfl, fun _ _ => rfl, l1, l2, l3⟩
  · unfold GoHMM_random
    rw [List.mapM_ok _ _ _ hrows]
    simp only [bind, Except.bind, ha1, mkGoHMM, ha2]
    rw [if_neg (by omega), if_neg]
    · rw [if_neg (not_not.2 (fun i => (checkRow _).2 (Or.inl (by rw [s1 i]; norm_num))))]
      rfl
    · rintro (h | ⟨i, j, h⟩)
      · omega
      · exact absurd h (not_lt.2 (hv i j))
  · intro i j
    show 0 < ofRows ((List.range nb).map p) i j
    rw [m1]; exact getD_pos (h3 i) (by rw [h1]; exact j.2)

/-! #### MDP -/

theorem foldSet (l : List (ℕ × K)) : ∀ (acc : List K), (l.map (·.1)).Nodup → (∀ x ∈ l, x.1 < acc.length) →
    (∀ x ∈ l, acc.getD x.1 0 = 0) →
    (l.foldl (fun p ij => p.set ij.1 ij.2) acc).length = acc.length ∧
    (l.foldl (fun p ij => p.set ij.1 ij.2) acc).sum = acc.sum + (l.map (·.2)).sum ∧
    (∀ x ∈ l, (l.foldl (fun p ij => p.set ij.1 ij.2) acc).getD x.1 0 = x.2) ∧
    (∀ j, j ∉ l.map (·.1) → (l.foldl (fun p ij => p.set ij.1 ij.2) acc).getD j 0 = acc.getD j 0) := by
  induction l with
  | nil => intro acc _ _ _; simp
  | cons a l ih =>
    intro acc hn hlt hz
    rw [List.map_cons, List.nodup_cons] at hn
    have ha : a.1 < acc.length := hlt a (by simp)
    have hne : ∀ j, j ≠ a.1 → (acc.set a.1 a.2).getD j 0 = acc.getD j 0 := by
      intro j hj
      simp only [List.getD_eq_getElem?_getD, List.getElem?_set_ne (Ne.symm hj)]
    have haz := hz a (by simp)
    rw [List.getD_eq_getElem?_getD, List.getElem?_eq_getElem ha, Option.getD_some] at haz
    have hsum : (acc.set a.1 a.2).sum = acc.sum + a.2 := by
      conv_rhs => rw [← List.take_append_drop a.1 acc, List.drop_eq_getElem_cons ha, haz]
      rw [List.set_eq_take_append_cons_drop, if_pos ha]
      simp
      ring
    obtain ⟨h1, h2, h3, h4⟩ := ih (acc.set a.1 a.2) hn.2 (by
      intro x hx; rw [List.length_set]; exact hlt x (by simp [hx])) (by
      intro x hx
      rw [hne x.1 (fun h => hn.1 (h ▸ List.mem_map_of_mem hx))]
      exact hz x (by simp [hx]))
    refine ⟨?_, ?_, ?_, ?_⟩
    · rw [List.foldl_cons, h1, List.length_set]
    · rw [List.foldl_cons, h2, hsum, List.map_cons, List.sum_cons]; ring
    · intro x hx
      rw [List.foldl_cons]
      rcases List.mem_cons.1 hx with rfl | hx
      · rw [h4 _ hn.1, List.getD_eq_getElem?_getD, List.getElem?_set_self ha]; rfl
      · exact h3 x hx
    · intro j hj
      rw [List.map_cons, List.mem_cons, not_or] at hj
      rw [List.foldl_cons, h4 j hj.2, hne j hj.1]

/-- The positions drawn for the labels: each is a position of the label. -/
theorem position_spec (labelling : List String) (o : String) (k : ℕ)
    (hk : k < ((List.range labelling.length).filter (fun i => labelling[i]? = some o)).length) :
    labelling[((List.range labelling.length).filter (fun i => labelling[i]? = some o)).getD k 0]? = some o := by
  rw [List.getD_eq_getElem?_getD, List.getElem?_eq_getElem hk, Option.getD_some]
  have := List.getElem_mem hk
  simpa using (List.mem_filter.1 this).2

/-- C16. One row of a deterministic random MDP: a distribution over the `nb` states with at most one successor, and
exactly one, for each label. -/
theorem detRow_spec (nb : ℕ) (labelling order : List String) (dest : String → ℕ) (draws : ℕ → ℕ) (hd : DrawsOK draws)
    (hlen : labelling.length ≤ nb) (hne : labelling ≠ []) (ho : order.Nodup) (hmem : ∀ x, x ∈ order ↔ x ∈ labelling)
    (hdest : ∀ o ∈ labelling, dest o < ((List.range labelling.length).filter (fun i => labelling[i]? = some o)).length) :
    ∃ p : List K, detRow nb labelling order dest draws = .ok p ∧ p.length = nb ∧ p.sum = 1 ∧ (∀ x ∈ p, 0 ≤ x) ∧
      (∀ j, p.getD j 0 ≠ 0 → j < labelling.length) ∧
      (∀ j j', p.getD j 0 ≠ 0 → p.getD j' 0 ≠ 0 → labelling[j]? = labelling[j']? → j = j') ∧
      (∀ o ∈ labelling, ∃ j, labelling[j]? = some o ∧ 0 < p.getD j 0) := by
  have hone : 1 ≤ order.length := by
    obtain ⟨x, hx⟩ := List.exists_mem_of_ne_nil _ hne
    exact List.length_pos_of_mem ((hmem x).2 hx)
  obtain ⟨probs, hp, h1, h2, h3⟩ := randomProbabilities_spec (K := K) draws hd order.length hone
  set f : String → ℕ := fun o =>
    ((List.range labelling.length).filter (fun i => labelling[i]? = some o)).getD (dest o) 0 with hf
  have hfo : ∀ o ∈ order, labelling[f o]? = some o := fun o h => position_spec _ _ _ (hdest o ((hmem o).1 h))
  have hflt : ∀ o ∈ order, f o < labelling.length := fun o h => (List.getElem?_eq_some_iff.1 (hfo o h)).1
  set l := (order.map f).zip probs with hl
  have hl1 : l.map (·.1) = order.map f := by
    rw [hl, List.map_fst_zip]; simp [h1]
  have hl2 : l.map (·.2) = probs := by
    rw [hl, List.map_snd_zip]; simp [h1]
  have hnodup : (l.map (·.1)).Nodup := by
    rw [hl1]
    refine List.Nodup.map_on ?_ ho
    intro x hx y hy hxy
    have := hfo x hx
    rw [hxy, hfo y hy] at this
    exact (Option.some.inj this).symm
  have hlt : ∀ x ∈ l, x.1 < (List.replicate nb (0 : K)).length := by
    intro x hx
    have : x.1 ∈ l.map (·.1) := List.mem_map_of_mem hx
    rw [hl1] at this
    obtain ⟨o, ho', e⟩ := List.mem_map.1 this
    rw [← e, List.length_replicate]
    exact lt_of_lt_of_le (hflt o ho') hlen
  have hzero : ∀ j, (List.replicate nb (0 : K)).getD j 0 = 0 := by
    intro j
    rw [List.getD_eq_getElem?_getD, List.getElem?_replicate]
    split_ifs <;> rfl
  obtain ⟨g1, g2, g3, g4⟩ := foldSet l (List.replicate nb 0) hnodup hlt (fun x _ => hzero _)
  set p := l.foldl (fun p ij => p.set ij.1 ij.2) (List.replicate nb (0 : K)) with hpdef
  have hent : ∀ j, p.getD j 0 ≠ 0 → ∃ o ∈ order, j = f o := by
    intro j hj
    by_contra hc
    refine hj ((g4 j ?_).trans (hzero j))
    rw [hl1]
    intro hm
    obtain ⟨o, ho', e⟩ := List.mem_map.1 hm
    exact hc ⟨o, ho', e.symm⟩
  have hposx : ∀ x ∈ l, 0 < x.2 := by
    intro x hx
    have : x.2 ∈ l.map (·.2) := List.mem_map_of_mem hx
    rw [hl2] at this
    exact h3 _ this
  refine ⟨p, ?_, by simpa using g1, ?_, ?_, ?_, ?_, ?_⟩
  · unfold detRow
    simp only [hp, bind, Except.bind]
    rw [if_neg]
    · rfl
    · rintro ⟨i, hi, hle⟩
      obtain ⟨o, ho', rfl⟩ := List.mem_map.1 hi
      exact absurd (lt_of_lt_of_le (hflt o ho') hlen) (not_lt.2 hle)
  · rw [g2, hl2, h2]; simp
  · intro x hx
    obtain ⟨j, hj, rfl⟩ := List.mem_iff_getElem.1 hx
    have e : p[j] = p.getD j 0 := by rw [List.getD_eq_getElem?_getD, List.getElem?_eq_getElem hj]; rfl
    rw [e]
    by_cases hm : j ∈ l.map (·.1)
    · obtain ⟨y, hy, hyj⟩ := List.mem_map.1 hm
      rw [← hyj, g3 y hy]; exact (hposx y hy).le
    · rw [g4 j hm, hzero]
  · intro j hj
    obtain ⟨o, ho', rfl⟩ := hent j hj
    exact hflt o ho'
  · intro j j' hj hj' hlab
    obtain ⟨o, ho1, rfl⟩ := hent j hj
    obtain ⟨o', ho2, rfl⟩ := hent j' hj'
    rw [hfo o ho1, hfo o' ho2] at hlab
    rw [Option.some.inj hlab]
  · intro o ho'
    have ho' := (hmem o).2 ho'
    have : f o ∈ l.map (·.1) := by rw [hl1]; exact List.mem_map_of_mem ho'
    obtain ⟨x, hx, e⟩ := List.mem_map.1 this
    exact ⟨f o, hfo o ho', by rw [← e, g3 x hx]; exact hposx x hx⟩

/-- "The draws of the destinations are positions of the labels, and `order` lists the labels once" (deterministic case). -/
def DetOK (nb : ℕ) (labelling order : List String) (dest : ℕ → ℕ → String → ℕ) : Prop :=
  labelling.length ≤ nb ∧ labelling ≠ [] ∧ order.Nodup ∧ (∀ x, x ∈ order ↔ x ∈ labelling) ∧
  ∀ s a, ∀ o ∈ labelling, dest s a o < ((List.range labelling.length).filter (fun i => labelling[i]? = some o)).length

/-- C16. `MDP_random`: for every outcome of the draws, an MDP with the given actions, all available in every state. Without
`deterministic` every transition between the `nb` states has a positive probability; with it, each of the `nb` states
has for each action exactly one successor per given label. -/
theorem MDP_random_spec (nb : ℕ) (hn : 1 ≤ nb) (labelling actions : List String) (randomInit deterministic : Bool)
    (order : List String) (dest : ℕ → ℕ → String → ℕ) (draws : ℕ → ℕ → ℕ → ℕ) (choice : ℕ → ℕ)
    (hd : ∀ s a, DrawsOK (draws s a)) (hi : "init" ∉ labelling)
    (hc : ∀ k, k < nb - labelling.length → choice k < labelling.length)
    (hdet : deterministic = true → DetOK nb labelling order dest) :
    ∃ M : MDP K String (nb + 1),
      MDP_random nb labelling actions randomInit deterministic order dest draws choice = .ok M ∧
      M.actions = actions ∧ M.Stochastic ∧ (∀ i a, ∑ j, M.matrix i a j = 1) ∧ RandomLabels labelling M.labelling ∧
      (∀ s, M.initialState s = if s = Fin.last nb then 1 else 0) ∧
      (deterministic = false → ∀ (i : Fin nb) a (j : Fin nb), 0 < M.matrix i.castSucc a j.castSucc) ∧
      (deterministic = true → ∀ (i : Fin nb) a, ∀ o ∈ labelling, ∃! j, M.labelling j = o ∧ 0 < M.matrix i.castSucc a j) ∧
      (∀ i a, M.matrix i a (Fin.last nb) = 0) ∧
      (randomInit = true → ∀ a (j : Fin nb), 0 < M.matrix (Fin.last nb) a j.castSucc) ∧
      (randomInit = false → ∀ a, M.matrix (Fin.last nb) a 0 = 1) := by
  have hrow : ∀ s a, ∃ p : List K, mdpRow nb labelling deterministic order (dest s a) (draws s a) = .ok (p ++ [0]) ∧
      p.length = nb ∧ p.sum = 1 ∧ (∀ x ∈ p, 0 ≤ x) ∧ (deterministic = false → ∀ x ∈ p, 0 < x) ∧
      (deterministic = true → (∀ j, p.getD j 0 ≠ 0 → j < labelling.length) ∧
        (∀ j j', p.getD j 0 ≠ 0 → p.getD j' 0 ≠ 0 → labelling[j]? = labelling[j']? → j = j') ∧
        (∀ o ∈ labelling, ∃ j, labelling[j]? = some o ∧ 0 < p.getD j 0)) := by
    intro s a
    unfold mdpRow
    cases deterministic with
    | false =>
      obtain ⟨p, hp, h1, h2, h3⟩ := randomProbabilities_spec (K := K) (draws s a) (hd s a) nb hn
      exact ⟨p, by simp [hp, Except.map], h1, h2, fun x hx => (h3 x hx).le, fun _ => h3, by simp⟩
    | true =>
      obtain ⟨d1, d2, d3, d4, d5⟩ := hdet rfl
      obtain ⟨p, hp, h1, h2, h3, h4, h5, h6⟩ :=
        detRow_spec (K := K) nb labelling order (dest s a) (draws s a) (hd s a) d1 d2 d3 d4 (d5 s a)
      exact ⟨p, by simp [hp, Except.map], h1, h2, h3, by simp, fun _ => ⟨h4, h5, h6⟩⟩
  choose p hp h1 h2 h3 h4 h5 using hrow
  have hrows : ∀ s ∈ List.range nb, (List.range actions.length).mapM (fun a =>
      (mdpRow nb labelling deterministic order (dest s a) (draws s a) : Py (List K))) =
      .ok ((List.range actions.length).map (fun a => p s a ++ [0])) := by
    intro s _
    exact List.mapM_ok _ _ _ (fun a _ => hp s a)
  obtain ⟨last, hlast, hdl, hl1, hl2⟩ := lastRow_spec (K := K) hn randomInit (draws nb 0) (hd nb 0)
  obtain ⟨l, hl, g1, g2, g3⟩ := labelsForRandomModel_spec nb labelling choice hi hc
  set rows := (List.range nb).map (fun s => (List.range actions.length).map (fun a => p s a ++ [(0 : K)])) with hrowsdef
  set mat : Fin (nb + 1) → Fin actions.length → Fin (nb + 1) → K :=
    fun i a j => ofRows ((rows ++ [List.replicate actions.length last]).getD i []) a j with hmat
  have m1 : ∀ (i : Fin nb) (a : Fin actions.length) (j : Fin (nb + 1)),
      mat i.castSucc a j = (p i a ++ [0]).getD j 0 := by
    intro i a j
    have : (rows ++ [List.replicate actions.length last]).getD i [] =
        (List.range actions.length).map (fun a => p i a ++ [(0 : K)]) := by
      rw [List.getD_eq_getElem?_getD, List.getElem?_append_left (by simp [hrowsdef])]
      simp [hrowsdef]
    rw [hmat]
    beta_reduce
    rw [Fin.val_castSucc, this]
    exact rows_all actions.length _ a j
  have m2 : ∀ (a : Fin actions.length) (j : Fin (nb + 1)), mat (Fin.last nb) a j = last.getD j 0 := by
    intro a j
    have : (rows ++ [List.replicate actions.length last]).getD nb [] = List.replicate actions.length last := by
      rw [List.getD_eq_getElem?_getD, List.getElem?_append_right (by simp [hrowsdef])]
      simp [hrowsdef]
    rw [hmat]
    beta_reduce
    rw [Fin.val_last, this]
    simp [ofRows, List.getD_eq_getElem?_getD, List.getElem?_replicate]
  have hdist : ∀ (i a : ℕ), Dist nb (p i a ++ [0]) := fun i a => dist_append (h1 i a) (h2 i a) (h3 i a)
  have hsum : ∀ i a, ∑ j, mat i a j = 1 := by
    intro i a
    induction i using Fin.lastCases with
    | last => rw [sum_congr rfl (fun j _ => m2 a j), sum_getD _ hdl.1, hdl.2.1]
    | cast i => rw [sum_congr rfl (fun j _ => m1 i a j), sum_getD _ (hdist i a).1, (hdist i a).2.1]
  have hnonneg : ∀ i a j, 0 ≤ mat i a j := by
    intro i a j
    induction i using Fin.lastCases with
    | last => rw [m2]; exact getD_nonneg hdl.2.2.1 _
    | cast i => rw [m1]; exact getD_nonneg (hdist i a).2.2.1 _
  have hb := (baseMCInit_iff _ _ _).1 (baseMCInit_ok (K := K) (nb + 1) (l ++ ["init"]) (by simp) (by simp [g1]))
  obtain ⟨r1, r2⟩ := randomLabels_of hi g1 g2 g3 hb.2.2
  refine ⟨MDP.mk actions mat _ _, ?_, rfl, ⟨?_, ?_, hnonneg, fun i a => Or.inl (hsum i a)⟩, hsum, r1, r2, ?_, ?_, ?_, ?_, ?_⟩
  · unfold MDP_random
    rw [List.mapM_ok _ _ _ hrows]
    simp only [bind, Except.bind, hlast, hl]
    exact (mkMDP_ok_iff _ _ _ _).2 ⟨by simp, by simp [g1], fun i a => Or.inl (by
      have := hsum i a
      rw [show (∑ j : Fin (nb + 1), ofRows ((rows ++ [List.replicate actions.length last]).getD i []) a j : K) = 1 from this]
      norm_num), ⟨rfl, fun _ _ _ => rfl⟩, hb.2.2⟩
  · intro s
    have e := r2 s
    dsimp only at e ⊢
    rw [e]; split_ifs; exacts [zero_le_one, le_rfl]
  · have e := sum_congr rfl (fun s (_ : s ∈ univ) => r2 s)
    dsimp only at e ⊢
    rw [e]; simp
  · intro hdt i a j
    show 0 < mat i.castSucc a j.castSucc
    rw [m1, getD_append_zero]
    exact getD_pos (h4 i a hdt) (by rw [h1]; exact j.2)
  · intro hdt i a o ho'
    obtain ⟨q1, q2, q3⟩ := h5 i a hdt
    obtain ⟨d1, -⟩ := hdet hdt
    obtain ⟨j, hj1, hj2⟩ := q3 o ho'
    have hjl := (List.getElem?_eq_some_iff.1 hj1).1
    have hmat' : ∀ j : Fin (nb + 1), mat i.castSucc a j = (p i a).getD j 0 := fun j => by rw [m1, getD_append_zero]
    have hfirst := r1.2.1
    refine ⟨(⟨j, by omega⟩ : Fin nb).castSucc, ⟨?_, ?_⟩, ?_⟩
    · have := hfirst ⟨j, by omega⟩ hjl
      simp only [Fin.getElem?_fin, hj1, Option.some.injEq] at this
      exact this.symm
    · show 0 < mat i.castSucc a _
      rw [hmat']; exact hj2
    · rintro j' ⟨e1, e2⟩
      have e2 : 0 < mat i.castSucc a j' := e2
      rw [hmat'] at e2
      have hj' := q1 j' e2.ne'
      have := hfirst ⟨j', by omega⟩ hj'
      simp only [Fin.getElem?_fin] at this
      apply Fin.ext
      refine q2 j' j e2.ne' hj2.ne' ?_
      rw [this, hj1, ← e1]
      rfl
  · intro i a
    show mat i a (Fin.last nb) = 0
    induction i using Fin.lastCases with
    | last => rw [m2]; exact hdl.2.2.2
    | cast i => rw [m1]; exact (hdist i a).2.2.2
  · intro hr a j
    show 0 < mat (Fin.last nb) a j.castSucc
    rw [m2]; exact hl1 hr j j.2
  · intro hr a
    show mat (Fin.last nb) a 0 = 1
    rw [m2]; exact hl2 hr

/-- The documentation of `deterministic` ("in state `s`, with action `a`, for all label `o`, there is at most one
transition to a state labelled with `o`") is not satisfied by the added state: with a random initial state (the default)
it leads to two states with the same label. -/
theorem MDP_random_initial_not_deterministic :
    ∃ M : MDP ℚ String 3, MDP_random 2 ["a", "a"] ["x"] true true ["a"] (fun _ _ _ => 0) (fun _ _ _ => 1) (fun _ => 0) = .ok M ∧
      M.labelling 0 = M.labelling 1 ∧ ∀ a, 0 < M.matrix (Fin.last 2) a 0 ∧ 0 < M.matrix (Fin.last 2) a 1 := by
  obtain ⟨M, hM, _, _, _, hlab, _, _, _, _, h, _⟩ := MDP_random_spec (K := ℚ) 2 (by norm_num) ["a", "a"] ["x"] true true ["a"]
    (fun _ _ _ => 0) (fun _ _ _ => 1) (fun _ => 0) (fun _ _ _ => by simp) (by decide) (by intro k hk; simp)
    (fun _ => ⟨by simp, by simp, by simp, by simp, by intro s a o ho; fin_cases ho <;> exact Nat.lt_of_lt_of_eq (Nat.zero_lt_succ 1) (by decide)⟩)
  refine ⟨M, hM, ?_, fun a => ⟨h rfl a 0, h rfl a 1⟩⟩
  have h0 := hlab.1 0
  have h1 := hlab.1 1
  simp only [List.mem_cons, List.not_mem_nil, or_false, or_self] at h0 h1
  exact h0.trans h1.symm

/-- With more labels than states the deterministic generator may raise IndexError (a drawn position is not a state). -/
theorem MDP_random_deterministic_raises :
    ∃ (draws : ℕ → ℕ → ℕ → ℕ), (∀ s a, DrawsOK (draws s a)) ∧
      (MDP_random 1 ["a", "b"] ["x"] true true ["a", "b"] (fun _ _ _ => 0) draws (fun _ => 0) : Py (MDP ℚ String 2)) =
        .error .indexError := by
  refine ⟨fun _ _ _ => 1, fun _ _ _ => by simp, ?_⟩
  have : (detRow 1 ["a", "b"] ["a", "b"] (fun _ => 0) (fun _ => 1) : Py (List ℚ)) = .error .indexError := by decide +kernel
  simp [MDP_random, mdpRow, this, Except.map, bind, Except.bind, List.range_succ]

/-- C16. The label 'init' is refused, whatever the other arguments and the draws. -/
theorem CTMC_random_refuses_init (nb : ℕ) (labelling : List String) (selfLoop randomInit : Bool) (draws : ℕ → ℕ → ℕ)
    (wait choice : ℕ → ℕ) (hi : "init" ∈ labelling) (M : CTMC K String (nb + 1)) :
    CTMC_random nb labelling selfLoop randomInit draws wait choice ≠ .ok M := by
  intro h
  unfold CTMC_random labelsForRandomModel at h
  rw [if_pos hi] at h
  simp only [bind, Except.bind] at h
  split at h
  · cases h
  · split_ifs at h <;> first | cases h | (split at h <;> cases h)

theorem MDP_random_refuses_init (nb : ℕ) (labelling actions : List String) (randomInit deterministic : Bool)
    (order : List String) (dest : ℕ → ℕ → String → ℕ) (draws : ℕ → ℕ → ℕ → ℕ) (choice : ℕ → ℕ)
    (hi : "init" ∈ labelling) (M : MDP K String (nb + 1)) :
    MDP_random nb labelling actions randomInit deterministic order dest draws choice ≠ .ok M := by
  intro h
  unfold MDP_random labelsForRandomModel at h
  rw [if_pos hi] at h
  simp only [bind, Except.bind] at h
  split at h
  · cases h
  · split at h <;> cases h

example : DetOK 3 ["a", "b"] ["b", "a"] (fun _ _ _ => 0) :=
  ⟨by simp, by simp, by simp, by intro x; simp [or_comm], by
    intro s a o ho; fin_cases ho <;> exact Nat.lt_of_lt_of_eq (Nat.zero_lt_succ 0) (by decide)⟩

end Jajapy.Create
