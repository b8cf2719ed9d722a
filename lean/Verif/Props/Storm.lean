import Verif.Lemmas.Storm
import Mathlib.Data.List.GetD

/-!
C56, C69, C70: the conversion to Storm and back.
-/

namespace Jajapy.Storm

open Spec Spec.Storm Create Finset

variable {K : Type} [Field K] [LinearOrder K]

/-! ### C69: to Storm -/

/-- C69, MCs. Storm gets one state for each state, with its label; for its only action the transitions of positive probability. -/
theorem ofMC_spec {n : ℕ} (M : MC K String n) : (ofMC M).states.length = n ∧ Valid (ofMC M) ∧ OneAction (ofMC M) ∧
    (∀ s : Fin n, labels (ofMC M) s = [M.labelling s]) ∧
    ∀ (s : Fin n) (a j : ℕ) (v : K), Entry (ofMC M) s a j v ↔ a = 0 ∧ v ≠ 0 ∧ ∃ h : j < n, v = M.matrix s ⟨j, h⟩ := by
  have hlen : (ofMC M).states.length = n := by simp [ofMC]
  refine ⟨hlen, ⟨?_, ?_, ?_⟩, ?_, ?_, ?_⟩
  · intro s hs
    obtain ⟨i, rfl⟩ := (List.mem_ofFn' _ _).1 hs
    simp
  · intro s hs r hr
    obtain ⟨i, rfl⟩ := (List.mem_ofFn' _ _).1 hs
    obtain rfl := List.mem_singleton.1 hr
    exact nodup_sparseRow _
  · intro s hs r hr q hq
    obtain ⟨i, rfl⟩ := (List.mem_ofFn' _ _).1 hs
    obtain rfl := List.mem_singleton.1 hr
    rw [hlen]
    exact (mem_sparseRow.1 hq).1
  · intro s hs
    obtain ⟨i, rfl⟩ := (List.mem_ofFn' _ _).1 hs
    exact ⟨_, rfl⟩
  · intro s
    simp [labels, ofMC]
  · intro s a j v
    have hs : (ofMC M).states[s.val]? = some ⟨[M.labelling s], [sparseRow (M.matrix s)]⟩ := by simp [ofMC]
    unfold Entry
    rw [hs]
    constructor
    · rintro ⟨_, r, e, hr, hm⟩
      cases e
      have ha : a = 0 := by
        by_contra h
        rw [List.getElem?_eq_none (by simp; omega)] at hr
        cases hr
      subst ha
      cases hr
      obtain ⟨h, h1, h2⟩ := mem_sparseRow.1 hm
      exact ⟨rfl, h2, h, h1⟩
    · rintro ⟨rfl, h2, h, h1⟩
      exact ⟨_, _, rfl, rfl, mem_sparseRow.2 ⟨h, h1, h2⟩⟩

/-- C69, MDPs. Every state has one choice for each action of the model, in the order of the actions; its transitions are those of positive probability. -/
theorem ofMDP_spec {n : ℕ} (M : MDP K String n) : (ofMDP M).states.length = n ∧ Valid (ofMDP M) ∧
    (∀ s : Fin n, labels (ofMDP M) s = [M.labelling s]) ∧ (∀ s ∈ (ofMDP M).states, s.actions.length = M.actions.length) ∧
    ∀ (s : Fin n) (a : Fin M.actions.length) (j : ℕ) (v : K), Entry (ofMDP M) s a j v ↔ v ≠ 0 ∧ ∃ h : j < n, v = M.matrix s a ⟨j, h⟩ := by
  have hlen : (ofMDP M).states.length = n := by simp [ofMDP]
  refine ⟨hlen, ⟨?_, ?_, ?_⟩, ?_, ?_, ?_⟩
  · intro s hs
    obtain ⟨i, rfl⟩ := (List.mem_ofFn' _ _).1 hs
    simp
  · intro s hs r hr
    obtain ⟨i, rfl⟩ := (List.mem_ofFn' _ _).1 hs
    obtain ⟨a, rfl⟩ := (List.mem_ofFn' _ _).1 hr
    exact nodup_sparseRow _
  · intro s hs r hr q hq
    obtain ⟨i, rfl⟩ := (List.mem_ofFn' _ _).1 hs
    obtain ⟨a, rfl⟩ := (List.mem_ofFn' _ _).1 hr
    rw [hlen]
    exact (mem_sparseRow.1 hq).1
  · intro s
    simp [labels, ofMDP]
  · intro s hs
    obtain ⟨i, rfl⟩ := (List.mem_ofFn' _ _).1 hs
    simp
  · intro s a j v
    have hs : (ofMDP M).states[s.val]? = some ⟨[M.labelling s], List.ofFn (fun a => sparseRow (M.matrix s a))⟩ := by simp [ofMDP]
    unfold Entry
    rw [hs]
    constructor
    · rintro ⟨_, r, e, hr, hm⟩
      cases e
      simp only [List.getElem?_ofFn, a.2, dif_pos] at hr
      cases hr
      obtain ⟨h, h1, h2⟩ := mem_sparseRow.1 hm
      exact ⟨h2, h, h1⟩
    · rintro ⟨h2, h, h1⟩
      exact ⟨_, sparseRow (M.matrix s a), rfl, by simp, mem_sparseRow.2 ⟨h, h1, h2⟩⟩

/-- C69, CTMCs without absorbing states. The transitions carry the jump probabilities, and the exit rates are those of the CTMC. -/
theorem ofCTMC_spec {n : ℕ} (M : CTMC K String n) (he : ∀ s, M.e s ≠ 0) : (ofCTMC M).states.length = n ∧ OneAction (ofCTMC M) ∧
    (∀ s : Fin n, labels (ofCTMC M) s = [M.labelling s]) ∧ (∀ s : Fin n, (ofCTMC M).exitRates[s.val]? = some (some (M.e s))) ∧
    ∀ (s : Fin n) (a j : ℕ) (v : Option K), Entry (ofCTMC M) s a j v ↔ a = 0 ∧ v ≠ some 0 ∧ ∃ h : j < n, v = some (M.matrix s ⟨j, h⟩ / M.e s) := by
  have hlen : (ofCTMC M).states.length = n := by simp [ofCTMC]
  refine ⟨hlen, ?_, ?_, ?_, ?_⟩
  · intro s hs
    obtain ⟨i, rfl⟩ := (List.mem_ofFn' _ _).1 hs
    exact ⟨_, rfl⟩
  · intro s
    simp [labels, ofCTMC]
  · intro s
    simp [ofCTMC]
  · intro s a j v
    have hs : (ofCTMC M).states[s.val]? = some ⟨[M.labelling s], [jumpRow M s]⟩ := by simp [ofCTMC]
    have hrow : jumpRow M s = (sparseRow (fun j => M.matrix s j / M.e s)).map (fun q => (q.1, some q.2)) := if_neg (he s)
    unfold Entry
    rw [hs]
    constructor
    · rintro ⟨_, r, e, hr, hm⟩
      cases e
      have ha : a = 0 := by
        by_contra h
        rw [List.getElem?_eq_none (by simp; omega)] at hr
        cases hr
      subst ha
      cases hr
      rw [hrow] at hm
      obtain ⟨⟨j', v'⟩, hq, e⟩ := List.mem_map.1 hm
      cases e
      obtain ⟨h, h1, h2⟩ := mem_sparseRow.1 hq
      refine ⟨rfl, fun e => h2 (by injection e), h, by rw [h1]⟩
    · rintro ⟨rfl, h2, h, rfl⟩
      refine ⟨_, jumpRow M s, rfl, rfl, ?_⟩
      rw [hrow]
      exact List.mem_map.2 ⟨(j, _), mem_sparseRow.2 ⟨h, rfl, fun e => h2 (by rw [e])⟩, rfl⟩

/-- C69 fails: of a state other than the first, no choice has a label: Storm does not know which action it is. -/
theorem choices_unlabelled {n : ℕ} (M : MDP K String n) (c : ℕ) (h1 : M.actions.length ≤ c) (h2 : c < n * M.actions.length) :
    (ofMDP M).choiceLabels[c]? = some [] := by
  simp [ofMDP, h2, h1]

/-! ### C56: and back -/

section
variable [IsStrictOrderedRing K] [FloorRing K]

omit [IsStrictOrderedRing K] in
theorem toMC_of {S : Sparse K} {n : ℕ} (h : size S = n) {M : MC K String n}
    (hM : mkMC (n := n) (fun i j => extend 0 1 S.states.length (addInit S) (fun i => denseRow 0 (row S i)) i j) (labelling S) = .ok M) :
    toMC S = .ok ⟨n, M⟩ := by
  subst h
  unfold toMC
  rw [hM]
  rfl

/-- C56, MCs: converting to Storm and back gives the same chain. (Missing: chains with a label 'deadlock', see `deadlock_lost`.) -/
theorem mc_round_trip_partial {n : ℕ} (M : MC K String n) (hi : ∃ s, M.labelling s = "init") (hrow : ∀ s, RowOK (M.matrix s))
    (hinit : ∀ s, M.initialState s = if M.labelling s = "init" then 1 / ((univ.filter (fun s => M.labelling s = "init")).card : K) else 0)
    (hd : ∀ s, M.labelling s ≠ "deadlock") : toMC (ofMC M) = .ok ⟨n, M⟩ := by
  have hlen : (ofMC M).states.length = n := by simp [ofMC]
  have hflag : ∀ s ∈ (ofMC M).states, labelOf s.labels = ((labelOf s.labels).1, false) := by
    intro s hs
    obtain ⟨i, rfl⟩ := (List.mem_ofFn' _ _).1 hs
    dsimp only
    rw [labelOf_single (hd i)]
  have hflag : ∀ s ∈ (ofMC M).states, (labelOf s.labels).2 = false := fun s hs => by rw [hflag s hs]
  have hadd := addInit_none hflag
  have hlab : labelling (ofMC M) = List.ofFn M.labelling := by
    rw [labelling_none hflag]
    simp only [ofMC, List.map_ofFn]
    congr 1
    funext s
    simp [labelOf_single (hd s)]
  refine toMC_of (by rw [size_none hadd, hlen]) ?_
  rw [mkMC_ok_iff]
  have hmat : (fun i j : Fin n => extend (0 : K) 1 (ofMC M).states.length (addInit (ofMC M)) (fun i => denseRow 0 (row (ofMC M) i)) i j) = M.matrix := by
    funext i j
    unfold extend
    rw [hlen, if_pos i.2, if_pos j.2]
    have : row (ofMC M) i = sparseRow (M.matrix i) := by simp [row, ofMC]
    show denseRow 0 (row (ofMC M) i) j = M.matrix i j
    rw [this]
    exact denseRow_sparseRow _ j
  rw [hlab]
  refine ⟨?_, by simp, fun i => ?_, hmat.symm, fun s => by simp, hinit⟩
  rotate_left
  · rw [show (fun j : Fin n => extend (0 : K) 1 (ofMC M).states.length (addInit (ofMC M)) (fun i => denseRow 0 (row (ofMC M) i)) i j) = M.matrix i from
      congrFun hmat i]
    exact hrow i
  obtain ⟨s, hs⟩ := hi
  rw [List.mem_ofFn']
  exact ⟨s, hs⟩

omit [IsStrictOrderedRing K] in
theorem toCTMC_of {S : Sparse (Option K)} {b : Bool} {n : ℕ} (h : size S = n) {M : CTMC K String n}
    (hsome : ∀ i < S.states.length, ∀ j < S.states.length, (rates S b i j).isSome)
    (hM : mkCTMC (n := n) (fun i j => (extend (some 0) (some 1) S.states.length (addInit S) (rates S b) i j).getD 0) (labelling S) = .ok M) :
    toCTMC S b = .ok (some ⟨n, M⟩) := by
  subst h
  unfold toCTMC
  rw [hM]
  simp only [bind, Except.bind, pure, Except.pure]
  rw [if_pos hsome]

/-- C56, CTMCs without absorbing states: converting to Storm and back gives the same CTMC. (Missing: a label 'deadlock'; absorbing
states, see `ctmc_absorbing`.) -/
theorem ctmc_round_trip_partial {n : ℕ} (M : CTMC K String n) (hi : ∃ s, M.labelling s = "init") (he : ∀ s, M.e s ≠ 0)
    (hinit : ∀ s, M.initialState s = if M.labelling s = "init" then 1 / ((univ.filter (fun s => M.labelling s = "init")).card : K) else 0)
    (hd : ∀ s, M.labelling s ≠ "deadlock") : toCTMC (ofCTMC M) false = .ok (some ⟨n, M⟩) := by
  have hlen : (ofCTMC M).states.length = n := by simp [ofCTMC]
  have hflag : ∀ s ∈ (ofCTMC M).states, (labelOf s.labels).2 = false := by
    intro s hs
    obtain ⟨i, rfl⟩ := (List.mem_ofFn' _ _).1 hs
    dsimp only
    rw [labelOf_single (hd i)]
  have hadd := addInit_none hflag
  have hlab : labelling (ofCTMC M) = List.ofFn M.labelling := by
    rw [labelling_none hflag]
    simp only [ofCTMC, List.map_ofFn]
    congr 1
    funext s
    simp [labelOf_single (hd s)]
  have hrate : ∀ i j : Fin n, rates (ofCTMC M) false i j = some (M.matrix i j) := by
    intro i j
    have hr : row (ofCTMC M) i = (sparseRow (fun j => M.matrix i j / M.e i)).map (fun q => (q.1, some q.2)) := by
      simp [row, ofCTMC, jumpRow, he i]
    have hd : denseRow (some 0) (row (ofCTMC M) i) j = some (M.matrix i j / M.e i) := by
      rw [hr]
      have : ∀ l : List (ℕ × K), denseRow (some (0 : K)) (l.map (fun q => (q.1, some q.2))) j = some (denseRow 0 l j) := by
        intro l
        induction l using List.reverseRecOn with
        | nil => rfl
        | append_singleton l q ih =>
          rw [List.map_append, List.map_singleton, denseRow_append, denseRow_append, ih]
          split_ifs <;> rfl
      rw [this, denseRow_sparseRow (fun j => M.matrix i j / M.e i) j]
    have hx : (ofCTMC M).exitRates.getD i none = some (M.e i) := by simp [ofCTMC]
    unfold rates
    rw [if_neg (by simp), hd, hx]
    simp only [times, Option.bind_some, Option.map_some]
    rw [div_mul_cancel₀ _ (he i)]
  refine toCTMC_of (by rw [size_none hadd, hlen]) ?_ ?_
  · intro i hi' j hj
    rw [hlen] at hi' hj
    rw [hrate ⟨i, hi'⟩ ⟨j, hj⟩]
    rfl
  · rw [mkCTMC_ok_iff]
    have hmat : (fun i j : Fin n => (extend (some (0 : K)) (some 1) (ofCTMC M).states.length (addInit (ofCTMC M)) (rates (ofCTMC M) false) i j).getD 0)
        = M.matrix := by
      funext i j
      unfold extend
      rw [hlen, if_pos i.2, if_pos j.2, hrate]
      rfl
    rw [hmat, hlab]
    refine ⟨?_, by simp, rfl, fun s => by simp, hinit⟩
    obtain ⟨s, hs⟩ := hi
    rw [List.mem_ofFn']
    exact ⟨s, hs⟩

/-- C56 fails for every CTMC with an absorbing state: the result has entries `nan`. -/
theorem ctmc_absorbing {n : ℕ} (M : CTMC K String n) (hi : ∃ s, M.labelling s = "init") (hd : ∀ s, M.labelling s ≠ "deadlock") {s : Fin n} (he : M.e s = 0) :
    toCTMC (ofCTMC M) false = .ok none := by
  have hlen : (ofCTMC M).states.length = n := by simp [ofCTMC]
  have hflag : ∀ s ∈ (ofCTMC M).states, (labelOf s.labels).2 = false := by
    intro s hs
    obtain ⟨i, rfl⟩ := (List.mem_ofFn' _ _).1 hs
    dsimp only
    rw [labelOf_single (hd i)]
  have hadd := addInit_none hflag
  have hlab : labelling (ofCTMC M) = List.ofFn M.labelling := by
    rw [labelling_none hflag]
    simp only [ofCTMC, List.map_ofFn]
    congr 1
    funext s
    simp [labelOf_single (hd s)]
  have hin : "init" ∈ labelling (ofCTMC M) := by
    obtain ⟨s, hs⟩ := hi
    rw [hlab, List.mem_ofFn']
    exact ⟨s, hs⟩
  have hl : (labelling (ofCTMC M)).length = size (ofCTMC M) := by rw [hlab, size_none hadd, hlen]; simp
  obtain ⟨M', hM'⟩ := mkCTMC_total (K := K) (n := size (ofCTMC M))
    (fun i j => (extend (some 0) (some 1) (ofCTMC M).states.length (addInit (ofCTMC M)) (rates (ofCTMC M) false) i j).getD 0) (labelling (ofCTMC M)) hin hl
  unfold toCTMC
  rw [hM']
  simp only [bind, Except.bind, pure, Except.pure]
  rw [if_neg]
  intro hall
  have := hall s (by rw [hlen]; exact s.2) s (by rw [hlen]; exact s.2)
  have hr : row (ofCTMC M) s = (List.finRange n).map (fun j => (j.val, none)) := by
    simp [row, ofCTMC, jumpRow, he]
  have hnone : denseRow (some (0 : K)) (row (ofCTMC M) s) s = none := by
    refine denseRow_mem ?_ ?_
    · rw [hr, List.map_map]
      exact (List.nodup_finRange n).map Fin.val_injective
    · rw [hr]
      exact List.mem_map.2 ⟨s, List.mem_finRange s, rfl⟩
  unfold rates at this
  rw [if_neg (by simp), hnone] at this
  cases this

theorem mem_allNames {n : ℕ} (M : MDP K String n) (names : List String) (x : String) :
    x ∈ allNames (ofMDP M) names ↔ 0 < n ∧ ∃ a < M.actions.length, x = actionName names a := by
  unfold allNames
  rw [List.mem_flatMap]
  constructor
  · rintro ⟨s, hs, hx⟩
    obtain ⟨i, rfl⟩ := (List.mem_ofFn' _ _).1 hs
    obtain ⟨a, ha, rfl⟩ := List.mem_map.1 hx
    exact ⟨i.pos, a, by simpa using ha, rfl⟩
  · rintro ⟨h, a, ha, rfl⟩
    refine ⟨⟨[M.labelling ⟨0, h⟩], List.ofFn (fun a => sparseRow (M.matrix ⟨0, h⟩ a))⟩, (List.mem_ofFn' _ _).2 ⟨_, rfl⟩, ?_⟩
    exact List.mem_map.2 ⟨a, by simpa using ha, rfl⟩

theorem toMDP_of {S : Sparse K} {order : List String} {n : ℕ} (h : size S = n) {M : MDP K String n}
    (hr : ∀ s ∈ S.states, ∀ r ∈ s.actions.drop order.length, r.isEmpty = true)
    (hM : mkMDP (n := n) order (fun i a j => extendMDP S.states.length (addInit S) (fun i a => denseRow 0 (rowMDP S i a)) i a j) (labelling S) = .ok M) :
    toMDP S order = .ok ⟨n, M⟩ := by
  subst h
  unfold toMDP
  rw [if_pos hr, hM]
  rfl

/-- C56, MDPs, when the names of the actions are given to the second conversion: the states, labels and probabilities are the same, but
the actions are those of the list `order`, in which Python puts the set of the names. (Missing: that `order` is the list of the actions, see `mdp_round_trip_same` and
`actions_swapped`; a label 'deadlock'.) -/
theorem mdp_round_trip_partial {n : ℕ} (M : MDP K String n) (hi : ∃ s, M.labelling s = "init") (hrow : ∀ s a, RowOK (M.matrix s a))
    (hinit : ∀ s, M.initialState s = if M.labelling s = "init" then 1 / ((univ.filter (fun s => M.labelling s = "init")).card : K) else 0)
    (hd : ∀ s, M.labelling s ≠ "deadlock") (hnd : M.actions.Nodup) {order : List String} (ho : SetOrder order (allNames (ofMDP M) M.actions)) :
    ∃ M' : MDP K String n, toMDP (ofMDP M) order = .ok ⟨n, M'⟩ ∧ M'.actions = order ∧ order.Perm M.actions ∧ M'.labelling = M.labelling ∧
      M'.initialState = M.initialState ∧ ∃ h : M'.actions.length = M.actions.length, ∀ s a s', M'.matrix s a s' = M.matrix s (a.cast h) s' := by
  have hlen : (ofMDP M).states.length = n := by simp [ofMDP]
  have hflag : ∀ s ∈ (ofMDP M).states, (labelOf s.labels).2 = false := by
    intro s hs
    obtain ⟨i, rfl⟩ := (List.mem_ofFn' _ _).1 hs
    dsimp only
    rw [labelOf_single (hd i)]
  have hadd := addInit_none hflag
  have hlab : labelling (ofMDP M) = List.ofFn M.labelling := by
    rw [labelling_none hflag]
    simp only [ofMDP, List.map_ofFn]
    congr 1
    funext s
    simp [labelOf_single (hd s)]
  have hn : 0 < n := by obtain ⟨s, _⟩ := hi; exact s.pos
  have hperm : order.Perm M.actions := by
    rw [List.perm_ext_iff_of_nodup ho.1 hnd]
    intro x
    rw [ho.2, mem_allNames]
    constructor
    · rintro ⟨_, a, ha, rfl⟩
      unfold actionName
      rw [if_neg (by omega), List.getD_eq_getElem _ _ ha]
      exact List.getElem_mem ha
    · intro hx
      obtain ⟨a, ha, rfl⟩ := List.getElem_of_mem hx
      refine ⟨hn, a, ha, ?_⟩
      unfold actionName
      rw [if_neg (by omega), List.getD_eq_getElem _ _ ha]
  have hl := hperm.length_eq
  have hrange : ∀ s ∈ (ofMDP M).states, ∀ r ∈ s.actions.drop order.length, r.isEmpty = true := by
    intro s hs r hr
    obtain ⟨i, rfl⟩ := (List.mem_ofFn' _ _).1 hs
    dsimp only at hr
    rw [List.drop_eq_nil_of_le (by simp [hl])] at hr
    cases hr
  refine ⟨⟨order, fun s a s' => M.matrix s (a.cast hl) s', M.labelling, M.initialState⟩, ?_, rfl, hperm, rfl, rfl, hl, fun _ _ _ => rfl⟩
  refine toMDP_of (by rw [size_none hadd, hlen]) hrange ?_
  have hmat : ∀ (i : Fin n) (a : Fin order.length) (j : Fin n), extendMDP (ofMDP M).states.length (addInit (ofMDP M))
      (fun i a => denseRow (0 : K) (rowMDP (ofMDP M) i a)) i a j = M.matrix i (a.cast hl) j := by
    intro i a j
    unfold extendMDP
    rw [hlen, if_pos i.2, if_pos j.2]
    have : rowMDP (ofMDP M) i a = sparseRow (M.matrix i (a.cast hl)) := by
      have ha : a.val < M.actions.length := hl ▸ a.2
      simp [rowMDP, ofMDP, List.getD_eq_getElem?_getD, ha]
      rfl
    show denseRow 0 (rowMDP (ofMDP M) i a) j = _
    rw [this]
    exact denseRow_sparseRow _ j
  rw [mkMDP_ok_iff, hlab]
  refine ⟨?_, by simp, fun i a => ?_, ⟨rfl, fun i a j => (hmat i a j).symm⟩, fun s => by simp, hinit⟩
  · obtain ⟨s, hs⟩ := hi
    rw [List.mem_ofFn']
    exact ⟨s, hs⟩
  · simp only [hmat]
    exact hrow i _

/-- C56, MDPs: if Python happens to put the set of the names in the order of the actions, the MDP is the same. -/
theorem mdp_round_trip_same {n : ℕ} (M : MDP K String n) (hi : ∃ s, M.labelling s = "init") (hrow : ∀ s a, RowOK (M.matrix s a))
    (hinit : ∀ s, M.initialState s = if M.labelling s = "init" then 1 / ((univ.filter (fun s => M.labelling s = "init")).card : K) else 0)
    (hd : ∀ s, M.labelling s ≠ "deadlock") (hnd : M.actions.Nodup) : toMDP (ofMDP M) M.actions = .ok ⟨n, M⟩ := by
  have ho : SetOrder M.actions (allNames (ofMDP M) M.actions) := by
    refine ⟨hnd, fun x => ?_⟩
    rw [mem_allNames]
    constructor
    · intro hx
      obtain ⟨a, ha, rfl⟩ := List.getElem_of_mem hx
      refine ⟨by obtain ⟨s, _⟩ := hi; exact s.pos, a, ha, ?_⟩
      unfold actionName
      rw [if_neg (by omega), List.getD_eq_getElem _ _ ha]
    · rintro ⟨_, a, ha, rfl⟩
      unfold actionName
      rw [if_neg (by omega), List.getD_eq_getElem _ _ ha]
      exact List.getElem_mem ha
  obtain ⟨⟨acts, mat, lab, ini⟩, h1, h2, _, h3, h4, h5, h6⟩ := mdp_round_trip_partial M hi hrow hinit hd hnd ho
  rw [h1]
  dsimp only at h2 h3 h4 h6
  subst h2 h3 h4
  have : mat = M.matrix := funext fun s => funext fun a => funext fun s' => h6 s a s'
  subst this
  rfl

/-! ### C70: models built by Storm -/

omit [LinearOrder K] [IsStrictOrderedRing K] [FloorRing K] in
theorem value_eq {S : Sparse K} (hS : Valid S) (h1 : OneAction S) {i : ℕ} (hi : i < S.states.length) (j : ℕ) :
    value S i 0 j = denseRow 0 (row S i) j := by
  obtain ⟨r, hr⟩ := h1 _ (List.getElem_mem hi)
  have hrow : row S i = r := by
    unfold row
    rw [List.getElem?_eq_getElem hi]
    simp [hr]
  rw [hrow, denseRow_sum (hS.columns _ (List.getElem_mem hi) r (by rw [hr]; simp))]
  unfold value
  rw [List.getElem?_eq_getElem hi]
  simp [hr]

omit [LinearOrder K] [IsStrictOrderedRing K] [FloorRing K] in
theorem sufProb_extend {N : ℕ} {a : Fin N → Fin N → K} {b : Fin N → String → K} {a' : Fin (N + 1) → Fin (N + 1) → K} {b' : Fin (N + 1) → String → K}
    (ha : ∀ i j : Fin N, a' i.castSucc j.castSucc = a i j) (hl : ∀ i : Fin N, a' i.castSucc (Fin.last N) = 0) (hb : ∀ i : Fin N, b' i.castSucc = b i)
    (w : List String) (i : Fin N) : sufProb a' b' i.castSucc w = sufProb a b i w := by
  induction w generalizing i with
  | nil => rfl
  | cons o w ih =>
    cases w with
    | nil => simp only [sufProb]; rw [hb]
    | cons o' w =>
      simp only [sufProb]
      rw [hb, Fin.sum_univ_castSucc, hl, zero_mul, add_zero]
      simp only [ha, ih]

omit [LinearOrder K] [IsStrictOrderedRing K] [FloorRing K] in
theorem fromLabels_old {V : Type} {S : Sparse V} (hS : ∀ s ∈ S.states, s.labels.Nodup) {k : ℕ} (hk : OnlyInit S k) (hn : ¬ Named (labels S k)) :
    addInit S = none ∧ "init" ∈ labelling S ∧ (labelling S).length = S.states.length ∧
    FromLabels (labelling S) (fun i : Fin S.states.length => name (labels S i)) (fun i => if i.val = k then (1 : K) else 0) := by
  rcases shape hS hk with ⟨_, hadd, hlab⟩ | ⟨h, _⟩
  swap
  · exact absurd h hn
  have hname : ∀ i : Fin S.states.length, name S.states[i].labels = name (labels S i) := fun i => by rw [labels_eq S i.2]; rfl
  have hinit : ∀ i : Fin S.states.length, name (labels S i) = "init" ↔ i.val = k := by
    intro i
    rw [name_eq_init, hk.2 i i.2]
    constructor
    · exact fun h => h.1
    · intro h; rw [h]; exact ⟨rfl, hn⟩
  rw [hlab]
  refine ⟨hadd, ?_, by simp, ?_, ?_⟩
  · refine List.mem_map.2 ⟨S.states[k]'hk.1, List.getElem_mem hk.1, ?_⟩
    exact (hname ⟨k, hk.1⟩).trans ((hinit ⟨k, hk.1⟩).2 rfl)
  · intro s
    show (S.states.map (fun s => name s.labels))[s.val]? = some (name (labels S s))
    rw [List.getElem?_map, ← hname s]
    simp
  · intro s
    have hcard : (univ.filter (fun s : Fin S.states.length => name (labels S s) = "init")).card = 1 := by
      rw [Finset.card_eq_one]
      refine ⟨⟨k, hk.1⟩, ?_⟩
      ext s
      simp [hinit, Fin.ext_iff]
    rw [hcard]
    dsimp only
    simp only [hinit]
    simp

omit [LinearOrder K] [IsStrictOrderedRing K] [FloorRing K] in
theorem fromLabels_new {V : Type} {S : Sparse V} (hS : ∀ s ∈ S.states, s.labels.Nodup) {k : ℕ} (hk : OnlyInit S k) (hn : Named (labels S k)) :
    addInit S = some k ∧ "init" ∈ labelling S ∧ (labelling S).length = S.states.length + 1 ∧
    FromLabels (labelling S) (newLabels S) (fun s => if s = Fin.last _ then (1 : K) else 0) := by
  rcases shape hS hk with ⟨h, _⟩ | ⟨_, hadd, hlab⟩
  · exact absurd hn h
  have hname : ∀ i : Fin S.states.length, name S.states[i].labels = name (labels S i) := fun i => by rw [labels_eq S i.2]; rfl
  have hinit : ∀ i : Fin S.states.length, name (labels S i) ≠ "init" := by
    intro i h
    rw [name_eq_init, hk.2 i i.2] at h
    obtain ⟨h, h'⟩ := h
    rw [h] at h'
    exact h' hn
  have hlast : ∀ s, newLabels S s = "init" ↔ s = Fin.last _ := by
    intro s
    refine Fin.lastCases ?_ (fun i => ?_) s
    · simp [newLabels]
    · simp only [newLabels, Fin.lastCases_castSucc]
      refine ⟨fun h => absurd h (hinit i), fun h => absurd h (Fin.castSucc_ne_last i)⟩
  rw [hlab]
  refine ⟨hadd, by simp, by simp, ?_, ?_⟩
  · intro s
    show (S.states.map (fun s => name s.labels) ++ ["init"])[s.val]? = _
    refine Fin.lastCases ?_ (fun i => ?_) s
    · simp [newLabels]
    · simp only [newLabels, Fin.lastCases_castSucc, Fin.val_castSucc]
      have hi : i.val < (S.states.map (fun s => name s.labels)).length := by simp
      rw [List.getElem?_append_left hi, List.getElem?_map, ← hname i]
      simp
  · intro s
    have hcard : (univ.filter (fun s => newLabels S s = "init")).card = 1 := by
      rw [Finset.card_eq_one]
      refine ⟨Fin.last _, ?_⟩
      ext s
      simp [hlast]
    rw [hcard]
    simp only [hlast]
    simp

section
variable {W : Type} {z one : W} {N k : ℕ} {m : ℕ → ℕ → W}

theorem extend_old (k : Option ℕ) (i j : Fin N) : extend z one N k m i j = m i j := by
  simp only [extend, if_pos i.2, if_pos j.2]

theorem extend_col (k : Option ℕ) (i : Fin N) : extend z one N k m i N = z := by
  simp only [extend, if_pos i.2, lt_irrefl, if_false]

theorem extend_row (j : ℕ) : extend z one N (some k) m N j = if j = k then one else z := by
  simp only [extend, lt_irrefl, if_false, Option.some.injEq]

end

/-- C70, MCs. A sparse chain of Storm with one initial state is converted to a chain with the same trace probabilities, where each state is observed by its
labels; if the initial state has other labels than 'init', a new state 'init' comes before it. -/
theorem toMC_spec {S : Sparse K} (hS : Valid S) (h1 : OneAction S) {k : ℕ} (hk : OnlyInit S k)
    (hsum : ∀ i < S.states.length, ∑ j : Fin S.states.length, value S i 0 j = 1) : ∃ n, ∃ M : MC K String n, toMC S = .ok ⟨n, M⟩ ∧
      (Named (labels S k) → n = S.states.length + 1 ∧ ∀ w ≠ [], M.lik ("init" :: w) = prob S k w) ∧
      (¬ Named (labels S k) → n = S.states.length ∧ ∀ w, M.lik w = prob S k w) := by
  have hN : k < S.states.length := hk.1
  have hval : ∀ i j : Fin S.states.length, denseRow 0 (row S i) j = value S i 0 j := fun i j => (value_eq hS h1 i.2 j).symm
  by_cases hn : Named (labels S k)
  swap
  · obtain ⟨hadd, hin, hlen, hlab⟩ := fromLabels_old (K := K) hS.labels hk hn
    refine ⟨S.states.length, ⟨fun i j => value S i 0 j, fun i => name (labels S i), fun i => if i.val = k then 1 else 0⟩,
      toMC_of (size_none hadd) ?_, fun h => absurd h hn, fun _ => ⟨rfl, fun w => rfl⟩⟩
    rw [mkMC_ok_iff]
    refine ⟨hin, hlen, ?_, ?_, hlab⟩
    · intro i
      left
      simp only [extend_old, hval]
      rw [hsum i i.2]
      simp
    · funext i j
      rw [extend_old]
      exact (hval i j).symm
  · obtain ⟨hadd, hin, hlen, hlab⟩ := fromLabels_new (K := K) hS.labels hk hn
    let mat : Fin (S.states.length + 1) → Fin (S.states.length + 1) → K :=
      fun i j => extend 0 1 S.states.length (addInit S) (fun i => denseRow 0 (row S i)) i j
    have m1 : ∀ i j : Fin S.states.length, mat i.castSucc j.castSucc = value S i 0 j := fun i j => (extend_old _ i j).trans (hval i j)
    have m2 : ∀ i : Fin S.states.length, mat i.castSucc (Fin.last _) = 0 := fun i => extend_col _ i
    have m3 : ∀ j : Fin S.states.length, mat (Fin.last _) j.castSucc = if j.val = k then 1 else 0 := by
      intro j
      simp only [mat, hadd]
      exact extend_row j.val
    have m4 : mat (Fin.last _) (Fin.last _) = 0 := by
      simp only [mat, hadd]
      refine (extend_row S.states.length).trans (if_neg (by omega))
    refine ⟨S.states.length + 1, ⟨mat, newLabels S, fun s => if s = Fin.last _ then 1 else 0⟩,
      toMC_of (by unfold size; rw [hadd]; rfl) ?_, fun _ => ⟨rfl, fun w hw => ?_⟩, fun h => absurd hn h⟩
    · rw [mkMC_ok_iff]
      refine ⟨hin, hlen, ?_, rfl, hlab⟩
      intro i
      left
      show |∑ j, mat i j - 1| ≤ _
      rw [Fin.sum_univ_castSucc]
      refine Fin.lastCases ?_ (fun i => ?_) i
      · simp only [m3, m4]
        have : (∑ j : Fin S.states.length, if j.val = k then (1 : K) else 0) = 1 := by
          rw [Finset.sum_eq_single (⟨k, hN⟩ : Fin S.states.length)]
          · simp
          · intro j _ hj
            rw [if_neg (fun e => hj (Fin.ext e))]
          · simp
        rw [this]; simp
      · simp only [m1, m2]
        rw [hsum i i.2]; simp
    · cases w with
      | nil => exact absurd rfl hw
      | cons o w =>
        unfold MC.lik prob
        rw [listProb_eq_sufProb, listProb_eq_sufProb]
        have hsuf := sufProb_extend (a := fun s s' : Fin S.states.length => value S s 0 s')
          (b := fun s o => if name (labels S s) = o then 1 else 0) (a' := mat) (b' := fun s o => if newLabels S s = o then 1 else 0) m1 m2
          (fun i => by simp [newLabels]) (o :: w)
        rw [Fin.sum_univ_castSucc]
        simp only [Fin.castSucc_ne_last, if_false, zero_mul, Finset.sum_const_zero, zero_add, if_true, one_mul]
        simp only [sufProb]
        rw [Fin.sum_univ_castSucc, m4, zero_mul, add_zero]
        simp only [m3, hsuf]
        simp [newLabels]

/-- C70, CTMCs (read from a Prism file). The rates are those of Storm's model; the state 'init' that may be added is left with rate 1 to the initial state. -/
theorem toCTMC_spec {S : Sparse K} (hS : Valid S) (h1 : OneAction S) {k : ℕ} (hk : OnlyInit S k) (e : List (Option K)) :
    ∃ n, ∃ M : CTMC K String n, toCTMC ⟨S.states.map (fun s => ⟨s.labels, s.actions.map (fun r => r.map (fun q => (q.1, some q.2)))⟩), e, []⟩ true = .ok (some ⟨n, M⟩) ∧
      (Named (labels S k) → ∃ h : n = S.states.length + 1, (∀ s, M.labelling s = newLabels S (s.cast h)) ∧
        (∀ i j : Fin S.states.length, M.matrix (i.castSucc.cast h.symm) (j.castSucc.cast h.symm) = value S i 0 j ∧
          M.matrix (i.castSucc.cast h.symm) ((Fin.last _).cast h.symm) = 0 ∧
          M.matrix ((Fin.last _).cast h.symm) (j.castSucc.cast h.symm) = if j.val = k then 1 else 0) ∧
        ∀ s, M.initialState s = if s.cast h = Fin.last _ then 1 else 0) ∧
      (¬ Named (labels S k) → ∃ h : n = S.states.length, (∀ s, M.labelling s = name (labels S s)) ∧
        (∀ i j : Fin S.states.length, M.matrix (i.cast h.symm) (j.cast h.symm) = value S i 0 j) ∧ ∀ s, M.initialState s = if s.val = k then 1 else 0) := by
  set T : Sparse (Option K) := ⟨S.states.map (fun s => ⟨s.labels, s.actions.map (fun r => r.map (fun q => (q.1, some q.2)))⟩), e, []⟩ with hT
  have hN : k < S.states.length := hk.1
  have hTl : T.states.length = S.states.length := by simp [hT]
  have hlabels : ∀ i, labels T i = labels S i := by
    intro i
    simp only [labels, hT, List.getElem?_map, Option.map_map]
    rfl
  have hTS : ∀ s ∈ T.states, s.labels.Nodup := by
    intro s hs
    obtain ⟨s', hs', rfl⟩ := List.mem_map.1 hs
    exact hS.labels s' hs'
  have hkT : OnlyInit T k := ⟨by rw [hTl]; exact hN, fun i hi => by rw [hlabels]; exact hk.2 i (hTl ▸ hi)⟩
  have hval : ∀ i j : ℕ, i < S.states.length → rates T true i j = some (value S i 0 j) := by
    intro i j hi
    rw [value_eq hS h1 hi]
    have hr : row T i = (row S i).map (fun q => (q.1, some q.2)) := by
      simp only [row, hT, List.getElem?_map, List.getElem?_eq_getElem hi, Option.map_some, Option.getD_some]
      rw [List.map_flatten]
    have : ∀ l : List (ℕ × K), denseRow (some (0 : K)) (l.map (fun q => (q.1, some q.2))) j = some (denseRow 0 l j) := by
      intro l
      induction l using List.reverseRecOn with
      | nil => rfl
      | append_singleton l q ih =>
        rw [List.map_append, List.map_singleton, denseRow_append, denseRow_append, ih]
        split_ifs <;> rfl
    unfold rates
    rw [if_pos rfl, hr, this]
  have hsome : ∀ i < T.states.length, ∀ j < T.states.length, (rates T true i j).isSome := by
    intro i hi j _
    rw [hval i j (hTl ▸ hi)]
    rfl
  have hne : (labelling T = labelling S ∧ addInit T = addInit S) := by
    constructor
    · unfold labelling
      simp only [hT, List.map_map, List.filter_map]
      rfl
    · unfold addInit
      simp only [hT, List.zipIdx_map, List.filter_map]
      rw [List.getLast?_map, Option.map_map]
      rfl
  by_cases hn : Named (labels S k)
  · obtain ⟨hadd, hin, hlen, hlab⟩ := fromLabels_new (K := K) hS.labels hk hn
    refine ⟨S.states.length + 1, ⟨fun i j => (extend (some 0) (some 1) T.states.length (addInit T) (rates T true) i j).getD 0, newLabels S,
      fun s => if s = Fin.last _ then 1 else 0⟩, toCTMC_of (by unfold size; rw [hne.2, hadd, hTl]; rfl) hsome ?_, fun _ => ⟨rfl, fun _ => rfl, ?_, fun _ => rfl⟩,
      fun h => absurd hn h⟩
    · rw [mkCTMC_ok_iff, hne.1]
      exact ⟨hin, hlen, rfl, hlab⟩
    · intro i j
      dsimp only
      rw [hTl, hne.2, hadd]
      refine ⟨?_, ?_, ?_⟩
      · refine (congrArg (Option.getD · 0) (extend_old (some k) i j)).trans ?_
        rw [hval i j i.2]; rfl
      · exact congrArg (Option.getD · 0) (extend_col (some k) i)
      · refine (congrArg (Option.getD · 0) (extend_row j.val)).trans ?_
        split_ifs <;> rfl
  · obtain ⟨hadd, hin, hlen, hlab⟩ := fromLabels_old (K := K) hS.labels hk hn
    refine ⟨S.states.length, ⟨fun i j => (extend (some 0) (some 1) T.states.length (addInit T) (rates T true) i j).getD 0, fun i => name (labels S i),
      fun s => if s.val = k then 1 else 0⟩, toCTMC_of (by unfold size; rw [hne.2, hadd, hTl]; rfl) hsome ?_, fun h => absurd h hn,
      fun _ => ⟨rfl, fun _ => rfl, ?_, fun _ => rfl⟩⟩
    · rw [mkCTMC_ok_iff, hne.1]
      exact ⟨hin, hlen, rfl, hlab⟩
    · intro i j
      dsimp only
      rw [hTl]
      refine (congrArg (Option.getD · 0) (extend_old (addInit T) i j)).trans ?_
      rw [hval i j i.2]; rfl

/-- C70 fails: a model with two initial states that have other labels cannot be converted: there are more labels than states. -/
theorem two_initial_states {S : Sparse K} {i j : ℕ} (hij : i < j) (hj : j < S.states.length) (hS : ∀ s ∈ S.states, s.labels.Nodup)
    (h1 : "init" ∈ labels S i) (h2 : Named (labels S i)) (h3 : "init" ∈ labels S j) (h4 : Named (labels S j)) : toMC S = .error .valueError := by
  have hf : ∀ x (h : x < S.states.length), "init" ∈ labels S x → Named (labels S x) → (labelOf S.states[x].labels).2 = true := by
    intro x h a b
    rw [labels_eq S h] at a b
    exact (labelOf_eq (hS _ (List.getElem_mem h))).2.2 ⟨a, b⟩
  have hlen : size S < (labelling S).length := by
    unfold labelling
    have h2 : 2 ≤ (S.states.filter (fun s => (labelOf s.labels).2)).length := by
      have hsub : [S.states[i], S.states[j]].Sublist S.states := by
        have e : [S.states[i], S.states[j]] = [(⟨i, by omega⟩ : Fin S.states.length), ⟨j, hj⟩].map (fun x => S.states[x]) := rfl
        rw [e, List.sublist_iff_exists_fin_orderEmbedding_get_eq]
        refine ⟨OrderEmbedding.ofStrictMono (fun x => if x.val = 0 then ⟨i, by omega⟩ else ⟨j, hj⟩) ?_, ?_⟩
        · intro x y hxy
          have hx := x.2; have hy := y.2
          simp only [List.length_map, List.length_cons, List.length_nil] at hx hy
          have e1 : x.val = 0 := by have := Fin.lt_def.1 hxy; omega
          have e2 : y.val ≠ 0 := by have := Fin.lt_def.1 hxy; omega
          simp only [e1, e2, if_true, if_false]
          exact Fin.lt_def.2 hij
        · intro x
          have hx := x.2
          simp only [List.length_map, List.length_cons, List.length_nil] at hx
          rcases Nat.lt_or_ge x.val 1 with h | h
          · have e : x.val = 0 := by omega
            simp [OrderEmbedding.ofStrictMono, e]
          · have e : x.val = 1 := by omega
            simp [OrderEmbedding.ofStrictMono, e]
      have := (hsub.filter (fun s => (labelOf s.labels).2)).length_le
      rw [List.filter_cons_of_pos (by exact hf i (by omega) h1 h2), List.filter_cons_of_pos (by exact hf j hj h3 h4)] at this
      simpa using this
    unfold size
    rw [List.length_append, List.length_map, List.length_map]
    split_ifs <;> omega
  unfold toMC
  rw [mkMC_raises _ _ (fun h => by omega)]
  rfl

end
end Jajapy.Storm
