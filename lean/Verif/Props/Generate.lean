import Verif.Model.Generate
import Verif.Lemmas.TSet
import Verif.Props.Simulation

/-!
Property C23: `generateSet`.
-/

set_option linter.unusedSectionVars false

namespace Jajapy

variable {O : Type} [DecidableEq O]

theorem recordTraceMDP_eq (acc : List (List O) × List ℕ) (h : acc.2.length = acc.1.length) (tr : List O) :
    recordTraceMDP acc tr = recordTrace acc tr := by
  unfold recordTraceMDP recordTrace
  by_cases hm : tr ∉ acc.1
  · simp only [hm, not_false_eq_true, if_true]
    congr 1
    rw [List.idxOf_append_of_notMem hm]
    simp only [List.idxOf_cons_self, Nat.add_zero, ← h]
    generalize acc.2 = l
    induction l with
    | nil => rfl
    | cons x l ih => simp [List.modify_succ_cons, ih]
  · simp [hm]

theorem recordTrace_spec (acc : List (List O) × List ℕ) (h : acc.2.length = acc.1.length) (hn : acc.1.Nodup) (tr : List O) :
    (recordTrace acc tr).2.length = (recordTrace acc tr).1.length ∧ (recordTrace acc tr).1.Nodup ∧
    (∀ w, w ∈ (recordTrace acc tr).1 ↔ w ∈ acc.1 ∨ w = tr) ∧
    ∀ w, TSet.multL (recordTrace acc tr).1 (recordTrace acc tr).2 w = TSet.multL acc.1 acc.2 w + if tr = w then 1 else 0 := by
  unfold recordTrace
  by_cases hm : tr ∉ acc.1
  · simp only [hm, not_false_eq_true, if_true]
    refine ⟨by simp [h], ?_, by simp, ?_⟩
    · rw [List.nodup_append]
      refine ⟨hn, by simp, ?_⟩
      intro a ha b hb
      simp only [List.mem_singleton] at hb
      subst hb
      exact fun h => hm (h ▸ ha)
    · intro w
      rw [TSet.multL_append _ _ _ _ h, TSet.multL_cons, TSet.multL_nil]
      simp
  · simp only [hm, if_false]
    push Not at hm
    refine ⟨by simp [h], hn, ?_, ?_⟩
    · intro w
      constructor
      · exact Or.inl
      · rintro (h | rfl)
        · exact h
        · exact hm
    · intro w
      exact TSet.multL_modify _ _ h _ hm 1 w

/-- The loop, when every size and every run is defined. -/
theorem generateLoop_spec (sim : ℕ → ℕ → Py (List O)) (size : ℕ → Py ℕ) (sz : ℕ → ℕ) (tr : ℕ → List O) (k i : ℕ)
    (hsz : ∀ j < i + k, size j = .ok (sz j)) (hsim : ∀ j < i + k, sim j (sz j) = .ok (tr j))
    (acc : List (List O) × List ℕ) (h : acc.2.length = acc.1.length) (hn : acc.1.Nodup) :
    ∃ r, generateLoop sim size recordTrace k i acc = .ok r ∧ generateLoop sim size recordTraceMDP k i acc = .ok r ∧
      r.2.length = r.1.length ∧ r.1.Nodup ∧
      (∀ w, w ∈ r.1 ↔ w ∈ acc.1 ∨ ∃ j, i ≤ j ∧ j < i + k ∧ tr j = w) ∧
      ∀ w, TSet.multL r.1 r.2 w = TSet.multL acc.1 acc.2 w + ((List.range' i k).map tr).count w := by
  induction k generalizing i acc with
  | zero => exact ⟨acc, rfl, rfl, h, hn, by intro w; constructor; exact Or.inl; rintro (h | ⟨j, h1, h2, _⟩); exact h; omega, by simp⟩
  | succ k ih =>
    obtain ⟨s1, s2, s3, s4⟩ := recordTrace_spec acc h hn (tr i)
    obtain ⟨r, r1, r1', r2, r3, r4, r5⟩ := ih (i+1) (fun j hj => hsz j (by omega)) (fun j hj => hsim j (by omega)) _ s1 s2
    have e1 := hsz i (by omega)
    have e2 := hsim i (by omega)
    refine ⟨r, ?_, ?_, r2, r3, ?_, ?_⟩
    · simp only [generateLoop, e1, bind, Except.bind, e2]
      exact r1
    · simp only [generateLoop, e1, bind, Except.bind, e2]
      rw [recordTraceMDP_eq _ h]
      exact r1'
    · intro w
      rw [r4, s3]
      constructor
      · rintro ((h | rfl) | ⟨j, h1, h2, h3⟩)
        · exact Or.inl h
        · exact Or.inr ⟨i, le_rfl, by omega, rfl⟩
        · exact Or.inr ⟨j, by omega, by omega, h3⟩
      · rintro (h | ⟨j, h1, h2, h3⟩)
        · exact Or.inl (Or.inl h)
        · by_cases hj : j = i
          · subst hj; exact Or.inl (Or.inr h3.symm)
          · exact Or.inr ⟨j, by omega, by omega, h3⟩
    · intro w
      rw [r5, s4, List.range'_succ, List.map_cons, List.count_cons]
      simp only [beq_iff_eq]
      omega

/-- The sizes asked to the simulator are the requested ones (a constant, the given list, or `min_size` plus the
geometric draw). -/
theorem currSize_spec (minSize : Option ℕ) (param : SizeParam) (geom : ℕ → ℕ) (i : ℕ) :
    (∀ k, currSize false minSize (.int k) geom i = .ok k) ∧
    (∀ l (h : i < l.length), currSize false minSize (.list l) geom i = .ok l[i]) ∧
    (∀ l, l.length ≤ i → currSize false minSize (.list l) geom i = .error .indexError) ∧
    currSize false minSize .other geom i = .error .unboundLocalError ∧
    (∀ m, currSize true (some m) param geom i = .ok (m + geom i)) ∧
    currSize true none param geom i = .error .typeError := by
  refine ⟨fun _ => rfl, fun l h => ?_, fun l h => ?_, rfl, fun _ => rfl, rfl⟩
  · simp [currSize, List.getElem?_eq_getElem h]
  · simp [currSize, List.getElem?_eq_none h]

/-- C23: the set returned by `generateSet(set_size, …)` counts exactly the `set_size` simulated traces: each trace is
stored once, with the number of runs that returned it, so the multiplicities sum to `set_size`. -/
theorem generateSet_spec (kind : O → Kind) (sim : ℕ → ℕ → Py (List O)) (setSize : ℕ) (geo : Bool) (minSize : Option ℕ)
    (param : SizeParam) (geom : ℕ → ℕ) (sz : ℕ → ℕ) (tr : ℕ → List O)
    (hsz : ∀ j < setSize, currSize geo minSize param geom j = .ok (sz j))
    (hsim : ∀ j < setSize, sim j (sz j) = .ok (tr j)) (hlen : ∀ j < setSize, 2 ≤ (tr j).length) :
    ∃ S, generateSet kind sim setSize geo minSize param geom = .ok S ∧ S.Countable ∧ S.times.sum = setSize ∧
      (∀ w, w ∈ S.sequences ↔ ∃ j < setSize, tr j = w) ∧
      ∀ w, S.mult w = ((List.range setSize).map tr).count w := by
  obtain ⟨r, r1, -, r2, r3, r4, r5⟩ := generateLoop_spec sim (currSize geo minSize param geom) sz tr setSize 0
    (fun j hj => hsz j (by omega)) (fun j hj => hsim j (by omega)) ([], []) rfl (by simp)
  simp only [List.not_mem_nil, false_or, zero_le, true_and, zero_add, TSet.multL_nil, ← List.range_eq_range'] at r4 r5
  have hmem : ∀ w ∈ r.1, 1 ≤ TSet.multL r.1 r.2 w := by
    intro w hw
    rw [r5]
    obtain ⟨j, hj, rfl⟩ := (r4 w).1 hw
    exact List.count_pos_iff.2 (List.mem_map.2 ⟨j, by simpa using hj, rfl⟩)
  have hpos : ∀ t ∈ r.2, 1 ≤ t := by
    intro t ht
    rw [TSet.times_eq_map _ _ r2 r3] at ht
    obtain ⟨w, hw, rfl⟩ := List.mem_map.1 ht
    exact hmem w hw
  have hsum : r.2.sum = setSize := by
    rw [TSet.sum_multL _ _ r2 r3]
    have e : TSet.multL r.1 r.2 = fun w => ((List.range setSize).map tr).count w := funext r5
    rw [e, TSet.sum_count_map ((List.range setSize).map tr) r.1 r3 (by intro w; rw [r4]; simp)]
    simp
  have hfirst : ∀ s0 rest, r.1 = s0 :: rest → ∃ ty, TSet.inferType kind s0 = .ok ty := by
    intro s0 rest h
    obtain ⟨j, hj, hj'⟩ := (r4 s0).1 (by rw [h]; simp)
    have := hlen j hj
    rw [hj'] at this
    rcases s0 with _ | ⟨x, _ | ⟨y, s⟩⟩
    · simp at this
    · simp at this
    · simp only [TSet.inferType]
      split_ifs
      exacts [⟨4, rfl⟩, ⟨3, rfl⟩, ⟨0, rfl⟩]
  have key : ∃ S : TSet O, TSet.mk' kind r.1 (some r.2) none = .ok S ∧ S.sequences = r.1 ∧ S.times = r.2 ∧ S.floatTimes = false := by
    cases h : r.1 with
    | nil =>
      refine ⟨_, rfl, rfl, ?_, rfl⟩
      have := r2
      rw [h] at this
      exact (List.length_eq_zero_iff.1 this).symm
    | cons s0 rest =>
      obtain ⟨ty, hty⟩ := hfirst s0 rest h
      refine ⟨⟨s0 :: rest, r.2, false, some ty⟩, ?_, rfl, rfl, rfl⟩
      simp only [TSet.mk', hty, bind, Except.bind, pure, Except.pure]
  obtain ⟨S, h1, h2, h3, h4⟩ := key
  refine ⟨S, ?_, ⟨⟨by rw [h2, h3, r2], by rw [h2]; exact r3⟩, by rw [h3]; exact hpos, h4⟩, by rw [h3, hsum], by rw [h2]; exact r4, ?_⟩
  · simp only [generateSet, r1, bind, Except.bind]
    exact h1
  · intro w
    rw [TSet.mult_eq, h2, h3, r5]

/-- C23 for MDPs: the same, for traces of any length, and the set has the type of the MDP traces. -/
theorem generateSetMDP_spec (kind : O → Kind) (sim : ℕ → ℕ → Py (List O)) (setSize : ℕ) (geo : Bool) (minSize : Option ℕ)
    (param : SizeParam) (geom : ℕ → ℕ) (sz : ℕ → ℕ) (tr : ℕ → List O)
    (hsz : ∀ j < setSize, currSize geo minSize param geom j = .ok (sz j))
    (hsim : ∀ j < setSize, sim j (sz j) = .ok (tr j)) :
    ∃ S, generateSetMDP kind sim setSize geo minSize param geom = .ok S ∧ S.Countable ∧ S.type = some 1 ∧
      S.times.sum = setSize ∧ (∀ w, w ∈ S.sequences ↔ ∃ j < setSize, tr j = w) ∧
      ∀ w, S.mult w = ((List.range setSize).map tr).count w := by
  obtain ⟨r, -, r1, r2, r3, r4, r5⟩ := generateLoop_spec sim (currSize geo minSize param geom) sz tr setSize 0
    (fun j hj => hsz j (by omega)) (fun j hj => hsim j (by omega)) ([], []) rfl (by simp)
  simp only [List.not_mem_nil, false_or, zero_le, true_and, zero_add, TSet.multL_nil, ← List.range_eq_range'] at r4 r5
  have hpos : ∀ t ∈ r.2, 1 ≤ t := by
    intro t ht
    rw [TSet.times_eq_map _ _ r2 r3] at ht
    obtain ⟨w, hw, rfl⟩ := List.mem_map.1 ht
    rw [r5]
    obtain ⟨j, hj, rfl⟩ := (r4 w).1 hw
    exact List.count_pos_iff.2 (List.mem_map.2 ⟨j, by simpa using hj, rfl⟩)
  have hsum : r.2.sum = setSize := by
    rw [TSet.sum_multL _ _ r2 r3]
    have e : TSet.multL r.1 r.2 = fun w => ((List.range setSize).map tr).count w := funext r5
    rw [e, TSet.sum_count_map ((List.range setSize).map tr) r.1 r3 (by intro w; rw [r4]; simp)]
    simp
  have key : ∃ S : TSet O, TSet.mk' kind r.1 (some r.2) (some 1) = .ok S ∧ S.sequences = r.1 ∧ S.times = r.2 ∧
      S.floatTimes = false ∧ S.type = some 1 := by
    cases h : r.1 with
    | nil =>
      refine ⟨_, rfl, rfl, ?_, rfl, rfl⟩
      have := r2
      rw [h] at this
      exact (List.length_eq_zero_iff.1 this).symm
    | cons s0 rest => exact ⟨⟨s0 :: rest, r.2, false, some 1⟩, rfl, rfl, rfl, rfl, rfl⟩
  obtain ⟨S, h1, h2, h3, h4, h5⟩ := key
  refine ⟨S, ?_, ⟨⟨by rw [h2, h3, r2], by rw [h2]; exact r3⟩, by rw [h3]; exact hpos, h4⟩, h5, by rw [h3, hsum], by rw [h2]; exact r4, ?_⟩
  · simp only [generateSetMDP, r1, bind, Except.bind]
    exact h1
  · intro w
    rw [TSet.mult_eq, h2, h3, r5]

/-- Hypotheses met: 5 runs of the example chain, of the lengths given by a list. -/
example : ∃ (sz : ℕ → ℕ) (tr : ℕ → List ℕ),
    (∀ j < 5, currSize false none (.list [1, 2, 3, 2, 1]) (fun _ => 1) j = .ok (sz j)) ∧
    (∀ j < 5, (exMC ℚ).run (sz j) (fun k => if k = j then 3/4 else 1/4) = .ok (tr j)) ∧ ∀ j < 5, 2 ≤ (tr j).length :=
  ⟨fun j => [1, 2, 3, 2, 1].getD j 0, fun j => [[2, 0], [2, 0, 0], [2, 0, 1, 0], [2, 0, 0], [2, 0]].getD j [], by
    decide +kernel⟩

/-- C23 needs traces of two symbols: with runs of 0 steps the constructor of the set raises IndexError. -/
theorem generateSet_zero_steps (kind : ℕ → Kind) (setSize : ℕ) (h : 0 < setSize) :
    generateSet kind (fun _ k => (exMC ℚ).run k (fun _ => 1/4)) setSize false none (.int 0) (fun _ => 1)
      = .error .indexError := by
  have hrun : (exMC ℚ).run 0 (fun _ => 1/4) = .ok [2] := by decide +kernel
  obtain ⟨r, r1, -, r2, r3, r4, -⟩ := generateLoop_spec (fun _ k => (exMC ℚ).run k (fun _ => 1/4))
    (currSize false none (.int 0) (fun _ => 1)) (fun _ => 0) (fun _ => [2]) setSize 0 (fun _ _ => rfl) (fun _ _ => hrun)
    ([], []) rfl (by simp)
  simp only [generateSet, r1, bind, Except.bind]
  cases hr : r.1 with
  | nil => exact absurd ((r4 [2]).2 (Or.inr ⟨0, le_rfl, by omega, rfl⟩)) (by rw [hr]; simp)
  | cons s0 rest =>
    have : s0 = [2] := by
      rcases (r4 s0).1 (by rw [hr]; simp) with h | ⟨_, _, _, h⟩
      · simp at h
      · exact h.symm
    subst this
    rfl

end Jajapy
