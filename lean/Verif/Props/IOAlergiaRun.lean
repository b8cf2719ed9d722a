import Verif.Model.IOAlergiaRun
import Verif.Props.IOAlergia

/-!
Property C89: what `runSeq` says.
-/

namespace Jajapy.IOAlergia

open Auto Spec.IOAlergia

variable {S : TSet String} {bound : ℕ → ℕ → ℕ → ℕ → Py Bool}

theorem runFrom_reads {A : Auto} (W : A.WF) : ∀ (w : List (String × String)) (x : ℕ), ∃ v, A.runFrom x (w.flatMap (fun k => [k.1, k.2])) = .ok v ∧
    (v = true ↔ ∃ z, Reads A x w z)
  | [], x => ⟨true, rfl, by simp [Reads]⟩
  | (a, o) :: w, x => by
    have hs : ((A.node x).succAction a).find? (fun i => (A.node i).obs = o) = (A.look x (a, o)).map (·.2) := by
      rw [← successor_eq]
      unfold Auto.successor Node.succAction
      split_ifs <;> simp
    change ∃ v, (match ((A.node x).succAction a).find? (fun i => (A.node i).obs = o) with
      | some s' => runFrom A s' (w.flatMap (fun k : String × String => [k.1, k.2])) | none => .ok false) = .ok v ∧ _
    rw [hs]
    rcases hl : A.look x (a, o) with _ | ⟨c, y⟩
    · refine ⟨false, rfl, ?_⟩
      simp only [Bool.false_eq_true, false_iff]
      rintro ⟨z, c, y, h, -⟩
      rw [(arc_iff W).1 h] at hl
      cases hl
    · obtain ⟨v, hv, h⟩ := runFrom_reads W w y
      refine ⟨v, hv, h.trans ⟨fun ⟨z, hz⟩ => ⟨z, c, y, (arc_iff W).2 hl, hz⟩, ?_⟩⟩
      rintro ⟨z, c', y', h', hz⟩
      rw [arc_iff W, hl] at h'
      cases h'
      exact ⟨z, hz⟩

theorem runInitial_reads {A : Auto} (W : A.WF) (w : List (String × String)) : ∀ l : List ℕ, ∃ v,
    A.runInitial (w.flatMap (fun k => [k.1, k.2])) l = .ok v ∧ (v = true ↔ ∃ x ∈ l, ∃ z, Reads A x w z)
  | [] => ⟨false, rfl, by simp⟩
  | x :: l => by
    obtain ⟨v, hv, h⟩ := runFrom_reads W w x
    obtain ⟨u, hu, h'⟩ := runInitial_reads W w l
    rw [runInitial, hv]
    cases v with
    | true => exact ⟨true, rfl, by simp [h.1 rfl]⟩
    | false =>
      refine ⟨u, hu, ?_⟩
      rw [h', List.exists_mem_cons_iff]
      have : ¬ ∃ z, Reads A x w z := fun hc => by simpa using h.2 hc
      simp [this]

/-- C89. At any moment of the learning, `runSeq` returns, for a sequence of actions and observations, whether it leads from an initial state through
transitions of the automaton. -/
theorem runSeq_reads (hS : Training S) (hb : ∀ a b c d, ∃ v, bound a b c d = .ok v) {A0 A : Auto} {red blue : List ℕ} (h0 : IsTree S A0)
    (hv : Visited bound A0 A red blue) (w : List (String × String)) : ∃ v, A.runSeq (w.flatMap (fun k => [k.1, k.2])) = .ok v ∧
    (v = true ↔ ∃ x ∈ A.initial, ∃ z, Reads A x w z) := by
  obtain ⟨D, I⟩ := (isTree_known hS hb h0 hv).inv
  exact runInitial_reads I.wf w A.initial

/-- C89. On the prefix tree, `runSeq` returns True exactly for what follows the first observation in a prefix of a training trace. -/
theorem runSeq_tree (hS : Training S) {A : Auto} (h0 : IsTree S A) (w : List (String × String)) :
    A.runSeq (w.flatMap (fun k => [k.1, k.2])) = .ok true ↔ ∃ o, ∃ t ∈ S.sequences, trace o w <+: t := by
  obtain ⟨v, hv, h⟩ := runInitial_reads (isTree_inv hS h0).wf w A.initial
  unfold Auto.runSeq
  rw [hv]
  have e : (Except.ok v : Py Bool) = .ok true ↔ v = true := by simp
  rw [e, h]
  obtain ⟨h1, -, h3, h4⟩ := tree_states hS h0
  have hr : ∀ x < A.size, ∀ z, Reads A x w z ↔ z < A.size ∧ (A.node z).label = (A.node x).label ++ w.flatMap (fun k => [k.1, k.2]) := by
    intro x hx z
    obtain ⟨acts, obs, e, rfl⟩ := h0
    rw [build_size] at hx ⊢
    rw [tree_run (training_good hS e).1 w hx, (build_label _ _ _ hx).1]
    exact and_congr_right (fun hz => by rw [(build_label _ _ _ hz).1])
  constructor
  · rintro ⟨x, hx, z, hz⟩
    obtain ⟨hx, hl⟩ := (h4 x).1 hx
    obtain ⟨hz, e⟩ := (hr x hx z).1 hz
    obtain ⟨o, ho⟩ := List.length_eq_one_iff.1 hl
    obtain ⟨-, ⟨t, ht, hp⟩, -⟩ := h1 z hz
    refine ⟨o, t, ht, ?_⟩
    rw [trace_eq, ← ho, ← e]
    exact hp
  · rintro ⟨o, t, ht, hp⟩
    have hodd : (trace o w).length % 2 = 1 := by
      rw [trace_eq]
      clear * -
      induction w with
      | nil => simp
      | cons k w ih => simp only [List.flatMap_cons, List.length_append, List.length_cons, List.length_nil] at ih ⊢; omega
    obtain ⟨z, hz, ez⟩ := h3 _ hodd ⟨t, ht, hp⟩
    obtain ⟨x, hx, ex⟩ := h3 [o] rfl ⟨t, ht, (by rw [trace_eq]; exact List.prefix_append _ _ : [o] <+: trace o w).trans hp⟩
    exact ⟨x, (h4 x).2 ⟨hx, by rw [ex]; rfl⟩, z, (hr x hx z).2 ⟨hz, by rw [ez, ex, trace_eq]⟩⟩

/-- C89. Merging states never loses a sequence: what `runSeq` accepts on the tree it accepts at any moment of the learning, in particular at its end. -/
theorem runSeq_kept (hS : Training S) (hb : ∀ a b c d, ∃ v, bound a b c d = .ok v) {A0 A : Auto} {red blue : List ℕ} (h0 : IsTree S A0)
    (hv : Visited bound A0 A red blue) (w : List (String × String)) (h : A0.runSeq (w.flatMap (fun k => [k.1, k.2])) = .ok true) :
    A.runSeq (w.flatMap (fun k => [k.1, k.2])) = .ok true := by
  have hk := isTree_known hS hb h0 hv
  obtain ⟨v, e, hx⟩ := runSeq_reads hS hb h0 Visited.start w
  rw [e] at h
  cases h
  obtain ⟨x, hx, z, hz⟩ := hx.1 rfl
  obtain ⟨u, e', hu⟩ := runSeq_reads hS hb h0 hv w
  obtain ⟨z', hz'⟩ := hk.reads x (Or.inr hx) w z ((reads_iff (isTree_inv hS h0).wf w).1 hz)
  obtain ⟨D, I⟩ := hk.inv
  rw [e', hu.2 ⟨x, hk.same.initial ▸ hx, z', (reads_iff I.wf w).2 hz'⟩]

/-- C89. A sequence that ends with an action is never accepted: the answer is False or an IndexError. -/
theorem runSeq_odd (A : Auto) (seq : List String) (h : seq.length % 2 = 1) : A.runSeq seq = .ok false ∨ A.runSeq seq = .error .indexError := by
  have h1 : ∀ (n : ℕ) (seq : List String) (x : ℕ), seq.length = 2 * n + 1 → A.runFrom x seq = .ok false ∨ A.runFrom x seq = .error .indexError := by
    intro n
    induction n with
    | zero =>
      intro seq x hl
      obtain ⟨a, rfl⟩ := List.length_eq_one_iff.1 hl
      rw [runFrom]
      split <;> simp
    | succ n ih =>
      intro seq x hl
      match seq, hl with
      | [a], hl => simp at hl
      | a :: o :: rest, hl =>
        rw [runFrom]
        split
        · exact ih rest _ (by simp at hl; omega)
        · exact Or.inl rfl
  have h2 : ∀ l : List ℕ, A.runInitial seq l = .ok false ∨ A.runInitial seq l = .error .indexError := by
    intro l
    induction l with
    | nil => exact Or.inl rfl
    | cons x l ih =>
      rw [runInitial]
      rcases h1 (seq.length / 2) seq x (by omega) with e | e
      · rw [e]; exact ih
      · rw [e]; exact Or.inr rfl
  exact h2 A.initial

/-! ### The hypotheses can be met; what does not hold -/

/-- The traces of a training set start with an observation: they are themselves never accepted. -/
theorem runSeq_training (hS : Training S) (A : Auto) : ∀ t ∈ S.sequences, A.runSeq t ≠ .ok true := by
  intro t ht h
  rcases runSeq_odd A t (hS.odd t ht) with e | e <;> rw [e] at h <;> cases h

/-- The tree of two traces: 'b' then 'y' can be read, 'a' then 'x' cannot, and a last action without observation raises. -/
example : ∃ A0, IsTree sampleActions A0 ∧ A0.runSeq ["b", "y", "b", "y"] = .ok true ∧ A0.runSeq ["a", "x"] = .ok false ∧
    A0.runSeq ["b", "y", "b"] = .error .indexError ∧ A0.runSeq ["b", "y", "a"] = .ok false := by
  refine ⟨_, ⟨["a", "b"], ["x", "y"], by decide +kernel, rfl⟩, by decide +kernel, by decide +kernel, by decide +kernel, by decide +kernel⟩

/-- After the learning more can be read than in the tree: the states 'x' have become one. -/
example : ∃ A0 A red, IsTree sampleCounts A0 ∧ mergeStates (compatTest half) A0 = .ok (some (A, red)) ∧
    A0.runSeq ["a", "x", "a", "x", "a", "x"] = .ok false ∧ A.runSeq ["a", "x", "a", "x", "a", "x"] = .ok true := by
  obtain ⟨A0, h0⟩ : ∃ A0, A0 = build (sampleCounts.sequences.zip sampleCounts.times)
    (["x", "y"].insertionSort (· ≤ ·)) (["a"].insertionSort (· ≤ ·)) := ⟨_, rfl⟩
  have hm : (match mergeStates (compatTest half) A0 with
      | .ok (some (A, _)) => decide (A.runSeq ["a", "x", "a", "x", "a", "x"] = .ok true) | _ => false) = true := by
    subst h0; decide +kernel
  rcases hr : mergeStates (compatTest half) A0 with _ | _ | ⟨A, red⟩
  · rw [hr] at hm; cases hm
  · rw [hr] at hm; cases hm
  · rw [hr] at hm
    refine ⟨A0, A, red, ⟨["a"], ["x", "y"], by decide +kernel, h0⟩, hr, by subst h0; decide +kernel, by simpa using hm⟩

end Jajapy.IOAlergia
