import Verif.Lemmas.IOAlergiaMerge

/-!
The loop of `fit`: its invariant, and its end.
-/

namespace Jajapy.IOAlergia

open Relation Auto

/-- The red states and the initial ones. -/
def Roots (A : Auto) (red : List ℕ) : Set ℕ := {x | x ∈ red ∨ x ∈ A.initial}

/-- The invariant of the loop; `D` is the set of the states that have been merged. -/
structure Inv (A : Auto) (red blue : List ℕ) (D : Set ℕ) : Prop where
  wf : A.WF
  forest : Forest A.look (Roots A red) D
  dead : ∀ x ∈ D, x < A.size
  redLt : ∀ x ∈ red, x < A.size
  redNodup : red.Nodup
  blueNodup : blue.Nodup
  blueIn : ∀ b ∈ blue, b ∉ Roots A red ∧ b < A.size ∧ ∃ x ∈ Roots A red, Edge A.look x b
  noIn : ∀ i ∈ A.initial, i ∉ red → ∀ x, x ∉ D → ¬ Edge A.look x i
  closed : ∀ r ∈ red, ∀ y, Edge A.look r y → y ∈ red ∨ y ∈ blue

theorem mem_successors {A : Auto} (W : A.WF) {x y : ℕ} : y ∈ (A.node x).successors ↔ Edge A.look x y := by
  unfold Node.successors Edge
  rw [List.mem_insertionSort, List.mem_dedup, List.mem_flatMap]
  constructor
  · rintro ⟨a, ha, hy⟩
    obtain ⟨q, hq, rfl⟩ := List.mem_map.1 hy
    exact ⟨(a, (A.node q.2).obs), q.1, (look_iff W).2 ⟨ha, hq, rfl⟩⟩
  · rintro ⟨⟨a, o⟩, c, e⟩
    obtain ⟨h1, h2, _⟩ := (look_iff W).1 e
    exact ⟨a, h1, List.mem_map.2 ⟨_, h2, rfl⟩⟩

theorem mem_nextBlue {A : Auto} (W : A.WF) {red blue : List ℕ} {b c : ℕ} :
    c ∈ nextBlue A red (b :: blue) b ↔ c ∈ blue ∨ (c ∉ red ∧ ∃ r ∈ red, Edge A.look r c) := by
  unfold nextBlue
  rw [List.mem_insertionSort, List.mem_dedup, List.erase_cons_head, List.mem_append, List.mem_flatMap]
  simp only [List.mem_filter, mem_successors W, decide_eq_true_eq]
  constructor
  · rintro (h | ⟨r, hr, e, hn⟩)
    · exact Or.inl h
    · exact Or.inr ⟨hn, r, hr, e⟩
  · rintro (h | ⟨hn, r, hr, e⟩)
    · exact Or.inl h
    · exact Or.inr ⟨r, hr, e, hn⟩

theorem nextBlue_nodup (A : Auto) (red blue : List ℕ) (b : ℕ) : (nextBlue A red blue b).Nodup := by
  unfold nextBlue
  exact (List.perm_insertionSort _ _).nodup_iff.2 (List.nodup_dedup _)

section
variable {A : Auto} {red blue : List ℕ} {D : Set ℕ} {b : ℕ}

theorem Inv.blue_live (I : Inv A red blue D) (hb : b ∈ blue) : b ∉ D := by
  obtain ⟨_, _, x, _, e⟩ := I.blueIn b hb
  exact I.forest.noDead e

theorem Inv.blue_preds (I : Inv A red blue D) (hb : b ∈ blue) : ∀ x, x ∉ D → Edge A.look x b → x ∈ Roots A red := by
  rintro x hx ⟨k, c, e⟩
  obtain ⟨hR, _, y, hy, k', c', e'⟩ := I.blueIn b hb
  rw [(I.forest.uniq hx (I.forest.red y hy) hR e e').1]
  exact hy

/-- A state is made red. -/
theorem Inv.promote (I : Inv A red (b :: blue) D) : Inv A (red ++ [b]) (nextBlue A (red ++ [b]) (b :: blue) b) D := by
  obtain ⟨hbR, hbs, _⟩ := I.blueIn b List.mem_cons_self
  have hbD := I.blue_live (b := b) List.mem_cons_self
  have hpred := I.blue_preds (b := b) List.mem_cons_self
  have hbn := List.nodup_cons.1 I.blueNodup
  have hR : ∀ x, x ∈ Roots A (red ++ [b]) ↔ x ∈ Roots A red ∨ x = b := by
    intro x
    simp only [Roots, Set.mem_ofPred_eq, List.mem_append, List.mem_singleton]
    tauto
  have hred : b ∉ red := fun h => hbR (Or.inl h)
  constructor
  · exact I.wf
  · constructor
    · intro x hx
      rcases (hR x).1 hx with hx | rfl
      · exact I.forest.red x hx
      · exact hbD
    · exact I.forest.noDead
    · intro x x' k k' c c' y hx hx' hy
      exact I.forest.uniq hx hx' (fun h => hy ((hR y).2 (Or.inl h)))
    · intro x y hx e hy
      rw [hR]
      left
      rcases (hR y).1 hy with hy | rfl
      · exact I.forest.up hx e hy
      · exact hpred x hx e
  · exact I.dead
  · intro x hx
    rcases List.mem_append.1 hx with hx | hx
    · exact I.redLt x hx
    · rw [List.mem_singleton] at hx; rw [hx]; exact hbs
  · rw [List.nodup_append]
    refine ⟨I.redNodup, by simp, ?_⟩
    intro x hx y hy
    rw [List.mem_singleton] at hy
    rintro rfl
    exact hred (hy ▸ hx)
  · exact nextBlue_nodup _ _ _ _
  · intro c hc
    rcases (mem_nextBlue I.wf).1 hc with hc' | ⟨hn, r, hr, e⟩
    · obtain ⟨h1, h2, x, hx, e⟩ := I.blueIn c (List.mem_cons_of_mem _ hc')
      refine ⟨fun h => ?_, h2, x, (hR x).2 (Or.inl hx), e⟩
      rcases (hR c).1 h with h | h
      · exact h1 h
      · exact hbn.1 (h ▸ hc')
    · refine ⟨?_, ?_, r, Or.inl hr, e⟩
      · rintro (h | h)
        · exact hn h
        · have hr' : r ∉ D := by
            rcases List.mem_append.1 hr with hr | hr
            · exact I.forest.red r (Or.inl hr)
            · rw [List.mem_singleton] at hr; rw [hr]; exact hbD
          exact I.noIn c h (fun h' => hn (List.mem_append_left _ h')) r hr' e
      · obtain ⟨k, c', e⟩ := e
        exact (look_key I.wf e).2.2.2.1
  · intro i hi hn x hx
    exact I.noIn i hi (fun h => hn (List.mem_append_left _ h)) x hx
  · intro r hr y e
    by_cases hy : y ∈ red ++ [b]
    · exact Or.inl hy
    · exact Or.inr ((mem_nextBlue I.wf).2 (Or.inr ⟨hy, r, hr, e⟩))

/-- A state is merged into a red one. -/
theorem Inv.merged (I : Inv A red (b :: blue) D) {r : ℕ} (hr : r ∈ red) {A' : Auto} {D' : Set ℕ} (M : MergedTop (Roots A red) A D r b A' D') :
    Inv A' red (nextBlue A' red (b :: blue) b) D' := by
  obtain ⟨hbR, hbs, _⟩ := I.blueIn b List.mem_cons_self
  have hbD := I.blue_live (b := b) List.mem_cons_self
  have hbn := List.nodup_cons.1 I.blueNodup
  have hR : Roots A' red = Roots A red := by
    ext x; simp only [Roots, M.same.initial]
  have hlive : ∀ x ∈ Roots A red, x ∉ D' := by
    intro x hx hd
    rcases M.dead x hd with hd | hd
    · exact I.forest.red x hx hd
    · exact (I.forest.below_live hbR hbD hd).1 hx
  constructor
  · exact M.wf
  · rw [hR]; exact M.forest
  · intro x hx
    rw [M.same.size]
    rcases M.dead x hx with hx | hx
    · exact I.dead x hx
    · exact below_size I.wf hbs hx
  · intro x hx; rw [M.same.size]; exact I.redLt x hx
  · exact I.redNodup
  · exact nextBlue_nodup _ _ _ _
  · intro c hc
    rw [hR, M.same.size]
    rcases (mem_nextBlue M.wf).1 hc with hc | ⟨hn, r', hr', e⟩
    · obtain ⟨h1, h2, x, hx, k, n, e⟩ := I.blueIn c (List.mem_cons_of_mem _ hc)
      refine ⟨h1, h2, x, hx, k, n, M.keep e ?_⟩
      intro hd
      rcases M.dead c hd with hd | hd
      · exact I.blue_live (List.mem_cons_of_mem _ hc) hd
      · by_cases hbc : b = c
        · exact hbn.1 (hbc ▸ hc)
        · have := I.forest.below_pred (I.forest.red x hx) ⟨k, n, e⟩ hd hbc
          exact (I.forest.below_live hbR hbD this).1 hx
    · refine ⟨?_, ?_, r', Or.inl hr', e⟩
      · rintro (h | h)
        · exact hn h
        · obtain ⟨k, n, e⟩ := e
          rcases M.back (hlive r' (Or.inl hr')) e with e | e | e
          · exact I.noIn c h hn r' (I.forest.red r' (Or.inl hr')) ⟨k, n, e⟩
          · exact (I.forest.below_live hbR hbD e).1 (Or.inr h)
          · exact hn (e ▸ hr)
      · obtain ⟨k, c', e⟩ := e
        rw [← M.same.size]
        exact (look_key M.wf e).2.2.2.1
  · rintro i hi hn x hx ⟨k, n, e⟩
    rw [M.same.initial] at hi
    rcases M.back hx e with e | e | e
    · exact I.noIn i hi hn x (fun h => hx (M.mono h)) ⟨k, n, e⟩
    · exact (I.forest.below_live hbR hbD e).1 (Or.inr hi)
    · exact hn (e ▸ hr)
  · intro r' hr' y e
    by_cases hy : y ∈ red
    · exact Or.inl hy
    · exact Or.inr ((mem_nextBlue M.wf).2 (Or.inr ⟨hy, r', hr', e⟩))

theorem Inv.card (I : Inv A red blue D) : red.length + D.ncard ≤ A.size := by
  have hfin : D.Finite := (Set.finite_Iio A.size).subset (fun x hx => I.dead x hx)
  have h1 : (red.toFinset : Set ℕ).ncard = red.length := by
    rw [Set.ncard_coe_finset, List.toFinset_card_of_nodup I.redNodup]
  have hdis : Disjoint (red.toFinset : Set ℕ) D := by
    rw [Set.disjoint_left]
    intro x hx
    exact I.forest.red x (Or.inl (by simpa using hx))
  rw [← h1, ← Set.ncard_union_eq hdis (Finset.finite_toSet _) hfin]
  have h2 := Set.ncard_le_ncard (s := (red.toFinset : Set ℕ) ∪ D) (t := Set.Iio A.size) ?_ (Set.finite_Iio A.size)
  · rwa [Set.ncard_eq_toFinset_card' (Set.Iio A.size), Set.toFinset_Iio, Nat.card_Iio] at h2
  · rintro x (hx | hx)
    · exact I.redLt x (by simpa using hx)
    · exact I.dead x hx

end

/-- The first compatible red state. -/
theorem firstCompatible_spec {compat : Auto → ℕ → ℕ → Py Bool} {A : Auto} {b : ℕ} : ∀ (red : List ℕ),
    (∀ r ∈ red, ∃ v, compat A r b = .ok v) → ∃ o, firstCompatible compat A b red = .ok o ∧ ∀ r, o = some r → r ∈ red ∧ compat A r b = .ok true
  | [], _ => ⟨none, rfl, by simp⟩
  | r :: red, h => by
    obtain ⟨v, hv⟩ := h r List.mem_cons_self
    rw [firstCompatible, hv]
    cases v with
    | true => exact ⟨some r, rfl, by rintro r' rfl_; cases rfl_; exact ⟨List.mem_cons_self, hv⟩⟩
    | false =>
      obtain ⟨o, ho, hs⟩ := firstCompatible_spec red (fun r hr => h r (List.mem_cons_of_mem _ hr))
      exact ⟨o, ho, fun r e => ⟨List.mem_cons_of_mem _ (hs r e).1, (hs r e).2⟩⟩

/-- The loop ends, and at its end the successors of the red states are red. -/
theorem loop_spec {compat : Auto → ℕ → ℕ → Py Bool}
    (hc : ∀ A red blue D, Inv A red blue D → ∀ r ∈ red, ∀ b ∈ blue, ∃ v, compat A r b = .ok v ∧ (v = true → (A.node r).obs = (A.node b).obs))
    {depth : ℕ} : ∀ (f : ℕ) (A : Auto) (red blue : List ℕ) (D : Set ℕ), Inv A red blue D → A.size < depth → A.size < f + red.length + D.ncard →
      ∃ A' red' D', loop compat depth f A red blue = .ok (some (A', red')) ∧ Inv A' red' [] D' ∧ Same A A' ∧ red <+: red' ∧
        ∀ x ∈ Roots A red, ∀ w z, run A.look x w = some z → ∃ z', run A'.look x w = some z'
  | 0, A, red, blue, D, I, _, hf => by
    have := I.card
    omega
  | f + 1, A, red, [], D, I, _, _ => ⟨A, red, D, rfl, I, Same.refl A, List.prefix_rfl, fun _ _ _ z h => ⟨z, h⟩⟩
  | f + 1, A, red, b :: blue, D, I, hd, hf => by
    obtain ⟨o, ho, hs⟩ := firstCompatible_spec (compat := compat) (A := A) (b := b) red
      (fun r hr => by obtain ⟨v, hv, _⟩ := hc A red _ D I r hr b List.mem_cons_self; exact ⟨v, hv⟩)
    obtain ⟨hbR, hbs, _⟩ := I.blueIn b List.mem_cons_self
    rw [loop, ho]
    cases o with
    | some r =>
      obtain ⟨hr, hcr⟩ := hs r rfl
      obtain ⟨v, hv, hobs⟩ := hc A red _ D I r hr b List.mem_cons_self
      rw [hcr] at hv
      cases hv
      have hbD := I.blue_live (b := b) List.mem_cons_self
      obtain ⟨A', D', hm, M⟩ := merge_top (f := depth) I.wf I.forest (Or.inl hr) hbR hbD (I.blue_preds List.mem_cons_self) (hobs rfl)
        (I.redLt r hr) hbs hd
      have I' := I.merged hr M
      have hlt : D.ncard < D'.ncard := by
        refine Set.ncard_lt_ncard ⟨M.mono, fun h => hbD (h M.mem)⟩ ?_
        exact (Set.finite_Iio A'.size).subset (fun x hx => I'.dead x hx)
      obtain ⟨A2, red2, D2, hl, I2, S2, hp, hrun⟩ := loop_spec hc f A' red _ D' I' (M.same.size ▸ hd) (by rw [M.same.size]; omega)
      refine ⟨A2, red2, D2, ?_, I2, M.same.trans S2, hp, ?_⟩
      · show (match A.merge depth r b with
          | none => _
          | some A' => _) = _
        rw [hm]
        exact hl
      · intro x hx w z e
        obtain ⟨z', e'⟩ := M.run x hx w z e
        refine hrun x ?_ w z' e'
        rcases hx with hx | hx
        · exact Or.inl hx
        · exact Or.inr (M.same.initial ▸ hx)
    | none =>
      obtain ⟨A2, red2, D2, hl, I2, S2, hp, hrun⟩ := loop_spec hc f A (red ++ [b]) _ D I.promote hd (by rw [List.length_append, List.length_singleton]; omega)
      refine ⟨A2, red2, D2, hl, I2, S2, (List.prefix_append red [b]).trans hp, ?_⟩
      intro x hx w z e
      refine hrun x ?_ w z e
      rcases hx with hx | hx
      · exact Or.inl (List.mem_append_left _ hx)
      · exact Or.inr hx

end Jajapy.IOAlergia
