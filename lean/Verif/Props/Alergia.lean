import Verif.Lemmas.AlergiaFit

/-!
C49-C51, C61, C62: Alergia. The prefix tree counts prefixes; merging ends and conserves the traces; the result is a Markov chain whose
transition probabilities are relative frequencies, and which can generate all the training traces.
-/

namespace Jajapy.Alergia

open Spec.Alergia Heap Create

/-! ### C49: the prefix tree -/

/-- C49. The words that can be read in the prefix tree are the prefixes of the training traces. -/
theorem createPTA_words (S : TSet String) (hS : S.WF) (w : List String) :
    (follow (createPTA S).heap 0 w).isSome ↔ w = [] ∨ ∃ t ∈ S.sequences, w <+: t := by
  obtain ⟨word, ts, T, hp⟩ := treeOf_createPTA S hS
  have h1 : (w = [] ∨ ∃ t ∈ ts, w <+: t.1) ↔ (w = [] ∨ ∃ t ∈ S.sequences, w <+: t) := by
    apply or_congr Iff.rfl
    rw [← perm_map_fst S hS.1]
    constructor
    · rintro ⟨t, ht, h⟩
      exact ⟨t.1, List.mem_map.2 ⟨t, hp.mem_iff.1 ht, rfl⟩, h⟩
    · rintro ⟨t, ht, h⟩
      obtain ⟨q, hq, rfl⟩ := List.mem_map.1 ht
      exact ⟨q, hp.mem_iff.2 hq, h⟩
  rw [← h1]
  have h2 := T.words w
  rw [h2, Option.isSome_iff_exists]
  constructor
  · rintro ⟨x, hx⟩
    obtain ⟨a, b⟩ := (T.follow w T.pos).1 hx
    exact ⟨x, a, by rw [b, T.w0]; rfl⟩
  · rintro ⟨x, hx, e⟩
    exact ⟨x, (T.follow w T.pos).2 ⟨hx, by rw [e, T.w0]; rfl⟩⟩

/-- C49. Distinct words lead to distinct nodes. -/
theorem createPTA_inj (S : TSet String) (hS : S.WF) (w w' : List String) (x : ℕ) (h : follow (createPTA S).heap 0 w = some x)
    (h' : follow (createPTA S).heap 0 w' = some x) : w = w' := by
  obtain ⟨word, ts, T, hp⟩ := treeOf_createPTA S hS
  have h1 := ((T.follow w T.pos).1 h).2
  have h2 := ((T.follow w' T.pos).1 h').2
  rw [T.w0, List.nil_append] at h1 h2
  rw [← h1, h2]

/-- C49. The number of a node is the number of training traces that end there. -/
theorem createPTA_ends (S : TSet String) (hS : S.WF) (w : List String) (x : ℕ) (h : follow (createPTA S).heap 0 w = some x) :
    (createPTA S).heap.count x = S.mult w := by
  obtain ⟨word, ts, T, hp⟩ := treeOf_createPTA S hS
  obtain ⟨a, b⟩ := (T.follow w T.pos).1 h
  rw [T.cnt x a, b, T.w0, traceCount_perm hp]
  rfl

/-- C49. The number on a transition is the number of training traces that have the word of its target as a prefix. -/
theorem createPTA_prefixes (S : TSet String) (hS : S.WF) (w : List String) (l : String) (x k : ℕ)
    (h : follow (createPTA S).heap 0 w = some x) (hk : (createPTA S).heap.findKid x l = some k) :
    edge (createPTA S).heap x k = prefixCount (S.sequences.zip S.times) (w ++ [l]) := by
  obtain ⟨word, ts, T, hp⟩ := treeOf_createPTA S hS
  obtain ⟨a, b⟩ := (T.follow w T.pos).1 h
  rw [T.w0, List.nil_append] at b
  obtain ⟨hkid, hl⟩ := findKid_some hk
  obtain ⟨c, hc⟩ := kid_iff.1 hkid
  obtain ⟨_, _, e1, _, e2⟩ := T.kid x a (k, c) hc
  dsimp only at e1 e2
  rw [edge_eq (T.det x a).nodup hc, e2, if_neg (by rw [e1]; simp), prefixCount_perm hp, e1, b, hl]

/-! ### C51: the merging -/

/-- C51. **The merging ends and conserves the traces**, whatever the tests of compatibility answer (provided they accept only states with
the same label, and do not raise): as many traces arrive in each state as end there or leave it, all the training
traces end somewhere, the result is deterministic and all its states are reached from the root, and every prefix of a training trace can
still be read. -/
theorem mergeStates_spec (S : TSet String) (hS : S.WF) (compat : Heap → ℕ → ℕ → Py Bool)
    (hcompat : ∀ h s1 s2, compat h s1 s2 = .ok true → h.label s1 = h.label s2) (htotal : ∀ h s1 s2, ∃ b, compat h s1 s2 = .ok b) :
    ∃ h red, mergeStates compat (createPTA S).heap = .ok (some (h, red)) ∧
      0 ∈ red ∧ (∀ x ∈ red, ∀ k, h.Kid x k → k ∈ red) ∧ (∀ x ∈ red, Below h 0 x) ∧ (∀ x ∈ red, h.Det x) ∧
      Conserves h red.toFinset S.times.sum ∧ ∑ x ∈ red.toFinset, h.count x = S.times.sum ∧
      ∀ w, (∃ t ∈ S.sequences, w <+: t) → (follow h 0 w).isSome := by
  obtain ⟨word, ts, T, hp⟩ := treeOf_createPTA S hS
  have hsum : (ts.map (·.2)).sum = S.times.sum := by
    rw [(hp.map _).sum_eq, List.map_snd_zip (by rw [hS.1])]
  rcases mergeStates_merged T (lo := 0) (fun _ _ => Nat.zero_le _) hcompat with ⟨e, h1, s1, s2, _, _, _, he, _⟩ | ⟨h', A, red, hm, hA, M⟩
  · obtain ⟨b, hb⟩ := htotal h1 s1 s2
    rw [hb] at he
    cases he
  · have hAr : red.toFinset = A := by ext x; rw [List.mem_toFinset, hA]
    have hF : Conserves h' A S.times.sum := by
      intro x hx
      rw [← hsum]
      simpa using M.flow x hx
    refine ⟨h', red, hm, (hA 0).2 M.wf.root, ?_, fun x hx => M.reach x ((hA x).1 hx), fun x hx => M.wf.det x ((hA x).1 hx), ?_, ?_, ?_⟩
    · intro x hx k hk; exact (hA k).2 (M.wf.closed x ((hA x).1 hx) k hk)
    · rw [hAr]; exact hF
    · rw [hAr]; exact total_count M.wf.root M.wf.closed hF
    · intro w hw
      exact M.words w ((createPTA_words S hS w).2 (.inr hw))

/-! ### C50: the learnt chain -/

variable {K : Type} [Field K] [LinearOrder K] [IsStrictOrderedRing K] [FloorRing K]

/-- The test of compatibility of `learn`. -/
def compatOf (bound : ℕ → ℕ → ℕ → ℕ → Py Bool) (p : PTA) (h : Heap) (s1 s2 : ℕ) : Py Bool :=
  (compatible bound p.alphabet h (h.size + 1) (some s1) (some s2)).getD (.error .runtimeError)

theorem compatOf_label (bound : ℕ → ℕ → ℕ → ℕ → Py Bool) (p : PTA) (h : Heap) (s1 s2 : ℕ) (hc : compatOf bound p h s1 s2 = .ok true) :
    h.label s1 = h.label s2 := by
  unfold compatOf at hc
  cases hv : compatible bound p.alphabet h (h.size + 1) (some s1) (some s2) with
  | none => rw [hv] at hc; cases hc
  | some v => rw [hv] at hc; exact compatible_label (by rw [hv]; exact congrArg some hc)

/-- What `fit` reads the chain from. -/
theorem fit_merged (S : TSet String) (hS : S.WF) (lo : ℕ) (hlo : ∀ c ∈ S.times, lo ≤ c) (bound : ℕ → ℕ → ℕ → ℕ → Py Bool)
    (hb : ∀ a b c d, ∃ v, bound a b c d = .ok v) :
    ∃ h A, Merged (createPTA S).heap h (Finset.range (createPTA S).heap.size) A lo S.times.sum ∧
      (∀ x k, h.Kid x k → Labels S (h.label k)) ∧
      (¬ Labels S "" → (∀ k, h.Kid 0 k → ∃ t ∈ S.sequences, t.head? = some (h.label k)) ∧ h.count 0 = S.mult []) ∧
      fit K bound S = toMC K ⟨h, (createPTA S).alphabet⟩ := by
  obtain ⟨word, ts, T, hp⟩ := treeOf_createPTA S hS
  have hsum : (ts.map (·.2)).sum = S.times.sum := by
    rw [(hp.map _).sum_eq, List.map_snd_zip (by rw [hS.1])]
  have hmem : ∀ t, (∃ c, (t, c) ∈ ts) → t ∈ S.sequences := by
    rintro t ⟨c, hc⟩
    rw [← perm_map_fst S hS.1]
    exact List.mem_map.2 ⟨_, hp.mem_iff.1 hc, rfl⟩
  have hlo' : ∀ t ∈ ts, lo ≤ t.2 := by
    intro t ht
    apply hlo
    exact (List.of_mem_zip (hp.mem_iff.1 ht)).2
  rcases mergeStates_merged T hlo' (compatOf_label bound (createPTA S)) with
    ⟨e, h1, s1, s2, R1, A1, _, he, W, h1A, h1R, hAs, hsz⟩ | ⟨h', A, red, hm, hA, M⟩
  · exfalso
    have hd : depth h1 R1 A1 s1 < h1.size + 1 := by
      obtain ⟨m, u⟩ := W.up s1 h1A
      have := W.depth_eq h1A u
      have := Finset.card_le_card hAs
      rw [Finset.card_range] at this
      omega
    obtain ⟨v, hv⟩ := compatible_some bound (createPTA S).alphabet W (h1.size + 1) s1 h1A h1R (some s2) hd
    unfold compatOf at he
    rw [hv, Option.getD_some] at he
    subst he
    exact compatible_error hb _ _ _ _ hv
  · obtain ⟨l1, l2⟩ := mergeStates_labels T (createPTA_root S) (compatOf_label bound (createPTA S)) hm
    refine ⟨h', A, hsum ▸ M, ?_, ?_, ?_⟩
    · intro x k hk
      obtain ⟨t, ht, hl⟩ := l1 x k hk
      exact ⟨t.1, hmem t.1 ⟨t.2, ht⟩, hl⟩
    · intro hne
      obtain ⟨a, b⟩ := l2 (fun t ht h => hne ⟨t.1, hmem t.1 ⟨t.2, ht⟩, h⟩)
      refine ⟨?_, ?_⟩
      · intro k hk
        obtain ⟨t, ht, hl⟩ := a k hk
        exact ⟨t.1, hmem t.1 ⟨t.2, ht⟩, hl⟩
      · rw [b, createPTA_ends S hS [] 0 rfl]
    · unfold fit learn
      show (do
        match ← mergeStates (compatOf bound (createPTA S)) (createPTA S).heap with
        | none => return none
        | some (h, _) => toMC K ⟨h, (createPTA S).alphabet⟩) = _
      rw [hm]
      rfl

/-- The tree with the label 'init' at the root. -/
def relabelled (h : Heap) : Heap := h.set 0 { h.node 0 with label := "init" }

theorem relabelled_kids (h : Heap) (x : ℕ) : (relabelled h).kids x = h.kids x := by
  unfold relabelled Heap.set kids; dsimp only; split_ifs with e <;> simp [e]
theorem relabelled_label (h : Heap) (x : ℕ) : (relabelled h).label x = if x = 0 then "init" else h.label x := by
  unfold relabelled Heap.set label; dsimp only; split_ifs with e <;> simp [e]
theorem relabelled_count (h : Heap) (x : ℕ) : (relabelled h).count x = h.count x := by
  unfold relabelled Heap.set count; dsimp only; split_ifs with e <;> simp [e]

theorem below_kids {h h' : Heap} (e : ∀ x, h'.kids x = h.kids x) {r x : ℕ} : Below h' r x ↔ Below h r x := by
  constructor
  · intro b
    induction b with
    | refl => exact .refl
    | step _ k ih => exact .step ih (by unfold Kid at k ⊢; rwa [← e])
  · intro b
    induction b with
    | refl => exact .refl
    | step _ k ih => exact .step ih (by unfold Kid at k ⊢; rwa [e])

/-- The root of the chain. -/
theorem mcRoot_cases (h : Heap) (alphabet : List String) :
    (mcRoot ⟨h, alphabet⟩ = .error .syntaxError ∧ "init" ∈ alphabet) ∨
    (∃ k c, mcRoot ⟨h, alphabet⟩ = .ok (h, k) ∧ "init" ∈ alphabet ∧ h.kids 0 = [(k, c)] ∧ h.label k = "init") ∨
    (mcRoot ⟨h, alphabet⟩ = .ok (relabelled h, 0) ∧ "init" ∉ alphabet) := by
  unfold mcRoot
  dsimp only
  by_cases hi : "init" ∈ alphabet
  · rw [if_pos hi]
    match hk : h.kids 0 with
    | [] => exact .inl ⟨rfl, hi⟩
    | [(k, c)] =>
      dsimp only
      by_cases hl : h.label k = "init"
      · rw [if_pos hl]; exact .inr (.inl ⟨k, c, rfl, hi, rfl, hl⟩)
      · rw [if_neg hl]; exact .inl ⟨rfl, hi⟩
    | a :: b :: l => exact .inl ⟨rfl, hi⟩
  · rw [if_neg hi]; exact .inr (.inr ⟨rfl, hi⟩)

/-- C50. **Alergia returns a well formed Markov chain, or raises SyntaxError** (which it does only if some training trace contains the
label 'init'): the transition probabilities are not negative, those from a state sum to 1, or are all 0; every label is 'init' or a
label of a training trace; the run starts in the states labelled 'init', and there is one. -/
theorem fit_wellFormed (S : TSet String) (hS : S.WF) (bound : ℕ → ℕ → ℕ → ℕ → Py Bool) (hb : ∀ a b c d, ∃ v, bound a b c d = .ok v) :
    (fit K bound S = .error .syntaxError ∧ Labels S "init") ∨
    ∃ (states : List ℕ) (M : MC K String states.length), fit K bound S = .ok (some ⟨states, M⟩) ∧
      (∀ i j, 0 ≤ M.matrix i j) ∧ (∀ i, ∑ j, M.matrix i j = 1 ∨ ∀ j, M.matrix i j = 0) ∧
      (∀ i, M.labelling i = "init" ∨ Labels S (M.labelling i)) ∧ (∃ i, M.labelling i = "init") ∧
      ∀ s, M.initialState s = if M.labelling s = "init" then 1 / ((Finset.univ.filter (fun s => M.labelling s = "init")).card : K) else 0 := by
  obtain ⟨h, A, M, hlab, _, hfit⟩ := fit_merged (K := K) S hS 0 (fun _ _ => Nat.zero_le _) bound hb
  have hcard : A.card ≤ h.size := by
    have := Finset.card_le_card M.sub
    rw [Finset.card_range] at this
    rw [M.size]
    exact this
  have main : ∀ (h1 : Heap) (r : ℕ), mcRoot ⟨h, (createPTA S).alphabet⟩ = .ok (h1, r) → h1.label r = "init" → r ∈ A →
      (∀ x, h1.kids x = h.kids x) → h1.size = h.size → (∀ x k, h.Kid x k → h1.label k = "init" ∨ h1.label k = h.label k) →
      ∃ (states : List ℕ) (M : MC K String states.length), fit K bound S = .ok (some ⟨states, M⟩) ∧
      (∀ i j, 0 ≤ M.matrix i j) ∧ (∀ i, ∑ j, M.matrix i j = 1 ∨ ∀ j, M.matrix i j = 0) ∧
      (∀ i, M.labelling i = "init" ∨ Labels S (M.labelling i)) ∧ (∃ i, M.labelling i = "init") ∧
      ∀ s, M.initialState s = if M.labelling s = "init" then 1 / ((Finset.univ.filter (fun s => M.labelling s = "init")).card : K) else 0 := by
    intro h1 r hroot hr hrA hk hsz hl
    have hkid : ∀ x k, h1.Kid x k ↔ h.Kid x k := fun x k => by unfold Kid; rw [hk]
    obtain ⟨states, C, e1, e2, e3, e4, e5, e6, e7, e8⟩ := toMC_spec (K := K) (B := A) hroot hr hrA
      (fun x hx k hkk => M.wf.closed x hx k ((hkid x k).1 hkk)) (fun x hx => by rw [hk]; exact (M.wf.det x hx).nodup) (by rw [hsz]; exact hcard)
    have hlabel : ∀ i, C.labelling i = h1.label (states.get i) := by
      intro i
      have := e8.1 i
      rw [Fin.getElem?_fin, List.getElem?_map, List.getElem?_eq_getElem i.2] at this
      injection this with this
      exact this.symm
    have hsum : ∀ i, ∑ j, C.matrix i j = (leaving h1 (states.get i) : K) / (leaving h1 (states.get i) : K) := by
      intro i
      simp only [e7]
      rw [← Finset.sum_div, ← Nat.cast_sum, sum_states states e2 (fun x => edge h1 (states.get i) x), sum_edge]
      intro k hk
      exact List.mem_toFinset.2 (e6 _ (List.get_mem _ _) k hk)
    refine ⟨states, C, by rw [hfit, e1], ?_, ?_, ?_, ?_, e8.2⟩
    · intro i j; rw [e7]; positivity
    · intro i
      by_cases hz : leaving h1 (states.get i) = 0
      · right; intro j; rw [e7, hz]; simp
      · left; rw [hsum, div_self (by exact_mod_cast hz)]
    · intro i
      rw [hlabel]
      have hbel := (e4 _).1 (List.get_mem states i)
      generalize states.get i = x at hbel
      cases hbel with
      | refl => exact .inl hr
      | @step y _ _ k =>
        rcases hl y x ((hkid y x).1 k) with e | e
        · exact .inl e
        · rw [e]; exact .inr (hlab y x ((hkid y x).1 k))
    · have hm : r ∈ states := List.mem_of_mem_head? e3
      obtain ⟨i, hi⟩ := List.get_of_mem hm
      exact ⟨i, by rw [hlabel, hi, hr]⟩
  rcases mcRoot_cases h (createPTA S).alphabet with ⟨e, hi⟩ | ⟨k, c, e, hi, hk, hl⟩ | ⟨e, hi⟩
  · left
    refine ⟨?_, (createPTA_alphabet S hS).2 _ hi⟩
    rw [hfit]
    unfold toMC
    rw [e]
    rfl
  · right
    have hk0 : h.Kid 0 k := by unfold Kid; rw [hk]; simp
    exact main h k e hl (M.wf.closed 0 M.wf.root k hk0) (fun _ => rfl) rfl (fun _ _ _ => .inr rfl)
  · right
    refine main (relabelled h) 0 e (by rw [relabelled_label, if_pos rfl]) M.wf.root (relabelled_kids h) rfl (fun x k _ => ?_)
    rw [relabelled_label]
    split_ifs
    · exact .inl rfl
    · exact .inr rfl

/-! ### The traces through the chain -/

/-- What is known of the graph and of the chain when the label 'init' is at its place. -/
structure Learnt (S : TSet String) (h h1 : Heap) (A : Finset ℕ) (r : ℕ) (states : List ℕ) (C : MC K String states.length) : Prop where
  nodup : states.Nodup
  head : states.head? = some r
  kids : ∀ x, h1.kids x = h.kids x
  labels : ∀ x k, h1.Kid x k → h1.label k = h.label k
  closed : ∀ x ∈ states, ∀ k, h1.Kid x k → k ∈ states
  sub : ∀ x ∈ states, x ∈ A
  matrix : ∀ i j, C.matrix i j = (edge h1 (states.get i) (states.get j) : K) / (leaving h1 (states.get i) : K)
  label : ∀ i, C.labelling i = h1.label (states.get i)
  init : ∀ i, C.labelling i = "init" → 0 < C.initialState i
  rootLabel : h1.label r = "init"
  root : (r = 0 ∧ (∀ x, x ∈ states ↔ x ∈ A) ∧ ∀ t ∈ S.sequences, "init" ∉ t) ∨
    (∃ c, h.kids 0 = [(r, c)] ∧ (∀ x, x ∈ states ↔ x ∈ A ∧ x ≠ 0) ∧ c = S.times.sum ∧ h.count 0 = 0 ∧
      ∀ t ∈ S.sequences, t.head? = some "init")

theorem fit_learnt (S : TSet String) (hS : S.WF) (hne : ¬ Labels S "") (hinit : InitFirst S) (lo : ℕ) (hlo : ∀ c ∈ S.times, lo ≤ c)
    (bound : ℕ → ℕ → ℕ → ℕ → Py Bool) (hb : ∀ a b c d, ∃ v, bound a b c d = .ok v) :
    ∃ h h1 A r states C, Merged (createPTA S).heap h (Finset.range (createPTA S).heap.size) A lo S.times.sum ∧
      (∀ x, ¬ h.Kid x 0) ∧ fit K bound S = .ok (some ⟨states, C⟩) ∧ Learnt S h h1 A r states C := by
  obtain ⟨h, A, M, hlab, hroot, hfit⟩ := fit_merged (K := K) S hS lo hlo bound hb
  obtain ⟨hheads, hcount⟩ := hroot hne
  have hcard : A.card ≤ h.size := by
    have := Finset.card_le_card M.sub
    rw [Finset.card_range] at this
    rw [M.size]
    exact this
  have h0 : ∀ x, ¬ h.Kid x 0 := by
    intro x hk
    have := hlab x 0 hk
    rw [M.labels 0, createPTA_root] at this
    exact hne this
  have hA : ∀ x, x ∈ A ↔ Below h 0 x := fun x => ⟨M.reach x, fun b => b.mem M.wf.closed M.wf.root⟩
  have main : ∀ (h1 : Heap) (r : ℕ), mcRoot ⟨h, (createPTA S).alphabet⟩ = .ok (h1, r) → h1.label r = "init" → r ∈ A →
      (∀ x, h1.kids x = h.kids x) → h1.size = h.size → (∀ x k, h.Kid x k → h1.label k = h.label k) →
      ((r = 0 ∧ ∀ t ∈ S.sequences, "init" ∉ t) ∨ ∃ c, h.kids 0 = [(r, c)] ∧ ∀ t ∈ S.sequences, t.head? = some "init") →
      ∃ states C, fit K bound S = .ok (some ⟨states, C⟩) ∧ Learnt S h h1 A r states C := by
    intro h1 r hroot hr hrA hk hsz hl hcase
    have hkid : ∀ x k, h1.Kid x k ↔ h.Kid x k := fun x k => by unfold Kid; rw [hk]
    obtain ⟨states, C, e1, e2, e3, e4, e5, e6, e7, e8⟩ := toMC_spec (K := K) (B := A) hroot hr hrA
      (fun x hx k hkk => M.wf.closed x hx k ((hkid x k).1 hkk)) (fun x hx => by rw [hk]; exact (M.wf.det x hx).nodup) (by rw [hsz]; exact hcard)
    have hlabel : ∀ i, C.labelling i = h1.label (states.get i) := by
      intro i
      have := e8.1 i
      rw [Fin.getElem?_fin, List.getElem?_map, List.getElem?_eq_getElem i.2] at this
      injection this with this
      exact this.symm
    refine ⟨states, C, by rw [hfit, e1], e2, e3, hk, fun x k hkk => hl x k ((hkid x k).1 hkk), e6, e5, e7, hlabel, ?_, hr, ?_⟩
    · intro i hi
      rw [e8.2, if_pos hi]
      have : 0 < (Finset.univ.filter (fun s => C.labelling s = "init")).card := Finset.card_pos.2 ⟨i, by simp [hi]⟩
      positivity
    · rcases hcase with ⟨rfl, hno⟩ | ⟨c, hkids, hall⟩
      · left
        exact ⟨rfl, fun x => by rw [e4, below_kids hk, hA], hno⟩
      · right
        have hk0 : h.Kid 0 r := by unfold Kid; rw [hkids]; simp
        have hr0 : r ≠ 0 := by rintro rfl; exact h0 0 hk0
        have hc0 : h.count 0 = 0 := by
          rw [hcount]
          unfold TSet.mult
          rw [List.filter_eq_nil_iff.2]
          · rfl
          · intro q hq
            simp only [decide_eq_true_eq]
            intro e
            have := hall q.1 (List.of_mem_zip hq).1
            rw [e] at this
            cases this
        refine ⟨c, hkids, fun x => ?_, ?_, hc0, hall⟩
        · rw [e4, below_kids hk]
          constructor
          · intro b
            refine ⟨(hA x).2 (Below.trans (.step .refl hk0) b), ?_⟩
            rintro rfl
            cases b with
            | refl => exact hr0 rfl
            | step _ k => exact h0 _ k
          · rintro ⟨hx, hx0⟩
            rcases ((hA x).1 hx).head with e | ⟨k, hk1, hk2⟩
            · exact absurd e hx0
            · unfold Kid at hk1
              rw [hkids] at hk1
              simp only [List.map_cons, List.map_nil, List.mem_singleton] at hk1
              exact hk1 ▸ hk2
        · have hf := M.flow 0 M.wf.root
          rw [if_pos rfl, hc0] at hf
          have hz : inflow h A 0 = 0 := Finset.sum_eq_zero (fun y _ => edge_zero (h0 y))
          have hlv : leaving h 0 = c := by unfold leaving; rw [hkids]; simp
          rw [hz, hlv] at hf
          simp only [zero_add, add_zero] at hf
          exact hf.symm
  have fin : ∀ h1 r, (∃ states C, fit K bound S = .ok (some ⟨states, C⟩) ∧ Learnt S h h1 A r states C) →
      ∃ h h1 A r states C, Merged (createPTA S).heap h (Finset.range (createPTA S).heap.size) A lo S.times.sum ∧
      (∀ x, ¬ h.Kid x 0) ∧ fit K bound S = .ok (some ⟨states, C⟩) ∧ Learnt S h h1 A r states C := by
    rintro h1 r ⟨states, C, hf, L⟩
    exact ⟨h, h1, A, r, states, C, M, h0, hf, L⟩
  by_cases hno : ∀ t ∈ S.sequences, "init" ∉ t
  · have hia : "init" ∉ (createPTA S).alphabet := by
      intro hi
      obtain ⟨t, ht, hm⟩ := (createPTA_alphabet S hS).2 _ hi
      exact hno t ht hm
    rcases mcRoot_cases h (createPTA S).alphabet with ⟨_, hi⟩ | ⟨_, _, _, hi, _⟩ | ⟨e, _⟩
    · exact absurd hi hia
    · exact absurd hi hia
    · apply fin
      refine main (relabelled h) 0 e (by rw [relabelled_label, if_pos rfl]) M.wf.root (relabelled_kids h) rfl (fun x k hk => ?_) (.inl ⟨rfl, hno⟩)
      rw [relabelled_label, if_neg]
      rintro rfl
      exact h0 x hk
  · rcases hinit with hi | hall
    · exact absurd hi hno
    · push Not at hno
      obtain ⟨t, ht, _⟩ := hno
      have hia : "init" ∈ (createPTA S).alphabet := (createPTA_alphabet S hS).1 t ht _ (hall t ht)
      have hkidI : ∀ k, h.Kid 0 k → h.label k = "init" := by
        intro k hk
        obtain ⟨t', ht', e⟩ := hheads k hk
        rw [hall t' ht'] at e
        injection e with e
        exact e.symm
      have hone : ∃ k c, h.kids 0 = [(k, c)] := by
        have hw : (follow h 0 ["init"]).isSome := by
          apply M.words
          refine (createPTA_words S hS _).2 (.inr ⟨t, ht, ?_⟩)
          have := hall t ht
          cases t with
          | nil => cases this
          | cons a t => injection this with e; subst e; exact ⟨t, rfl⟩
        have hd := M.wf.det 0 M.wf.root
        match hk : h.kids 0 with
        | [] =>
          simp only [follow] at hw
          unfold findKid at hw
          rw [hk] at hw
          cases hw
        | [(k, c)] => exact ⟨k, c, rfl⟩
        | (k, c) :: (k', c') :: l =>
          exfalso
          have e1 := hkidI k (by unfold Kid; rw [hk]; simp)
          have e2 := hkidI k' (by unfold Kid; rw [hk]; simp)
          unfold Det at hd
          rw [hk] at hd
          simp only [List.map_cons, List.nodup_cons, List.mem_cons, not_or] at hd
          exact hd.1.1 (by rw [e1, e2])
      obtain ⟨k, c, hk⟩ := hone
      have hk0 : h.Kid 0 k := by unfold Kid; rw [hk]; simp
      rcases mcRoot_cases h (createPTA S).alphabet with ⟨e, hi⟩ | ⟨k', c', e, hi, hk', hl⟩ | ⟨_, hi⟩
      · exfalso
        unfold mcRoot at e
        dsimp only at e
        rw [if_pos hi, hk] at e
        dsimp only at e
        rw [if_pos (hkidI k hk0)] at e
        cases e
      · rw [hk] at hk'
        simp only [List.cons.injEq, Prod.mk.injEq, and_true] at hk'
        obtain ⟨rfl, rfl⟩ := hk'
        apply fin
        exact main h k e hl (M.wf.closed 0 M.wf.root k hk0) (fun _ => rfl) rfl (fun _ _ _ => rfl) (.inr ⟨c, hk, hall⟩)
      · exact absurd hia hi

/-- C50, C51. **The probabilities of the learnt chain are the relative frequencies of the training traces**, pooled by the merging: when the
label 'init' is at its place and the empty label is not used, `fit` does not raise, and there are numbers of traces on the transitions of the
chain, conserved in every state, that add up to the number of training traces and of which the probabilities are the relative
frequencies. The traces start in the first state, which is labelled 'init'. -/
theorem fit_frequencies (S : TSet String) (hS : S.WF) (hne : ¬ Labels S "") (hinit : InitFirst S) (bound : ℕ → ℕ → ℕ → ℕ → Py Bool)
    (hb : ∀ a b c d, ∃ v, bound a b c d = .ok v) :
    ∃ (states : List ℕ) (M : MC K String states.length) (start : Fin states.length) (c : Fin states.length → Fin states.length → ℕ)
      (e : Fin states.length → ℕ), fit K bound S = .ok (some ⟨states, M⟩) ∧ start.val = 0 ∧ M.labelling start = "init" ∧
      Frequencies M start S.times.sum c e := by
  obtain ⟨h, h1, A, r, states, C, M, h0, hfit, L⟩ := fit_learnt (K := K) S hS hne hinit 0 (fun _ _ => Nat.zero_le _) bound hb
  have hpos : 0 < states.length := by
    cases states with
    | nil => have := L.head; cases this
    | cons a l => simp
  have hr : states.get ⟨0, hpos⟩ = r := by
    have := L.head
    rw [List.head?_eq_getElem?, List.getElem?_eq_getElem hpos] at this
    injection this
  have hj : ∀ j : Fin states.length, j = ⟨0, hpos⟩ ↔ states.get j = r := by
    intro j
    rw [← hr]
    constructor
    · rintro rfl; rfl
    · intro e; exact L.nodup.injective_get e
  have hedge : ∀ x y, edge h1 x y = edge h x y := fun x y => edge_congr (L.kids x) y
  have hleav : ∀ x, leaving h1 x = leaving h x := fun x => leaving_congr (L.kids x)
  have hrow : ∀ i : Fin states.length, ∑ j : Fin states.length, edge h (states.get i) (states.get j) = leaving h (states.get i) := by
    intro i
    rw [sum_states states L.nodup (fun x => edge h (states.get i) x), sum_edge]
    intro k hk
    exact List.mem_toFinset.2 (L.closed _ (List.get_mem _ _) k (by unfold Kid at hk ⊢; rwa [L.kids]))
  have hF : Conserves h A S.times.sum := by intro x hx; simpa using M.flow x hx
  have htot := total_count M.wf.root M.wf.closed hF
  refine ⟨states, C, ⟨0, hpos⟩, fun i j => edge h (states.get i) (states.get j), fun i => h.count (states.get i), hfit, rfl, ?_, ?_⟩
  · rw [L.label, hr, L.rootLabel]
  · refine ⟨?_, ?_, ?_⟩
    · intro i j
      rw [L.matrix, hedge, hleav, hrow]
    · intro j
      rw [hrow, sum_states states L.nodup (fun x => edge h x (states.get j))]
      have hjA := L.sub _ (List.get_mem states j)
      rw [← hF _ hjA]
      rcases L.root with ⟨rfl, hs, _⟩ | ⟨c, hkids, hs, hc, hc0, _⟩
      · have : states.toFinset = A := by ext x; rw [List.mem_toFinset, hs]
        rw [this]
        unfold inflow
        simp only [hj]
      · have : states.toFinset = A.erase 0 := by ext x; rw [List.mem_toFinset, hs, Finset.mem_erase]; tauto
        have hj0 := ((hs _).1 (List.get_mem states j)).2
        rw [this, if_neg hj0]
        unfold inflow
        rw [← Finset.add_sum_erase A _ M.wf.root]
        have he0 : edge h 0 (states.get j) = if states.get j = r then S.times.sum else 0 := by
          unfold edge
          rw [hkids]
          by_cases e : states.get j = r
          · rw [if_pos e, e, ← hc]; simp
          · rw [if_neg e]
            have : ¬ r = states.get j := fun e' => e e'.symm
            simp only [List.filter_cons, List.filter_nil, decide_eq_true_eq, this, if_false, List.map_nil, List.sum_nil]
        rw [he0]
        simp only [hj]
        omega
    · rw [sum_states states L.nodup (fun x => h.count x)]
      rcases L.root with ⟨rfl, hs, _⟩ | ⟨c, hkids, hs, hc, hc0, _⟩
      · have : states.toFinset = A := by ext x; rw [List.mem_toFinset, hs]
        rw [this, htot]
      · have : states.toFinset = A.erase 0 := by ext x; rw [List.mem_toFinset, hs, Finset.mem_erase]; tauto
        rw [this, ← htot, ← Finset.add_sum_erase A _ M.wf.root, hc0, zero_add]

/-! ### C62: the training traces can be generated -/

/-- From the state `s` the chain can generate `w`. -/
def Run {O : Type} {n : ℕ} (a : Fin n → Fin n → K) (b : Fin n → O → K) : Fin n → List O → Prop
  | _, [] => True
  | s, o :: w => ∃ s', 0 < a s s' ∧ 0 < b s' o ∧ Run a b s' w

omit [FloorRing K] in
theorem listProb_pos {O : Type} {n : ℕ} {a : Fin n → Fin n → K} {b : Fin n → O → K} (ha : ∀ s s', 0 ≤ a s s') (hb : ∀ s o, 0 ≤ b s o)
    (w : List O) : ∀ (init : Fin n → K) (s : Fin n) (o : O), (∀ s, 0 ≤ init s) → 0 < init s → 0 < b s o → Run a b s w →
      0 < Spec.listProb init a b (o :: w) := by
  induction w with
  | nil =>
    intro init s o hi hs ho _
    simp only [Spec.listProb]
    rw [traceProb_zero]
    exact Finset.sum_pos' (fun x _ => mul_nonneg (hi x) (hb x _)) ⟨s, by simp, mul_pos hs ho⟩
  | cons o' w ih =>
    intro init s o hi hs ho hr
    obtain ⟨s', h1, h2, h3⟩ := hr
    have hpos : ∀ x, ∀ ss, 0 ≤ init ss * (a ss x * b ss o) := fun x ss => mul_nonneg (hi ss) (mul_nonneg (ha ss x) (hb ss o))
    have := ih (fun x => ∑ ss, init ss * (a ss x * b ss o)) s' o' (fun x => Finset.sum_nonneg (fun ss _ => hpos x ss))
      (Finset.sum_pos' (fun ss _ => hpos s' ss) ⟨s, by simp, mul_pos hs (mul_pos h1 ho)⟩) h2 h3
    simp only [Spec.listProb] at this ⊢
    rw [traceProb_succ]
    exact this

theorem Learnt.run {S : TSet String} {h h1 : Heap} {A : Finset ℕ} {r : ℕ} {states : List ℕ} {C : MC K String states.length}
    (L : Learnt S h h1 A r states C) (W : WF h A A 1) (w : List String) :
    ∀ i : Fin states.length, (follow h (states.get i) w).isSome → Run C.matrix (fun s o => if C.labelling s = o then (1 : K) else 0) i w := by
  induction w with
  | nil => intro i _; trivial
  | cons l w ih =>
    intro i hf
    simp only [follow] at hf
    cases hk : h.findKid (states.get i) l with
    | none => rw [hk] at hf; cases hf
    | some k =>
      rw [hk] at hf
      obtain ⟨hkid, hl⟩ := findKid_some hk
      have hkid1 : h1.Kid (states.get i) k := by unfold Kid at hkid ⊢; rwa [L.kids]
      obtain ⟨j, hj⟩ := List.get_of_mem (L.closed _ (List.get_mem _ _) k hkid1)
      refine ⟨j, ?_, ?_, ih j (by rw [hj]; exact hf)⟩
      · rw [L.matrix, hj, edge_congr (L.kids _), leaving_congr (L.kids _)]
        have hA := L.sub _ (List.get_mem states i)
        have hm := edge_kid (W.det _ hA) hkid
        have h1 : 1 ≤ edge h (states.get i) k := W.edges _ hA _ hm
        have h2 : edge h (states.get i) k ≤ leaving h (states.get i) :=
          List.single_le_sum (fun _ _ => Nat.zero_le _) _ (List.mem_map.2 ⟨_, hm, rfl⟩)
        have h3 : (0 : K) < edge h (states.get i) k := by exact_mod_cast h1
        have h4 : (0 : K) < leaving h (states.get i) := by exact_mod_cast lt_of_lt_of_le h1 h2
        exact div_pos h3 h4
      · dsimp only
        rw [L.label, hj, L.labels _ _ hkid1, hl, if_pos rfl]
        exact one_pos

/-- C62. **The learnt chain can generate every training trace** (with 'init' in front of it), when the label 'init' is at its place and the
empty label is not used. -/
theorem fit_generates_partial (S : TSet String) (hS : S.Countable) (hne : ¬ Labels S "") (hinit : InitFirst S) (bound : ℕ → ℕ → ℕ → ℕ → Py Bool)
    (hb : ∀ a b c d, ∃ v, bound a b c d = .ok v) :
    ∃ (states : List ℕ) (M : MC K String states.length), fit K bound S = .ok (some ⟨states, M⟩) ∧
      ∀ t ∈ S.sequences, 0 < M.lik (withInit t) := by
  obtain ⟨h, h1, A, r, states, C, M, h0, hfit, L⟩ := fit_learnt (K := K) S hS.1 hne hinit 1 hS.2.1 bound hb
  refine ⟨states, C, hfit, ?_⟩
  have hr : r ∈ states := List.mem_of_mem_head? L.head
  obtain ⟨i, hi⟩ := List.get_of_mem hr
  have hlab : C.labelling i = "init" := by rw [L.label, hi, L.rootLabel]
  have hmat : ∀ i j, 0 ≤ C.matrix i j := fun i j => by rw [L.matrix]; positivity
  have hI : ∀ s, 0 ≤ C.initialState s := by
    obtain h | ⟨states', C', e, _, _, _, _, e2⟩ := fit_wellFormed (K := K) S hS.1 bound hb
    · rw [hfit] at h; cases h.1
    · rw [hfit] at e
      injection e with e
      injection e with e
      injection e with e e'
      subst e
      have e' := eq_of_heq e'
      subst e'
      intro s
      rw [e2]
      split_ifs
      · positivity
      · exact le_rfl
  have key : ∀ w, (follow h r w).isSome → 0 < C.lik ("init" :: w) := by
    intro w hw
    unfold MC.lik
    refine listProb_pos hmat (fun s o => by split_ifs <;> norm_num) w C.initialState i "init" hI (L.init i hlab) ?_
      (L.run M.wf w i (by rw [hi]; exact hw))
    rw [if_pos hlab]
    exact one_pos
  intro t ht
  have hw : (follow h 0 t).isSome := M.words t ((createPTA_words S hS.1 t).2 (.inr ⟨t, ht, List.prefix_rfl⟩))
  rcases L.root with ⟨rfl, _, hno⟩ | ⟨c, hkids, _, _, _, hall⟩
  · have : withInit t = "init" :: t := by
      unfold withInit
      rw [if_neg]
      intro e
      exact hno t ht (List.mem_of_mem_head? e)
    rw [this]
    exact key t hw
  · have e := hall t ht
    cases t with
    | nil => cases e
    | cons a t =>
      injection e with e
      subst e
      have : withInit ("init" :: t) = "init" :: t := if_pos rfl
      rw [this]
      simp only [follow] at hw
      cases hk : h.findKid 0 "init" with
      | none => rw [hk] at hw; cases hw
      | some k =>
        rw [hk] at hw
        have hkk := (findKid_some hk).1
        unfold Kid at hkk
        rw [hkids] at hkk
        simp only [List.map_cons, List.map_nil, List.mem_singleton] at hkk
        subst hkk
        exact key t hw

/-! ### C61: the test of compatibility -/

theorem freq_eq {h : Heap} {x : ℕ} (hd : h.Det x) (o : String) : freq h x o = nextCount h x o := by
  unfold freq nextCount
  have : ((h.kids x).filter (fun q => h.label q.1 = o)).length ≤ 1 := by
    unfold Det at hd
    have h1 : (((h.kids x).filter (fun q => h.label q.1 = o)).map (fun q => h.label q.1)).Nodup :=
      hd.sublist ((List.filter_sublist).map _)
    match hl : (h.kids x).filter (fun q => h.label q.1 = o) with
    | [] => rw [hl]; simp
    | [a] => rw [hl]; simp
    | a :: b :: l =>
      exfalso
      rw [hl] at h1
      have ha : a ∈ (h.kids x).filter (fun q => h.label q.1 = o) := by rw [hl]; simp
      have hb : b ∈ (h.kids x).filter (fun q => h.label q.1 = o) := by rw [hl]; simp
      have ha := (List.mem_filter.1 ha).2
      have hb := (List.mem_filter.1 hb).2
      simp only [decide_eq_true_eq] at ha hb
      simp only [List.map_cons, List.nodup_cons, List.mem_cons, not_or] at h1
      exact h1.1.1 (by rw [ha, hb])
  match hl : (h.kids x).filter (fun q => h.label q.1 = o) with
  | [] => rw [hl]; rfl
  | [a] => rw [hl]; simp
  | a :: b :: l => rw [hl] at this; simp at this

theorem hoeffdings_iff (bound : ℕ → ℕ → ℕ → ℕ → Py Bool) (h : Heap) (s1 s2 : ℕ) (os : List String) :
    hoeffdings bound h s1 s2 os = .ok true ↔
      ∀ o ∈ os, bound (freq h s1 o) (leaving h s1) (freq h s2 o) (leaving h s2) = .ok true := by
  induction os with
  | nil => simp [hoeffdings]
  | cons o os ih =>
    unfold hoeffdings
    cases hb : bound (freq h s1 o) (leaving h s1) (freq h s2 o) (leaving h s2) with
    | error e => simp [bind, Except.bind, hb]
    | ok v => cases v <;> simp [bind, Except.bind, hb, ih, pure, Except.pure]

theorem mem_kidLabels (h : Heap) (s1 s2 : ℕ) (o : String) : o ∈ kidLabels h s1 s2 ↔ Next h s1 o ∨ Next h s2 o := by
  unfold kidLabels Next
  rw [List.mem_union_iff]
  simp

theorem compatibleKids_iff (rec : Option ℕ → Option ℕ → Option (Py Bool)) (h : Heap) (s1 s2 : ℕ) (cs : List String) :
    compatibleKids rec h s1 s2 cs = some (.ok true) ↔ ∀ c ∈ cs, rec (h.findKid s1 c) (h.findKid s2 c) = some (.ok true) := by
  induction cs with
  | nil => simp [compatibleKids]
  | cons c cs ih =>
    unfold compatibleKids
    match hr : rec (h.findKid s1 c) (h.findKid s2 c) with
    | none => simp [hr]
    | some (.error e) => simp [hr]
    | some (.ok false) => simp [hr]
    | some (.ok true) => simp [hr, ih]

/-- C61 (partial). **What the test of compatibility accepts**: two states are accepted if and only if the futures of the two states look alike,
for the words over the letters of the *alphabet of the tree* (the test may also fail to end: `none`, excluded by `fit_wellFormed`).
The alphabet of the tree does not contain all the labels: see `compatible_overlooks`. -/
theorem compatible_iff_partial {bound : ℕ → ℕ → ℕ → ℕ → Py Bool} (hb : ∀ a b c d, ∃ v, bound a b c d = .ok v) {alphabet : List String} {h : Heap}
    {R A : Finset ℕ} (W : WF h R A 1) (f : ℕ) : ∀ s1 ∈ A, ∀ s2 ∈ A, ∀ v, compatible bound alphabet h f (some s1) (some s2) = some (.ok v) →
      (v = true ↔ AlikeFutures bound {l | l ∈ alphabet} h s1 s2) := by
  have hnokid : ∀ x, leaving h x = 0 → x ∈ A → h.kids x = [] := by
    intro x hx hA
    by_contra hne
    obtain ⟨q, hq⟩ := List.exists_mem_of_ne_nil _ hne
    have h1 := W.edges x hA q hq
    have h2 : q.2 ≤ leaving h x := List.single_le_sum (fun _ _ => Nat.zero_le _) _ (List.mem_map.2 ⟨_, hq, rfl⟩)
    omega
  have hnofind : ∀ x l, leaving h x = 0 → x ∈ A → h.findKid x l = none := by
    intro x l hx hA
    unfold findKid
    rw [hnokid x hx hA]
    rfl
  induction f with
  | zero => intro _ _ _ _ _ hv; cases hv
  | succ f ih =>
    intro s1 h1 s2 h2 v hv
    have hself : AlikeFutures bound {l | l ∈ alphabet} h s1 s2 → Alike bound h s1 s2 := fun hA => hA [] (by simp) s1 s2 rfl rfl
    unfold compatible at hv
    by_cases hl : h.label s1 ≠ h.label s2
    · rw [if_pos hl] at hv
      injection hv with hv
      injection hv with hv
      subst hv
      refine ⟨fun e => (by cases e), fun hA => absurd (hself hA).1 hl⟩
    · rw [if_neg hl] at hv
      push Not at hl
      by_cases hz : leaving h s1 * leaving h s2 = 0
      · rw [if_pos hz] at hv
        injection hv with hv
        injection hv with hv
        subst hv
        refine ⟨fun _ => ?_, fun _ => rfl⟩
        intro w hw x y hx hy
        cases w with
        | nil =>
          injection hx with hx
          injection hy with hy
          subst hx hy
          refine ⟨hl, fun a b => ?_⟩
          exact absurd hz (Nat.mul_ne_zero a b)
        | cons l w =>
          simp only [follow] at hx hy
          rcases Nat.mul_eq_zero.1 hz with hz | hz
          · rw [hnofind s1 l hz h1] at hx; cases hx
          · rw [hnofind s2 l hz h2] at hy; cases hy
      · rw [if_neg hz] at hv
        have hz1 : leaving h s1 ≠ 0 := fun e => hz (by rw [e, Nat.zero_mul])
        have hz2 : leaving h s2 ≠ 0 := fun e => hz (by rw [e, Nat.mul_zero])
        have htot : ∀ os, ∃ b, hoeffdings bound h s1 s2 os = .ok b := by
          intro os
          induction os with
          | nil => exact ⟨_, rfl⟩
          | cons o os iho =>
            unfold hoeffdings
            obtain ⟨b, hbb⟩ := hb (freq h s1 o) (leaving h s1) (freq h s2 o) (leaving h s2)
            rw [hbb]
            cases b with
            | true => exact iho
            | false => exact ⟨_, rfl⟩
        have hal : hoeffdings bound h s1 s2 (kidLabels h s1 s2) = .ok true ↔ Alike bound h s1 s2 := by
          rw [hoeffdings_iff]
          simp only [mem_kidLabels, freq_eq (W.det s1 h1), freq_eq (W.det s2 h2)]
          exact ⟨fun hA => ⟨hl, fun _ _ => hA⟩, fun hA => hA.2 hz1 hz2⟩
        obtain ⟨b, hbb⟩ := htot (kidLabels h s1 s2)
        rw [hbb] at hv hal
        cases b with
        | false =>
          injection hv with hv
          injection hv with hv
          subst hv
          refine ⟨fun e => (by cases e), fun hA => ?_⟩
          have := hal.2 (hself hA)
          cases this
        | true =>
          dsimp only at hv
          have ha := hal.1 rfl
          have hin : ∀ (s : ℕ) l k, s ∈ A → h.findKid s l = some k → k ∈ A := fun s l k hs hk => W.closed s hs k (findKid_some hk).1
          constructor
          · rintro rfl
            rw [compatibleKids_iff] at hv
            intro w hw x y hx hy
            cases w with
            | nil =>
              injection hx with hx
              injection hy with hy
              subst hx hy
              exact ha
            | cons l w =>
              simp only [follow] at hx hy
              cases hk1 : h.findKid s1 l with
              | none => rw [hk1] at hx; cases hx
              | some k1 =>
                cases hk2 : h.findKid s2 l with
                | none => rw [hk2] at hy; cases hy
                | some k2 =>
                  rw [hk1] at hx
                  rw [hk2] at hy
                  have := hv l (hw l (by simp))
                  rw [hk1, hk2] at this
                  exact (ih k1 (hin s1 l k1 h1 hk1) k2 (hin s2 l k2 h2 hk2) true this).1 rfl w (fun l' hl' => hw l' (by simp [hl'])) x y hx hy
          · intro hA
            cases v with
            | true => rfl
            | false =>
              exfalso
              have hex : ∃ c ∈ alphabet, compatible bound alphabet h f (h.findKid s1 c) (h.findKid s2 c) = some (.ok false) := by
                clear ih hA
                have : ∀ cs, compatibleKids (compatible bound alphabet h f) h s1 s2 cs = some (.ok false) →
                    ∃ c ∈ cs, compatible bound alphabet h f (h.findKid s1 c) (h.findKid s2 c) = some (.ok false) := by
                  intro cs
                  induction cs with
                  | nil => intro e; cases e
                  | cons c cs ihc =>
                    intro e
                    unfold compatibleKids at e
                    match hr : compatible bound alphabet h f (h.findKid s1 c) (h.findKid s2 c) with
                    | none => rw [hr] at e; cases e
                    | some (.error _) => rw [hr] at e; cases e
                    | some (.ok false) => exact ⟨c, by simp, hr⟩
                    | some (.ok true) =>
                      rw [hr] at e
                      obtain ⟨c', hc', e'⟩ := ihc e
                      exact ⟨c', by simp [hc'], e'⟩
                exact this alphabet hv
              obtain ⟨c, hc, e⟩ := hex
              cases f with
              | zero => cases e
              | succ f =>
              cases hk1 : h.findKid s1 c with
              | none => rw [hk1] at e; cases e
              | some k1 =>
                cases hk2 : h.findKid s2 c with
                | none => rw [hk1, hk2] at e; cases e
                | some k2 =>
                  rw [hk1, hk2] at e
                  have := (ih k1 (hin s1 c k1 h1 hk1) k2 (hin s2 c k2 h2 hk2) false e).2 (by
                    intro w hw x y hx hy
                    refine hA (c :: w) ?_ x y ?_ ?_
                    · intro l hl
                      rcases List.mem_cons.1 hl with rfl | hl
                      · exact hc
                      · exact hw l hl
                    · simp only [follow]; rw [hk1]; exact hx
                    · simp only [follow]; rw [hk2]; exact hy)
                  cases this

/-! ### The tests used by `fit` -/

/-- The Hoeffding test of tools.py with the given `alpha`. -/
noncomputable def hoeffding (alpha : ℝ) (f1 n1 f2 n2 : ℕ) : Py Bool := Tools.hoeffdingBound f1 n1 f2 n2 alpha

/-- The Hoeffding test answers for every `alpha` in (0, 2]: the hypothesis of the theorems above. -/
theorem hoeffding_total (alpha : ℝ) (h0 : 0 < alpha) (h2 : alpha ≤ 2) (a b c d : ℕ) : ∃ v, hoeffding alpha a b c d = .ok v :=
  Tools.hoeffdingBound_total _ _ _ _ _ (Nat.cast_nonneg _) (Nat.cast_nonneg _) h0 h2

/-- The theorems about `fit`, for the test that the code uses. -/
theorem fit_generates_hoeffding_partial (S : TSet String) (hS : S.Countable) (hne : ¬ Labels S "") (hinit : InitFirst S) (alpha : ℝ)
    (h0 : 0 < alpha) (h2 : alpha ≤ 2) :
    ∃ (states : List ℕ) (M : MC ℝ String states.length), fit ℝ (hoeffding alpha) S = .ok (some ⟨states, M⟩) ∧
      (∀ i j, 0 ≤ M.matrix i j) ∧ (∀ i, ∑ j, M.matrix i j = 1 ∨ ∀ j, M.matrix i j = 0) ∧ ∀ t ∈ S.sequences, 0 < M.lik (withInit t) := by
  obtain ⟨states, M, e1, e2⟩ := fit_generates_partial (K := ℝ) S hS hne hinit _ (hoeffding_total alpha h0 h2)
  obtain h | ⟨states', M', e, e3, e4, _⟩ := fit_wellFormed (K := ℝ) S hS.1 _ (hoeffding_total alpha h0 h2)
  · rw [e1] at h; cases h.1
  · rw [e1] at e
    injection e with e
    injection e with e
    injection e with e e'
    subst e
    have e' := eq_of_heq e'
    subst e'
    exact ⟨states, M, e1, e3, e4, e2⟩

/-! ### Examples -/

/-- For a set whose traces are sorted, the tree is built in this order. -/
theorem createPTA_sorted (S : TSet String) (hs : S.sequences.Pairwise (· ≤ ·)) :
    createPTA S = (S.sequences.map (fun i => (i, S.times.getD (S.sequences.idxOf i) 0))).foldl (fun p q => insertTrace p 0 q.2 q.1) emptyPTA := by
  have e1 : S.sequences.mergeSort (fun a b => decide (a ≤ b)) = S.sequences := by
    apply List.mergeSort_of_pairwise
    simpa using hs
  unfold createPTA mkPTA sortSet
  dsimp only
  rw [e1]
  have e2 : S.sequences.zip (S.sequences.map (fun i => S.times.getD (S.sequences.idxOf i) 0)) =
      S.sequences.map (fun i => (i, S.times.getD (S.sequences.idxOf i) 0)) := by
    have : ∀ (g : List String → ℕ) (l : List (List String)), l.zip (l.map g) = l.map (fun i => (i, g i)) := by
      intro g l
      induction l with
      | nil => rfl
      | cons a l ih => simp only [List.map_cons, List.zip_cons_cons, ih]
    exact this _ _
  have e3 : (S.sequences.map (fun i => (i, S.times.getD (S.sequences.idxOf i) 0))).mergeSort TSet.pairLe =
      S.sequences.map (fun i => (i, S.times.getD (S.sequences.idxOf i) 0)) := by
    apply List.mergeSort_of_pairwise
    rw [List.pairwise_map]
    refine hs.imp ?_
    intro a b hab
    unfold TSet.pairLe
    rw [decide_eq_true_eq]
    rcases lt_or_eq_of_le hab with h | h
    · exact .inl h
    · subst h; exact .inr ⟨rfl, le_rfl⟩
  unfold TSet.sort
  dsimp only
  rw [e2, e3, TSet.zip_map_fst_snd]

/-- The test that accepts only equal frequencies. -/
def same (f1 n1 f2 n2 : ℕ) : Py Bool := .ok (decide (f1 * n2 = f2 * n1))

theorem same_total (a b c d : ℕ) : ∃ v, same a b c d = .ok v := ⟨_, rfl⟩

/-- Two traces with multiplicities, none with 'init'. -/
def exSet : TSet String := ⟨[["a", "b", "a"], ["b"]], [2, 1], false, some 0⟩

theorem exSet_countable : exSet.Countable := ⟨⟨rfl, by decide +kernel⟩, by decide +kernel, rfl⟩

theorem exSet_first : InitFirst exSet := .inl (by decide +kernel)

theorem exSet_labels : ¬ Labels exSet "" := by
  rintro ⟨t, ht, h⟩
  have : ∀ t ∈ exSet.sequences, "" ∉ t := by decide +kernel
  exact this t ht h

/-- The hypotheses are met by a set with two traces, and by a set whose traces start with 'init'. -/
example : ∃ (states : List ℕ) (M : MC ℚ String states.length), fit ℚ same exSet = .ok (some ⟨states, M⟩) ∧
    ∀ t ∈ exSet.sequences, 0 < M.lik (withInit t) := fit_generates_partial exSet exSet_countable exSet_labels exSet_first same same_total

example : InitFirst ⟨[["init", "a"], ["init", "b"]], [2, 1], false, some 0⟩ := .inr (by decide +kernel)

example : follow (createPTA exSet).heap 0 ["a", "b"] = some 2 ∧ (createPTA exSet).heap.findKid 0 "a" = some 1 ∧
    edge (createPTA exSet).heap 0 1 = 2 ∧ (createPTA exSet).heap.count 3 = 2 := by
  rw [createPTA_sorted exSet (by decide +kernel)]
  decide +kernel

/-- Two traces whose continuations of "a", "b" differ. -/
def overlooked : TSet String := ⟨[["a", "b", "c"], ["d", "a", "b", "e"]], [1, 1], false, some 0⟩

/-- C61 (violated). **The test of compatibility overlooks labels**: a label that is first met in the rest of a new branch is not put in the alphabet
of the tree, and the test does not look further after it. Here "a" is always followed by "b" and then, at the beginning of a trace, always by
"c", but after "d" always by "e". The strictest test (equal frequencies only) nevertheless accepts the two nodes: their futures do not look
alike, and the learnt chain merges them. -/
theorem compatible_overlooks : ∃ x y, follow (createPTA overlooked).heap 0 ["a"] = some x ∧
    follow (createPTA overlooked).heap 0 ["d", "a"] = some y ∧
    compatible same (createPTA overlooked).alphabet (createPTA overlooked).heap ((createPTA overlooked).heap.size + 1) (some y) (some x) =
      some (.ok true) ∧ ¬ AlikeFutures same Set.univ (createPTA overlooked).heap y x := by
  have e := createPTA_sorted overlooked (by decide +kernel)
  refine ⟨1, 5, ?_, ?_, ?_, ?_⟩
  · rw [e]; decide +kernel
  · rw [e]; decide +kernel
  · rw [e]; decide +kernel
  · intro hA
    have h1 : follow (createPTA overlooked).heap 5 ["b"] = some 6 := by rw [e]; decide +kernel
    have h2 : follow (createPTA overlooked).heap 1 ["b"] = some 2 := by rw [e]; decide +kernel
    have h3 : leaving (createPTA overlooked).heap 6 ≠ 0 := by rw [e]; decide +kernel
    have h4 : leaving (createPTA overlooked).heap 2 ≠ 0 := by rw [e]; decide +kernel
    have h5 : ∃ q ∈ (createPTA overlooked).heap.kids 6, (createPTA overlooked).heap.label q.1 = "e" := by rw [e]; decide +kernel
    have := (hA ["b"] (by simp) 6 2 h1 h2).2 h3 h4 "e" (.inl h5)
    rw [e] at this
    revert this
    decide +kernel

/-- C49 (violated without distinct traces). If the same trace is stored twice in a set (1 time and 2 times), the transitions
and the end of the trace do not get the number 3: the multiplicities are those of the first copy, and the end has that of the last
copy. -/
theorem createPTA_duplicates : ∃ S : TSet String, S.mult ["a"] = 3 ∧ ∃ x, follow (createPTA S).heap 0 ["a"] = some x ∧
    (createPTA S).heap.count x = 1 ∧ edge (createPTA S).heap 0 x = 2 := by
  refine ⟨⟨[["a"], ["a"]], [1, 2], false, some 0⟩, by decide +kernel, 1, ?_⟩
  rw [createPTA_sorted _ (by decide +kernel)]
  decide +kernel

/-- The labels of a result. -/
def labelsOf (r : Py (Option (Σ states : List ℕ, MC ℚ String states.length))) : List String :=
  match r with
  | .ok (some ⟨_, M⟩) => List.ofFn M.labelling
  | _ => []

/-- The likelihood of a trace for a result. -/
def likOf (r : Py (Option (Σ states : List ℕ, MC ℚ String states.length))) (t : List String) : ℚ :=
  match r with
  | .ok (some ⟨_, M⟩) => M.lik t
  | _ => 0

/-- C62 (violated with the empty label). A state labelled "" is merged with the root, which then gets the label 'init': the learnt chain
cannot generate the only training trace. -/
theorem fit_emptyLabel : ∃ S : TSet String, S.Countable ∧ InitFirst S ∧ ["a", ""] ∈ S.sequences ∧
    labelsOf (fit ℚ same S) = ["init", "a"] ∧ likOf (fit ℚ same S) (withInit ["a", ""]) = 0 := by
  refine ⟨⟨[["a", ""]], [1], false, some 0⟩, ⟨⟨rfl, by decide +kernel⟩, by decide +kernel, rfl⟩, .inl (by decide +kernel), by decide +kernel, ?_⟩
  unfold fit
  rw [createPTA_sorted _ (by decide +kernel)]
  decide +kernel

/-- C50 (violated when 'init' occurs in the rest of a new branch). The label 'init' in the middle of a trace is not noticed, and the learnt
chain has two initial states. -/
theorem fit_twoInits : ∃ S : TSet String, S.Countable ∧ labelsOf (fit ℚ same S) = ["init", "a", "init"] := by
  refine ⟨⟨[["a", "init"]], [1], false, some 0⟩, ⟨⟨rfl, by decide +kernel⟩, by decide +kernel, rfl⟩, ?_⟩
  unfold fit
  rw [createPTA_sorted _ (by decide +kernel)]
  decide +kernel

/-- C50. The SyntaxError: one trace starts with 'init', another does not. -/
example : (match fit ℚ same ⟨[["a"], ["init", "a"]], [1, 1], false, some 0⟩ with | .error .syntaxError => true | _ => false) = true := by
  unfold fit
  rw [createPTA_sorted _ (by decide +kernel)]
  decide +kernel

end Jajapy.Alergia
