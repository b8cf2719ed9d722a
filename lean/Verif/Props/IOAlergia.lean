import Verif.Lemmas.IOAlergiaFit

/-!
C52, C65 to C68: IOAlergia.
-/

namespace Jajapy.IOAlergia

open Auto Spec.IOAlergia Finset

variable {S : TSet String} {bound : ℕ → ℕ → ℕ → ℕ → Py Bool}

/-! ### C65: the prefix tree -/

/-- C65. The states of the tree are the prefixes of the training traces that end with an observation, one state for each; a state counts the traces that
start with its prefix, and has the last observation of the prefix. -/
theorem tree_states (hS : Training S) {A : Auto} (hA : IsTree S A) :
    (∀ x < A.size, (A.node x).label.length % 2 = 1 ∧ (∃ t ∈ S.sequences, (A.node x).label <+: t) ∧ (A.node x).label.getLast? = some (A.node x).obs ∧
      (A.node x).counter = prefixCount (S.sequences.zip S.times) (A.node x).label) ∧
    (∀ x < A.size, ∀ y < A.size, (A.node x).label = (A.node y).label → x = y) ∧
    (∀ p : List String, p.length % 2 = 1 → (∃ t ∈ S.sequences, p <+: t) → ∃ x < A.size, (A.node x).label = p) ∧
    (∀ x, x ∈ A.initial ↔ x < A.size ∧ (A.node x).label.length = 1) := by
  obtain ⟨acts, obs, e, rfl⟩ := hA
  rw [build_size]
  have hl : ∀ x < (labels (S.sequences.zip S.times)).length, _ := fun x hx => build_label (S.sequences.zip S.times) (obs.insertionSort (· ≤ ·))
    (acts.insertionSort (· ≤ ·)) hx
  refine ⟨?_, ?_, ?_, ?_⟩
  · intro x hx
    obtain ⟨h1, h2, h3⟩ := hl x hx
    obtain ⟨h4, ⟨t, n⟩, ht, hp⟩ := mem_labels.1 (lab_mem hx)
    rw [h1, h2, h3]
    refine ⟨h4, ⟨t, (List.of_mem_zip ht).1, hp⟩, ?_, rfl⟩
    rw [List.getLast?_eq_some_getLast (lab_ne_nil hx)]
    rfl
  · intro x hx y hy e
    rw [(hl x hx).1, (hl y hy).1] at e
    exact lab_inj hx hy e
  · rintro p hp ⟨t, ht, hpt⟩
    obtain ⟨n, hn⟩ := (mem_zip hS).2 ht
    obtain ⟨x, hx, ex⟩ := exists_lab (ts := S.sequences.zip S.times) (mem_labels.2 ⟨hp, (t, n), hn, hpt⟩)
    exact ⟨x, hx, (hl x hx).1.trans ex⟩
  · intro x
    rw [mem_initial]
    constructor
    · rintro ⟨h1, h2⟩; exact ⟨h1, by rw [(hl x h1).1]; exact h2⟩
    · rintro ⟨h1, h2⟩; exact ⟨h1, by rw [← (hl x h1).1]; exact h2⟩

/-- C65. There is a transition from `x` to `y` for the action `a` and the observation `o` exactly when the prefix of `y` is the one of `x` followed by `a`
and `o`; its count is the number of traces with that prefix. -/
theorem tree_transitions (hS : Training S) {A : Auto} (hA : IsTree S A) (x y c : ℕ) (a o : String) : Arc A x a o c y ↔
    x < A.size ∧ y < A.size ∧ (A.node y).label = (A.node x).label ++ [a, o] ∧ c = prefixCount (S.sequences.zip S.times) (A.node y).label := by
  obtain ⟨acts, obs, e, rfl⟩ := hA
  rw [build_size, tree_arc]
  constructor
  · rintro ⟨hx, hy, h⟩
    rw [(build_label _ _ _ hx).1, (build_label _ _ _ hy).1]
    exact ⟨hx, hy, h⟩
  · rintro ⟨hx, hy, h⟩
    rw [(build_label _ _ _ hx).1, (build_label _ _ _ hy).1] at h
    exact ⟨hx, hy, h⟩

/-! ### C67: the compatibility test -/

/-- C67 (what holds). Whenever the loop tests a red and a blue state, the test ends, and accepts exactly when the futures of the two states look alike (for the
observations that were made from both: see `test_ignores_unseen`). -/
theorem test_meaning_partial (hS : Training S) (hb : ∀ a b c d, ∃ v, bound a b c d = .ok v) {A0 A : Auto} {red blue : List ℕ} (h0 : IsTree S A0)
    (hv : Visited bound A0 A red blue) {r b : ℕ} (hbl : b ∈ blue) :
    ∃ v, compatTest bound A r b = .ok v ∧ (v = true ↔ AlikeFutures bound A r b) := by
  obtain ⟨D, I⟩ := (isTree_known hS hb h0 hv).inv
  exact I.compatTest hb hbl r

/-- C67 (what holds). A blue state is merged only into a red state whose future looks alike; it becomes red only if there is no such state. -/
theorem merged_alike_partial (hS : Training S) (hb : ∀ a b c d, ∃ v, bound a b c d = .ok v) {A0 A : Auto} {red blue : List ℕ} {b : ℕ} (h0 : IsTree S A0)
    (hv : Visited bound A0 A red (b :: blue)) : ∃ o, firstCompatible (compatTest bound) A b red = .ok o ∧
      (∀ r, o = some r → r ∈ red ∧ AlikeFutures bound A r b) ∧ (o = none → ∀ r ∈ red, ¬ AlikeFutures bound A r b) := by
  obtain ⟨D, I⟩ := (isTree_known hS hb h0 hv).inv
  have key : ∀ l : List ℕ, ∃ o, firstCompatible (compatTest bound) A b l = .ok o ∧
      (∀ r, o = some r → r ∈ l ∧ AlikeFutures bound A r b) ∧ (o = none → ∀ r ∈ l, ¬ AlikeFutures bound A r b) := by
    intro l
    induction l with
    | nil => exact ⟨none, rfl, by simp, by simp⟩
    | cons r l ih =>
      obtain ⟨v, h1, h2⟩ := I.compatTest hb (b := b) List.mem_cons_self r
      rw [firstCompatible, h1]
      cases v with
      | true => exact ⟨some r, rfl, by rintro r' e; cases e; exact ⟨List.mem_cons_self, h2.1 rfl⟩, by simp⟩
      | false =>
        obtain ⟨o, e, h3, h4⟩ := ih
        refine ⟨o, e, fun r' e => ⟨List.mem_cons_of_mem _ (h3 r' e).1, (h3 r' e).2⟩, fun e r' hr' => ?_⟩
        rcases List.mem_cons.1 hr' with rfl | hr'
        · intro h; cases h2.2 h
        · exact h4 e r' hr'
  exact key red

/-! ### C66: the loop ends with an MDP -/

section
variable {K : Type} [Field K] [LinearOrder K] [IsStrictOrderedRing K] [FloorRing K]

/-- C66. For every training set with an action, whatever the (total) test: the algorithm ends and returns an MDP whose rows are distributions (or zero), with one more state
than there are red states, labelled 'init'; the actions are those of the training set; the other states are prefixes of training traces and
have their last observation. -/
theorem fit_returns (hS : Training S) (hb : ∀ a b c d, ∃ v, bound a b c d = .ok v) (hact : ∃ t ∈ S.sequences, 2 ≤ t.length) :
    ∃ A red, ∃ M : MDP K String (red.length + 1), fit K bound S = .ok (some ⟨red, M⟩) ∧ Learnt bound S A red ∧ M.Stochastic ∧
      M.labelling (Fin.last _) = "init" ∧ (∀ i : Fin red.length, M.labelling i.castSucc = (A.node red[i]).obs) ∧ M.actions = A.actions ∧
      (∀ a, a ∈ M.actions ↔ ∃ t ∈ S.sequences, ∃ k : ℕ, t[2 * k + 1]? = some a) ∧
      (∀ r ∈ red, ∃ t ∈ S.sequences, (A.node r).label <+: t ∧ (A.node r).label.getLast? = some (A.node r).obs) := by
  obtain ⟨A0, A, red, h0, hv, e⟩ := fit_eq (K := K) hS hb
  have hk := isTree_known hS hb h0 hv
  obtain ⟨D, I⟩ := hk.inv
  obtain ⟨hnd, hacts⟩ := actions_of_tree hS h0
  have hne : A.actions ≠ [] := by
    obtain ⟨t, ht, hl⟩ := hact
    rw [hk.same.actions]
    intro hnil
    have := (hacts t[1]).2 ⟨t, ht, 0, by simp⟩
    rw [hnil] at this
    cases this
  obtain ⟨M, hM, h1, h2, h3, h4, _⟩ := cleanMDP_ok (K := K) I hne
  refine ⟨A, red, M, ?_, ⟨A0, h0, hv⟩, h1, h2, h3, h4, ?_, ?_⟩
  · rw [e, hM]; rfl
  · intro a
    rw [h4, hk.same.actions, hacts]
  · intro r hr
    obtain ⟨_, ⟨t, ht, hp⟩, hl, _⟩ := (tree_states hS h0).1 r (hk.same.size ▸ I.redLt r hr)
    refine ⟨t, ht, ?_, ?_⟩
    · rw [hk.same.label]; exact hp
    · rw [hk.same.label, hk.same.obs]; exact hl

omit [IsStrictOrderedRing K] in
/-- C66 (boundary). Traces that consist of one observation: an IndexError. -/
theorem fit_no_action (hS : Training S) (hb : ∀ a b c d, ∃ v, bound a b c d = .ok v) (hact : ∀ t ∈ S.sequences, t.length = 1) :
    fit K bound S = .error .indexError := by
  obtain ⟨A0, A, red, h0, hv, e⟩ := fit_eq (K := K) hS hb
  have hk := isTree_known hS hb h0 hv
  obtain ⟨D, I⟩ := hk.inv
  obtain ⟨hnd, hacts⟩ := actions_of_tree hS h0
  have hnil : A.actions = [] := by
    rw [hk.same.actions, List.eq_nil_iff_forall_not_mem]
    intro a ha
    obtain ⟨t, ht, k, e⟩ := (hacts a).1 ha
    rw [List.getElem?_eq_none (by rw [hact t ht]; omega)] at e
    cases e
  rw [e]
  unfold cleanMDP
  rw [if_pos (inv_closed I), if_pos hnil]
  rfl

omit [IsStrictOrderedRing K] in
/-- C66 (boundary). An empty set: an IndexError. -/
theorem fit_empty (times : List ℕ) (fl : Bool) (ty : Option ℕ) : fit K bound ⟨[], times, fl, ty⟩ = .error .indexError := rfl

/-! ### C52: the probabilities -/

/-- C52 (what holds). For a state of the result that stands for the prefix `p` and whose actions are the first ones of the list of the actions: the probability
of observing `o` after the action `a` is `n o / ∑ n`, where `n o` is the number of the training traces that start with `p`, `a`, `o`, for every `o` that was
observed after `p`, `a`. (Missing: states whose actions are not the first ones, see `wrong_action`; the traces of the states
that were merged into this one, which should be counted too, see `merged_counts_lost`. They only decide which `o` were not observed after `p` but
have a count.) -/
theorem fit_frequencies_partial (hS : Training S) (hb : ∀ a b c d, ∃ v, bound a b c d = .ok v) {red : List ℕ}
    {M : MDP K String (red.length + 1)} (h : fit K bound S = .ok (some ⟨red, M⟩)) : ∃ A, Learnt bound S A red ∧
      (∀ i : Fin red.length, M.labelling i.castSucc = (A.node red[i]).obs) ∧
      ∀ i : Fin red.length, FirstActions A red[i] → ∀ a, ∃ n : String → ℕ,
        (∀ o, prefixCount (S.sequences.zip S.times) ((A.node red[i]).label ++ [a, o]) ≠ 0 →
          n o = prefixCount (S.sequences.zip S.times) ((A.node red[i]).label ++ [a, o])) ∧
        ∀ o, (∑ j : Fin red.length, if M.labelling j.castSucc = o then M.prob i.castSucc a j.castSucc else 0) = (n o : K) / (∑ o' ∈ A.observations.toFinset, n o' : ℕ) := by
  obtain ⟨A0, A, D, h0, hv, hk, I, _, _, hlab, hnd, _, hact, hmat⟩ := fit_inv hS hb h
  refine ⟨A, ⟨A0, h0, hv⟩, hlab, ?_⟩
  intro i hF a
  obtain ⟨hp1, hp2⟩ := prob_learnt I hnd hact hmat i hF a
  have hlt := I.redLt red[i] (List.getElem_mem i.2)
  have hown : ∀ o, prefixCount (S.sequences.zip S.times) ((A.node red[i]).label ++ [a, o]) ≠ 0 → a ∈ (A.node red[i]).acts ∧
      seen A red[i] a o = prefixCount (S.sequences.zip S.times) ((A.node red[i]).label ++ [a, o]) := by
    intro o ho
    have hl0 := ((tree_states hS h0).1 red[i] (hk.same.size ▸ hlt)).1
    rw [hk.same.label] at ho ⊢
    have : ∃ t ∈ S.sequences, (A0.node red[i]).label ++ [a, o] <+: t := by
      by_contra hn
      push Not at hn
      refine ho ?_
      unfold prefixCount
      rw [List.filter_eq_nil_iff.2]
      · rfl
      · rintro ⟨t, n⟩ ht
        simpa using hn t (List.of_mem_zip ht).1
    obtain ⟨y, hy, ey⟩ := (tree_states hS h0).2.2.1 _ (by rw [List.length_append]; simp; omega) this
    have harc := (tree_transitions hS h0 red[i] y _ a o).2 ⟨hk.same.size ▸ hlt, hy, ey, rfl⟩
    rw [ey] at harc
    obtain ⟨y', harc'⟩ := hk.ext.arc harc
    exact ⟨harc'.1, seen_of_arc I.wf harc'⟩
  by_cases ha : a ∈ (A.node red[i]).acts
  · refine ⟨seen A red[i] a, fun o ho => (hown o ho).2, ?_⟩
    intro o
    have hcl := inv_closed I red[i] (List.getElem_mem i.2) a ((mem_allowed I.wf).2 ha)
    rw [sum_seen (fun q hq => List.mem_toFinset.2 (I.wf.obs (I.wf.dest ha hq)))]
    have h2 := sum_going (fun y => (A.node y).obs = o) I.redNodup _ hcl
    rw [show seen A red[i] a o = _ from h2.symm, Nat.cast_sum, Finset.sum_div]
    refine Finset.sum_congr rfl ?_
    intro j _
    rw [hlab j]
    by_cases ho : (A.node red[j]).obs = o
    · rw [if_pos ho, if_pos ho, (hp2 ha).2 j]
      rfl
    · rw [if_neg ho, if_neg ho]
      simp
  · refine ⟨fun _ => 0, fun o ho => absurd (hown o ho).1 ha, ?_⟩
    intro o
    rw [Finset.sum_eq_zero]
    · simp
    · intro j _
      rw [hp1 ha, ite_self]

/-! ### C68: the training traces -/

/-- C68 (what holds). If all the training traces start with the same observation, and in every learnt state the actions done are the first ones, then the learnt MDP can
produce every training trace, after 'init' and the first action of the list. (Missing: the other cases, see `second_start_lost` and
`wrong_action`.) -/
theorem fit_traces_partial (hS : Training S) (hb : ∀ a b c d, ∃ v, bound a b c d = .ok v) {red : List ℕ} {M : MDP K String (red.length + 1)}
    (h : fit K bound S = .ok (some ⟨red, M⟩)) {o0 : String} (hstart : ∀ t ∈ S.sequences, t.head? = some o0) : ∃ A, Learnt bound S A red ∧
      ((∀ r ∈ red, FirstActions A r) → ∃ a0 ∈ M.actions.head?, ∀ t ∈ S.sequences, Possible M (Fin.last _) ("init" :: a0 :: t)) := by
  obtain ⟨A0, A, D, h0, hv, hk, I, _, hlast, hlab, hnd, hne, hact, hmat⟩ := fit_inv hS hb h
  refine ⟨A, ⟨A0, h0, hv⟩, fun hF => ?_⟩
  have h0r : 0 < red.length := by
    have := hk.zero.length_le
    rw [List.length_singleton] at this
    omega
  have hr0 : red[0] = 0 := by
    obtain ⟨l, e⟩ := hk.zero
    simp [← e]
  obtain ⟨a0, l, hcons⟩ := List.exists_cons_of_ne_nil hne
  have hlen : 0 < M.actions.length := by rw [hact, hcons]; simp
  have ha0 : M.actions[0] = a0 := by simp [hact, hcons]
  refine ⟨a0, by rw [hact, hcons]; simp, ?_⟩
  intro t ht
  have hstep : 0 < M.prob (Fin.last _) a0 (⟨0, h0r⟩ : Fin red.length).castSucc := by
    unfold MDP.prob
    have hterm : ∀ k : Fin M.actions.length, 0 ≤ (if M.actions[k] = a0 then M.matrix (Fin.last _) k (⟨0, h0r⟩ : Fin red.length).castSucc else 0) := by
      intro k
      split
      · rw [hmat]
        exact (cleanMatrix_row I _ _).1 _
      · exact le_refl _
    refine lt_of_lt_of_le ?_ (Finset.single_le_sum (fun k _ => hterm k) (Finset.mem_univ (⟨0, hlen⟩ : Fin M.actions.length)))
    simp only [Fin.getElem_fin]
    rw [if_pos ha0, hmat]
    unfold cleanMatrix
    simp
  rw [← hlast]
  refine .step hstep ?_
  obtain ⟨o, w, rfl⟩ := odd_trace _ t rfl (hS.odd t ht)
  have ho : o = o0 := by
    have := hstart _ ht
    cases w with
    | nil => simpa [trace] using this
    | cons k w => obtain ⟨a, o'⟩ := k; simpa [trace] using this
  have hsz : 0 < A0.size := by rw [← hk.same.size]; exact hr0 ▸ I.redLt red[0] (List.getElem_mem h0r)
  have hinit : 0 ∈ A0.initial := by
    obtain ⟨acts, obs, e, rfl⟩ := h0
    exact zero_initial (labels_pos hS)
  have hlab0 : (A0.node 0).label = [o0] ∧ (A0.node 0).obs = o0 := by
    obtain ⟨_, ⟨t', ht', hp⟩, hl, _⟩ := (tree_states hS h0).1 0 hsz
    have h1 := (((tree_states hS h0).2.2.2 0).1 hinit).2
    obtain ⟨x, hx⟩ := List.length_eq_one_iff.1 h1
    rw [hx] at hp hl ⊢
    have h2 := hstart t' ht'
    obtain ⟨s, rfl⟩ := hp
    simp only [List.cons_append, List.head?_cons, Option.some.injEq] at h2
    simp only [List.getLast?_singleton, Option.some.injEq] at hl
    exact ⟨by rw [h2], by rw [← hl, h2]⟩
  have hread : ∃ z, Reads A0 0 w z := by
    obtain ⟨z, hz, ez⟩ := (tree_states hS h0).2.2.1 (trace o w) (hS.odd _ ht) ⟨_, ht, List.prefix_rfl⟩
    refine ⟨z, ?_⟩
    obtain ⟨acts, obs, e, rfl⟩ := h0
    rw [build_size] at hz hsz
    refine (tree_run (training_good hS e).1 w hsz).2 ⟨hz, ?_⟩
    rw [← (build_label _ _ _ hz).1, ez, ← (build_label _ _ _ hsz).1, hlab0.1, trace_eq, ho]
  obtain ⟨z, hz⟩ := hread
  have hW0 := (isTree_inv hS h0).wf
  obtain ⟨z', hz'⟩ := hk.reads 0 (Or.inl (by simp)) w z ((reads_iff hW0 w).1 hz)
  have hfin := possible_of_reads I hnd hlab hact hmat hF w ⟨0, h0r⟩ z' (by
    simp only [Fin.getElem_fin]
    rw [hr0]
    exact (reads_iff I.wf w).2 hz')
  simp only [Fin.getElem_fin, hr0] at hfin
  rwa [hk.same.obs, hlab0.2, ← ho] at hfin

end

/-! ### The hypotheses can be met; what does not hold -/

theorem firstActions_one {A : Auto} (h : A.actions.length ≤ 1) (x : ℕ) : FirstActions A x := by
  by_cases hx : ∀ a ∈ A.actions, a ∈ (A.node x).acts
  · exact ⟨A.actions.length, fun a ha => by simp [hx a ha, ha]⟩
  · refine ⟨0, fun a ha => ?_⟩
    push Not at hx
    obtain ⟨b, hb, hbx⟩ := hx
    have : a = b := by
      obtain ⟨i, hi, rfl⟩ := List.getElem_of_mem ha
      obtain ⟨j, hj, rfl⟩ := List.getElem_of_mem hb
      congr 1; omega
    rw [this]
    simp [hbx]

theorem firstActions_all {A : Auto} {x : ℕ} (h : ∀ a ∈ A.actions, a ∈ (A.node x).acts) : FirstActions A x :=
  ⟨A.actions.length, fun a ha => by simp [h a ha, ha]⟩

/-- C68, C52 for sets with one action, in terms of the training set only: every training trace is possible. -/
theorem fit_one_action {K : Type} [Field K] [LinearOrder K] [IsStrictOrderedRing K] [FloorRing K] (hS : Training S)
    (hb : ∀ a b c d, ∃ v, bound a b c d = .ok v) {o0 a0 : String} (hstart : ∀ t ∈ S.sequences, t.head? = some o0)
    (hact : ∀ t ∈ S.sequences, ∀ k a, t[2 * k + 1]? = some a → a = a0) (hlong : ∃ t ∈ S.sequences, 2 ≤ t.length) :
    ∃ red, ∃ M : MDP K String (red.length + 1), fit K bound S = .ok (some ⟨red, M⟩) ∧ M.Stochastic ∧ M.actions = [a0] ∧
      ∀ t ∈ S.sequences, Possible M (Fin.last _) ("init" :: a0 :: t) := by
  obtain ⟨A, red, M, h1, ⟨A0, hA0, hv⟩, h2, h3, h4, h5, h6, _⟩ := fit_returns (K := K) hS hb hlong
  have hone : M.actions = [a0] := by
    have hnd := (actions_of_tree hS hA0).1
    rw [← (isTree_known hS hb hA0 hv).same.actions, ← h5] at hnd
    have hall : ∀ a ∈ M.actions, a = a0 := fun a ha => by
      obtain ⟨t, ht, k, e⟩ := (h6 a).1 ha
      exact hact t ht k a e
    obtain ⟨t, ht, hl⟩ := hlong
    have hm : t[1] ∈ M.actions := (h6 _).2 ⟨t, ht, 0, by simp⟩
    match hM : M.actions with
    | [] => rw [hM] at hm; cases hm
    | [b] => rw [hM] at hall; rw [hall b (by simp)]
    | b :: c :: l =>
      rw [hM] at hall hnd
      have e1 := hall b (by simp)
      have e2 := hall c (by simp)
      rw [e1, e2] at hnd
      simp at hnd
  refine ⟨red, M, h1, h2, hone, ?_⟩
  obtain ⟨A', ⟨A0', hA0', hv'⟩, hF⟩ := fit_traces_partial hS hb h1 hstart
  have hlen : A'.actions.length ≤ 1 := by
    rw [(isTree_known hS hb hA0' hv').same.actions]
    obtain ⟨acts, obs, e, rfl⟩ := hA0
    obtain ⟨acts', obs', e', rfl⟩ := hA0'
    rw [e] at e'
    cases e'
    rw [h5, (isTree_known hS hb ⟨acts, obs, e, rfl⟩ hv).same.actions] at hone
    exact hone ▸ le_refl 1
  obtain ⟨a, ha, hp⟩ := hF (fun r _ => firstActions_one hlen r)
  rw [hone] at ha
  cases ha
  exact hp

open Classical in
/-- IOAlergia.py:293-296, the test of `hoeffding`, over the reals; the errors are those of Python's division, `log` and `sqrt`. -/
noncomputable def epsilonTest (epsilon : ℝ) (f1 n1 f2 n2 : ℕ) : Py Bool :=
  if n1 * n2 = 0 then .ok true
  else if epsilon = 0 then .error .zeroDivisionError
  else if epsilon < 0 ∨ 2 < epsilon then .error .valueError
  else .ok (decide (|(f1 : ℝ) / n1 - f2 / n2| < (Real.sqrt (1 / n1) + Real.sqrt (1 / n2)) * Real.sqrt (Real.log (2 / epsilon) / 2)))

/-- The code's test answers for every `epsilon` in (0, 2]: the hypothesis of the theorems above. -/
theorem epsilonTest_total {epsilon : ℝ} (h0 : 0 < epsilon) (h2 : epsilon ≤ 2) (a b c d : ℕ) : ∃ v, epsilonTest epsilon a b c d = .ok v := by
  unfold epsilonTest
  split_ifs with h1 h3 h4
  · exact ⟨_, rfl⟩
  · exact absurd h3 h0.ne'
  · rcases h4 with h | h <;> linarith
  · exact ⟨_, rfl⟩

/-- The test of IOAlergia is that of tools.py (`hoeffdingBound`, C04). -/
theorem epsilonTest_eq (epsilon : ℝ) (f1 n1 f2 n2 : ℕ) : epsilonTest epsilon f1 n1 f2 n2 = Tools.hoeffdingBound f1 n1 f2 n2 epsilon := by
  have h1 : ¬ ((n1 : ℝ) < 0 ∨ (n2 : ℝ) < 0) := by
    rintro (h | h) <;> exact absurd h (not_lt.2 (Nat.cast_nonneg _))
  have h2 : ((n1 : ℝ) * n2 = 0) ↔ n1 * n2 = 0 := by exact_mod_cast Iff.rfl
  have h3 : Real.log (2 / epsilon) / 2 = 1 / 2 * Real.log (2 / epsilon) := by ring
  unfold epsilonTest Tools.hoeffdingBound
  simp only [h2, if_neg h1, h3]

/-- C66 for the test that the code uses. -/
theorem fit_returns_epsilon (hS : Training S) {epsilon : ℝ} (h0 : 0 < epsilon) (h2 : epsilon ≤ 2) (hact : ∃ t ∈ S.sequences, 2 ≤ t.length) :
    ∃ red, ∃ M : MDP ℝ String (red.length + 1), fit ℝ (epsilonTest epsilon) S = .ok (some ⟨red, M⟩) ∧ M.Stochastic := by
  obtain ⟨A, red, M, h1, _, h3, _⟩ := fit_returns (K := ℝ) hS (epsilonTest_total h0 h2) hact
  exact ⟨red, M, h1, h3⟩

/-- A test: the frequencies differ by less than 1/2. -/
def half : ℕ → ℕ → ℕ → ℕ → Py Bool := fun f1 n1 f2 n2 => .ok (decide (|(f1 : ℚ) / n1 - f2 / n2| < 1 / 2))

theorem half_total : ∀ a b c d, ∃ v, half a b c d = .ok v := fun _ _ _ _ => ⟨_, rfl⟩

/-- In state 'x' the actions 'a' and 'b' were done, in state 'y' only 'b'. -/
def sampleActions : TSet String := ⟨[["x", "a", "y", "b", "x"], ["x", "b", "y", "b", "y"]], [3, 2], false, some 1⟩

/-- One action; after 'x' the observation is 'x' 14 times, and 'y' twice. -/
def sampleCounts : TSet String := ⟨[["x", "a", "x", "a", "x"], ["x", "a", "x", "a", "y"]], [6, 2], false, some 1⟩

/-- Two first observations. -/
def sampleStarts : TSet String := ⟨[["x", "a", "x"], ["z", "a", "z"]], [1, 1], false, some 1⟩

/-- Traces that start with 'init', as those that a `jajapy` model generates. -/
def sampleInit : TSet String := ⟨[["init", "a", "x"]], [1], false, some 1⟩

/-- After 'x' the first action always gives 'x', the second one always 'y'. -/
def sampleUnseen : TSet String := ⟨[["x", "a", "x", "a", "y"]], [8], false, some 1⟩

theorem sampleActions_training : Training sampleActions := ⟨by decide, by decide, by decide, by decide⟩
theorem sampleCounts_training : Training sampleCounts := ⟨by decide, by decide, by decide, by decide⟩
theorem sampleStarts_training : Training sampleStarts := ⟨by decide, by decide, by decide, by decide⟩
theorem sampleInit_training : Training sampleInit := ⟨by decide, by decide, by decide, by decide⟩
theorem sampleUnseen_training : Training sampleUnseen := ⟨by decide, by decide, by decide, by decide⟩

/-- Checks the result of a run. -/
def check (r : Py (Option (Σ red : List ℕ, MDP ℚ String (red.length + 1)))) (P : ∀ red : List ℕ, MDP ℚ String (red.length + 1) → Bool) : Bool :=
  match r with
  | .ok (some ⟨red, M⟩) => P red M
  | _ => false

theorem check_spec {r : Py (Option (Σ red : List ℕ, MDP ℚ String (red.length + 1)))} {P : ∀ red : List ℕ, MDP ℚ String (red.length + 1) → Bool}
    (h : check r P = true) : ∃ red M, r = .ok (some ⟨red, M⟩) ∧ P red M = true := by
  unfold check at h
  split at h
  · exact ⟨_, _, rfl, h⟩
  · cases h

/-- C52 fails. In the traces only the action 'b' is done in 'y'; in the learnt MDP the state 'y' has the action 'a' and not the action 'b'. -/
theorem wrong_action : ∃ red, ∃ M : MDP ℚ String (red.length + 1), fit ℚ half sampleActions = .ok (some ⟨red, M⟩) ∧
    (∀ o, stepCount (sampleActions.sequences.zip sampleActions.times) "y" "a" o = 0) ∧
    ∃ s, M.labelling s = "y" ∧ (∃ s', M.prob s "a" s' = 3 / 5) ∧ ∀ s', M.prob s "b" s' = 0 := by
  obtain ⟨red, M, h1, h2⟩ := check_spec (r := fit ℚ half sampleActions) (P := fun red M =>
    decide (∃ s, M.labelling s = "y" ∧ (∃ s', M.prob s "a" s' = 3 / 5) ∧ ∀ s', M.prob s "b" s' = 0)) (by decide +kernel)
  refine ⟨red, M, h1, ?_, by simpa using h2⟩
  intro o
  simp [stepCount, sampleActions, steps, List.count_cons]

/-- C52 fails. All the states with the observation 'x' become one state; 'x' follows 'x' 14 times out of 16, but the learnt probability is 4/5: when states
are merged the counts of their common successors are not added. -/
theorem merged_counts_lost : ∃ red, ∃ M : MDP ℚ String (red.length + 1), fit ℚ half sampleCounts = .ok (some ⟨red, M⟩) ∧
    stepCount (sampleCounts.sequences.zip sampleCounts.times) "x" "a" "x" = 14 ∧ stepCount (sampleCounts.sequences.zip sampleCounts.times) "x" "a" "y" = 2 ∧
    ∃ s, (∀ s', M.labelling s' = "x" ↔ s' = s) ∧ M.prob s "a" s = 4 / 5 := by
  obtain ⟨red, M, h1, h2⟩ := check_spec (r := fit ℚ half sampleCounts) (P := fun red M =>
    decide (∃ s, (∀ s', M.labelling s' = "x" ↔ s' = s) ∧ M.prob s "a" s = 4 / 5)) (by decide +kernel)
  exact ⟨red, M, h1, by decide +kernel, by decide +kernel, by simpa using h2⟩

/-- C68 fails. A training trace that starts with another observation than the first of the tree cannot be produced: from 'init' only the state 'x' is
reached. -/
theorem second_start_lost : ∃ red, ∃ M : MDP ℚ String (red.length + 1), fit ℚ half sampleStarts = .ok (some ⟨red, M⟩) ∧
    (["z", "a", "z"] ∈ sampleStarts.sequences) ∧ M.lik ["init", "a", "x", "a", "x"] = 1 ∧ ∀ a ∈ M.actions, M.lik ["init", a, "z", "a", "z"] = 0 := by
  obtain ⟨red, M, h1, h2⟩ := check_spec (r := fit ℚ half sampleStarts) (P := fun red M =>
    decide (M.lik ["init", "a", "x", "a", "x"] = 1 ∧ ∀ a ∈ M.actions, M.lik ["init", a, "z", "a", "z"] = 0)) (by decide +kernel)
  exact ⟨red, M, h1, by decide, by simpa using h2⟩

/-- C68 fails. Training traces that already start with 'init' give an MDP with two states 'init': a trace that has
probability 1 in the data has probability 1/2 in the result, and 'init' may follow 'init'. -/
theorem init_doubled : ∃ red, ∃ M : MDP ℚ String (red.length + 1), fit ℚ half sampleInit = .ok (some ⟨red, M⟩) ∧
    M.lik ["init", "a", "x"] = 1 / 2 ∧ M.lik ["init", "a", "init"] = 1 / 2 := by
  obtain ⟨red, M, h1, h2⟩ := check_spec (r := fit ℚ half sampleInit) (P := fun red M =>
    decide (M.lik ["init", "a", "x"] = 1 / 2 ∧ M.lik ["init", "a", "init"] = 1 / 2)) (by decide +kernel)
  exact ⟨red, M, h1, by simpa using h2⟩

/-- C67 fails. In the first configuration, the red state (prefix 'x') saw only 'x' after 'a' and the blue state (prefix 'x','a','x') only 'y'; the
frequencies do not pass the test for 'x', but the states are merged. -/
theorem test_ignores_unseen : ∃ A0, IsTree sampleUnseen A0 ∧ Visited half A0 A0 [0] [1] ∧ compatTest half A0 0 1 = .ok true ∧
    seen A0 0 "a" "x" = 8 ∧ total A0 0 "a" = 8 ∧ seen A0 1 "a" "x" = 0 ∧ total A0 1 "a" = 8 ∧ ¬ AlikeEverywhere half A0 0 1 := by
  refine ⟨build (sampleUnseen.sequences.zip sampleUnseen.times) (["x", "y"].insertionSort (· ≤ ·)) (["a"].insertionSort (· ≤ ·)),
    ⟨["a"], ["x", "y"], by decide +kernel, rfl⟩, ?_, by decide +kernel, by decide +kernel, by decide +kernel, by decide +kernel, by decide +kernel, ?_⟩
  · exact Visited.start
  · intro h
    have := h "a" (by decide +kernel) (by decide +kernel) "x"
    revert this
    decide +kernel

example : ∃ A0, IsTree sampleActions A0 ∧ A0.size = 5 := by
  refine ⟨_, ⟨["a", "b"], ["x", "y"], by decide +kernel, rfl⟩, by decide +kernel⟩

example : ∃ t ∈ sampleActions.sequences, 2 ≤ t.length := ⟨_, List.mem_cons_self, by decide⟩

/-- The frequencies of `fit_frequencies_partial`, on a set with one action. -/
example : ∃ A red, ∃ M : MDP ℚ String (red.length + 1), fit ℚ half sampleCounts = .ok (some ⟨red, M⟩) ∧ Learnt half sampleCounts A red ∧
    ∀ r ∈ red, FirstActions A r := by
  obtain ⟨A, red, M, h1, h2, _, _, _, h3, _⟩ := fit_returns (K := ℚ) sampleCounts_training half_total ⟨_, List.mem_cons_self, by decide⟩
  refine ⟨A, red, M, h1, h2, fun r _ => firstActions_one ?_ r⟩
  obtain ⟨red', M', h1', h2'⟩ := check_spec (r := fit ℚ half sampleCounts) (P := fun red M => decide (M.actions.length ≤ 1)) (by decide +kernel)
  rw [h1] at h1'
  cases h1'
  rw [← h3]
  simpa using h2'

end Jajapy.IOAlergia
