import Verif.Lemmas.IOAlergiaMDP
import Verif.Props.TSet

/-!
From the training set to the MDP.
-/

namespace Jajapy.IOAlergia

open Relation Auto Spec.IOAlergia Finset Create

variable {S : TSet String} {bound : ℕ → ℕ → ℕ → ℕ → Py Bool}

theorem mem_zip (hS : Training S) {t : List String} : (∃ n, (t, n) ∈ S.sequences.zip S.times) ↔ t ∈ S.sequences := by
  constructor
  · rintro ⟨n, h⟩; exact (List.of_mem_zip h).1
  · intro h
    obtain ⟨i, hi, rfl⟩ := List.getElem_of_mem h
    have hi' : i < (S.sequences.zip S.times).length := by
      rw [List.length_zip, hS.times, Nat.min_self]; exact hi
    have := List.getElem_mem hi'
    rw [List.getElem_zip] at this
    exact ⟨_, this⟩

theorem training_good (hS : Training S) {acts obs : List String} (h : S.getActionsObservations = .ok (acts, obs)) :
    Good (S.sequences.zip S.times) (obs.insertionSort (· ≤ ·)) (acts.insertionSort (· ≤ ·)) ∧ acts.Nodup ∧
      ∀ a, a ∈ acts ↔ ∃ t ∈ S.sequences, ∃ k : ℕ, t[2 * k + 1]? = some a := by
  obtain ⟨A, O, e, h1, h2, h3, h4⟩ := TSet.getActionsObservations_spec S hS.odd
  rw [h] at e
  cases e
  refine ⟨⟨?_, ?_, ?_, (List.perm_insertionSort _ _).nodup_iff.2 h2⟩, h1, h3⟩
  · rintro ⟨t, n⟩ ht
    exact hS.pos n (List.of_mem_zip ht).2
  · rintro ⟨t, n⟩ ht k o e
    rw [List.mem_insertionSort]
    exact (h4 o).2 ⟨t, (List.of_mem_zip ht).1, k, e⟩
  · rintro ⟨t, n⟩ ht k o e
    rw [List.mem_insertionSort]
    exact (h3 o).2 ⟨t, (List.of_mem_zip ht).1, k, e⟩

theorem labels_pos (hS : Training S) : 0 < (labels (S.sequences.zip S.times)).length := by
  obtain ⟨t, l, e⟩ := List.exists_cons_of_ne_nil hS.nonempty
  have ht : t ∈ S.sequences := by rw [e]; exact List.mem_cons_self
  obtain ⟨n, hn⟩ := (mem_zip hS).2 ht
  exact List.length_pos_of_mem (mem_labels.2 ⟨hS.odd t ht, (t, n), hn, List.prefix_rfl⟩)

theorem isTree_exists (hS : Training S) : ∃ A, IsTree S A := by
  obtain ⟨A, O, e, _⟩ := TSet.getActionsObservations_spec S hS.odd
  exact ⟨_, A, O, e, rfl⟩

theorem isTree_inv (hS : Training S) {A : Auto} (h : IsTree S A) : Inv A [0] (A.initial.flatMap (fun i => (A.node i).successors)) ∅ := by
  obtain ⟨acts, obs, e, rfl⟩ := h
  exact build_inv (training_good hS e).1 (labels_pos hS)

theorem isTree_known (hS : Training S) (hb : ∀ a b c d, ∃ v, bound a b c d = .ok v) {A0 A : Auto} {red blue : List ℕ} (h : IsTree S A0)
    (hv : Visited bound A0 A red blue) : Known A0 A red blue := visited_known hb (isTree_inv hS h) hv

/-- The loop of `fit` ends. -/
theorem mergeStates_ok (hS : Training S) (hb : ∀ a b c d, ∃ v, bound a b c d = .ok v) {A0 : Auto} (h : IsTree S A0) :
    ∃ A red, mergeStates (compatTest bound) A0 = .ok (some (A, red)) ∧ Visited bound A0 A red [] := by
  have I := isTree_inv hS h
  obtain ⟨A, red, D, e, _⟩ := loop_spec (compat_loop hb) (A0.size + 1) A0 [0] _ ∅ I (depth := A0.size + 1) (by omega) (by simp)
  exact ⟨A, red, e, loop_visited hb _ A0 [0] _ A red rfl .start (fun _ _ _ hv => isTree_known hS hb h hv) e⟩

theorem actions_of_tree (hS : Training S) {A0 : Auto} (h : IsTree S A0) : A0.actions.Nodup ∧
    ∀ a, a ∈ A0.actions ↔ ∃ t ∈ S.sequences, ∃ k : ℕ, t[2 * k + 1]? = some a := by
  obtain ⟨acts, obs, e, rfl⟩ := h
  obtain ⟨_, h1, h2⟩ := training_good hS e
  refine ⟨(List.perm_insertionSort _ _).nodup_iff.2 h1, ?_⟩
  intro a
  show a ∈ acts.insertionSort (· ≤ ·) ↔ _
  rw [List.mem_insertionSort, h2]

section
variable {K : Type} [Field K] [LinearOrder K] [IsStrictOrderedRing K] [FloorRing K]

omit [IsStrictOrderedRing K] in
/-- `fit`, step by step. -/
theorem fit_eq (hS : Training S) (hb : ∀ a b c d, ∃ v, bound a b c d = .ok v) : ∃ A0 A red, IsTree S A0 ∧ Visited bound A0 A red [] ∧
    fit K bound S = (do let M ← cleanMDP K A red; return some ⟨red, M⟩) := by
  obtain ⟨acts, obs, e, _⟩ := TSet.getActionsObservations_spec S hS.odd
  have hT : IsTree S (build (S.sequences.zip S.times) (obs.insertionSort (· ≤ ·)) (acts.insertionSort (· ≤ ·))) := ⟨acts, obs, e, rfl⟩
  obtain ⟨A, red, e2, hv⟩ := mergeStates_ok hS hb hT
  refine ⟨_, A, red, hT, hv, ?_⟩
  unfold fit
  rw [e]
  simp only [bind, Except.bind]
  rw [if_neg hS.nonempty, e2]

/-- The position of an allowed action. -/
theorem allowed_get {A : Auto} {x : ℕ} (hn : A.actions.Nodup) (h : FirstActions A x) {i : ℕ} (hi : i < A.actions.length) :
    (allowedList A x)[i]? = if A.actions[i] ∈ (A.node x).acts then some A.actions[i] else none := by
  obtain ⟨k, hk⟩ := h
  have e : allowedList A x = A.actions.take k := by
    unfold allowedList
    have h1 : A.actions.filter (fun a => decide (a ∈ (A.node x).acts)) = A.actions.filter (fun a => decide (a ∈ A.actions.take k)) := by
      refine List.filter_congr ?_
      intro a ha
      simp only [hk a ha]
    rw [h1]
    have h2 := hn
    rw [← List.take_append_drop k A.actions, List.nodup_append] at h2
    have h3 : A.actions.filter (fun a => decide (a ∈ A.actions.take k)) =
        (A.actions.take k ++ A.actions.drop k).filter (fun a => decide (a ∈ A.actions.take k)) := by
      rw [List.take_append_drop]
    rw [h3, List.filter_append, List.filter_eq_self.2, List.filter_eq_nil_iff.2, List.append_nil]
    · intro a ha
      simp only [decide_eq_true_eq]
      exact fun h => h2.2.2 a h a ha rfl
    · intro a ha
      simpa using ha
  rw [e]
  by_cases hik : i < k
  · rw [List.getElem?_take_of_lt hik, List.getElem?_eq_getElem hi, if_pos]
    rw [hk _ (List.getElem_mem hi)]
    exact List.mem_take_iff_getElem.2 ⟨i, by omega, rfl⟩
  · rw [List.getElem?_eq_none (by rw [List.length_take]; omega), if_neg]
    rw [hk _ (List.getElem_mem hi)]
    intro hm
    obtain ⟨j, hj, e⟩ := List.mem_take_iff_getElem.1 hm
    have := (hn.getElem_inj_iff).1 e
    omega

omit [LinearOrder K] [IsStrictOrderedRing K] [FloorRing K] in
/-- The transition probabilities of a state whose actions are the first ones. -/
theorem prob_learnt {A : Auto} {red : List ℕ} {D : Set ℕ} (I : Inv A red [] D) (hn : A.actions.Nodup) {M : MDP K String (red.length + 1)}
    (ha : M.actions = A.actions) (hm : ∀ si ai j, M.matrix si ai j = cleanMatrix K A red si (ai.cast (by rw [ha]) : Fin A.actions.length) j)
    (i : Fin red.length) (hF : FirstActions A red[i]) (a : String) :
    (a ∉ (A.node red[i]).acts → ∀ j, M.prob i.castSucc a j = 0) ∧
    (a ∈ (A.node red[i]).acts → M.prob i.castSucc a (Fin.last _) = 0 ∧
      ∀ j : Fin red.length, M.prob i.castSucc a j.castSucc = (going A red[i] a red[j] : K) / (total A red[i] a : K)) := by
  obtain ⟨acts, mat, lab, init⟩ := M
  dsimp only at ha hm
  subst ha
  have hr : red.getD i 0 = red[i] := List.getD_eq_getElem _ _ i.2
  have hmat : ∀ (ai : Fin A.actions.length) (j : Fin (red.length + 1)), mat i.castSucc ai j =
      if A.actions[ai] ∈ (A.node red[i]).acts then cleanRow K red ((A.node red[i]).trans A.actions[ai]) j else 0 := by
    intro ai j
    rw [hm]
    unfold cleanMatrix
    simp only [Fin.val_castSucc, i.2, if_true, Fin.val_cast]
    rw [hr, allowed_get hn hF ai.2]
    by_cases h : A.actions[ai] ∈ (A.node red[i]).acts
    · rw [if_pos h]
      simp only [Fin.getElem_fin] at h ⊢
      rw [if_pos h]
    · rw [if_neg h]
      simp only [Fin.getElem_fin] at h ⊢
      rw [if_neg h]
  unfold MDP.prob
  dsimp only
  constructor
  · intro hna j
    refine Finset.sum_eq_zero ?_
    intro ai _
    by_cases e : A.actions[ai] = a
    · rw [if_pos e, hmat, if_neg (e ▸ hna)]
    · rw [if_neg e]
  · intro hal
    have key : ∀ j, (∑ ai : Fin A.actions.length, if A.actions[ai] = a then mat i.castSucc ai j else 0) = cleanRow K red ((A.node red[i]).trans a) j := by
      intro j
      obtain ⟨k, hk, e⟩ := List.getElem_of_mem (I.wf.acts hal)
      rw [Finset.sum_eq_single (⟨k, hk⟩ : Fin A.actions.length)]
      · simp only [Fin.getElem_fin]
        rw [if_pos e, hmat]
        simp only [Fin.getElem_fin]
        rw [e]
        simp only [Fin.getElem_fin] at hal
        rw [if_pos hal]
      · intro b _ hb
        rw [if_neg]
        intro e'
        apply hb
        simp only [Fin.getElem_fin] at e'
        exact Fin.ext ((hn.getElem_inj_iff).1 (e'.trans e.symm))
      · simp
    have hcl := inv_closed I red[i] (List.getElem_mem i.2) a ((mem_allowed I.wf).2 hal)
    refine ⟨?_, ?_⟩
    · rw [key]
      exact cleanRow_last I.wf hal hcl
    · intro j
      rw [key]
      exact cleanRow_get I.wf hal hcl I.redNodup j.2

/-- What a successful call of `fit` gives. -/
theorem fit_inv (hS : Training S) (hb : ∀ a b c d, ∃ v, bound a b c d = .ok v) {red : List ℕ}
    {M : MDP K String (red.length + 1)} (h : fit K bound S = .ok (some ⟨red, M⟩)) : ∃ A0 A D, IsTree S A0 ∧ Visited bound A0 A red [] ∧ Known A0 A red [] ∧
      Inv A red [] D ∧ M.Stochastic ∧ M.labelling (Fin.last _) = "init" ∧ (∀ i : Fin red.length, M.labelling i.castSucc = (A.node red[i]).obs) ∧
      A.actions.Nodup ∧ A.actions ≠ [] ∧
      ∃ h : M.actions = A.actions, ∀ si ai j, M.matrix si ai j = cleanMatrix K A red si (ai.cast (by rw [h])) j := by
  obtain ⟨A0, A, red', h0, hv, e⟩ := fit_eq (K := K) hS hb
  have hk := isTree_known hS hb h0 hv
  obtain ⟨D, I⟩ := hk.inv
  obtain ⟨hnd, hacts⟩ := actions_of_tree hS h0
  rw [h] at e
  by_cases hne : A.actions = []
  · unfold cleanMDP at e
    rw [if_pos (inv_closed I), if_pos hne] at e
    cases e
  · obtain ⟨M', hM, h1, h2, h3, h4, h5⟩ := cleanMDP_ok (K := K) I hne
    rw [hM] at e
    cases e
    exact ⟨A0, A, D, h0, hv, hk, I, h1, h2, h3, hk.same.actions ▸ hnd, hne, h4, h5⟩

end

/-! ### The counts -/

theorem filter_unique {α β : Type} [DecidableEq β] {f : α → β} : ∀ {l : List α}, (l.map f).Nodup → ∀ {q : α}, q ∈ l → l.filter (fun p => decide (f p = f q)) = [q]
  | [], _, _, hq => by cases hq
  | x :: l, hn, q, hq => by
    rw [List.map_cons, List.nodup_cons] at hn
    rcases List.mem_cons.1 hq with rfl | hq
    · rw [List.filter_cons_of_pos (by simp), List.filter_eq_nil_iff.2]
      intro p hp
      simp only [decide_eq_true_eq]
      intro e
      exact hn.1 (e ▸ List.mem_map_of_mem hp)
    · rw [List.filter_cons_of_neg, filter_unique hn.2 hq]
      simp only [decide_eq_true_eq]
      intro e
      exact hn.1 (e ▸ List.mem_map_of_mem hq)

theorem seen_of_arc {A : Auto} (W : A.WF) {x c y : ℕ} {a o : String} (h : Arc A x a o c y) : seen A x a o = c := by
  obtain ⟨h1, h2, h3⟩ := h
  unfold seen
  subst h3
  rw [filter_unique (f := fun q : ℕ × ℕ => (A.node q.2).obs) (W.det h1) h2]
  simp

theorem sum_going (P : ℕ → Prop) [DecidablePred P] {red : List ℕ} (hn : red.Nodup) : ∀ (l : List (ℕ × ℕ)), (∀ q ∈ l, q.2 ∈ red) →
    (∑ j : Fin red.length, if P red[j] then (l.map (fun q => if q.2 = red[j] then q.1 else 0)).sum else 0) =
      ((l.filter (fun q => decide (P q.2))).map (·.1)).sum
  | [], _ => by simp
  | q :: l, h => by
    have ih := sum_going P hn l (fun q hq => h q (List.mem_cons_of_mem _ hq))
    obtain ⟨k, hk, e⟩ := List.getElem_of_mem (h q List.mem_cons_self)
    have h1 : (∑ j : Fin red.length, if P red[j] then ((q :: l).map (fun q => if q.2 = red[j] then q.1 else 0)).sum else 0) =
        (∑ j : Fin red.length, if P red[j] then (if q.2 = red[j] then q.1 else 0) else 0) +
          ∑ j : Fin red.length, if P red[j] then (l.map (fun q => if q.2 = red[j] then q.1 else 0)).sum else 0 := by
      rw [← Finset.sum_add_distrib]
      refine Finset.sum_congr rfl ?_
      intro j _
      split
      · rw [List.map_cons, List.sum_cons]
      · rfl
    rw [h1, ih, Finset.sum_eq_single (⟨k, hk⟩ : Fin red.length)]
    · simp only [Fin.getElem_fin, e, if_true]
      by_cases hp : P q.2
      · rw [if_pos hp, List.filter_cons_of_pos (by simpa using hp), List.map_cons, List.sum_cons]
      · rw [if_neg hp, List.filter_cons_of_neg (by simpa using hp), zero_add]
    · intro j _ hj
      have : q.2 ≠ red[j] := by
        rw [← e]
        intro e'
        exact hj (Fin.ext ((hn.getElem_inj_iff).1 e').symm)
      rw [if_neg this, ite_self]
    · simp

theorem sum_seen {A : Auto} {O : Finset String} {x : ℕ} {a : String} (h : ∀ q ∈ (A.node x).trans a, (A.node q.2).obs ∈ O) :
    ∑ o ∈ O, seen A x a o = total A x a := by
  unfold seen total
  generalize (A.node x).trans a = l at h ⊢
  induction l with
  | nil => simp
  | cons q l ih =>
    rw [List.map_cons, List.sum_cons, ← ih (fun q hq => h q (List.mem_cons_of_mem _ hq))]
    have h1 : ∀ o, (((q :: l).filter (fun q => decide ((A.node q.2).obs = o))).map (·.1)).sum =
        (if (A.node q.2).obs = o then q.1 else 0) + ((l.filter (fun q => decide ((A.node q.2).obs = o))).map (·.1)).sum := by
      intro o
      by_cases hp : (A.node q.2).obs = o
      · rw [if_pos hp, List.filter_cons_of_pos (by simpa using hp), List.map_cons, List.sum_cons]
      · rw [if_neg hp, List.filter_cons_of_neg (by simpa using hp), zero_add]
    simp only [h1]
    rw [Finset.sum_add_distrib, Finset.sum_ite_eq, if_pos (h q List.mem_cons_self)]

/-! ### Traces -/

theorem trace_eq : ∀ (w : List (String × String)) (o : String), trace o w = [o] ++ w.flatMap (fun k => [k.1, k.2])
  | [], _ => rfl
  | (a, o') :: w, o => by
    rw [trace, trace_eq w o']
    rfl

theorem odd_trace : ∀ (n : ℕ) (t : List String), t.length = n → n % 2 = 1 → ∃ o w, t = trace o w
  | 0, _, _, h => by omega
  | 1, [o], _, _ => ⟨o, [], rfl⟩
  | n + 2, o :: a :: t, hl, h => by
    obtain ⟨o', w, e⟩ := odd_trace n t (by simpa using hl) (by omega)
    exact ⟨o, (a, o') :: w, by rw [e, trace]⟩

theorem possible_of_reads {K : Type} [Field K] [LinearOrder K] [IsStrictOrderedRing K] {A : Auto} {red : List ℕ} {D : Set ℕ} (I : Inv A red [] D)
    (hn : A.actions.Nodup) {M : MDP K String (red.length + 1)} (hlab : ∀ i : Fin red.length, M.labelling i.castSucc = (A.node red[i]).obs)
    (ha : M.actions = A.actions) (hm : ∀ si ai j, M.matrix si ai j = cleanMatrix K A red si (ai.cast (by rw [ha]) : Fin A.actions.length) j)
    (hF : ∀ r ∈ red, FirstActions A r) : ∀ (w : List (String × String)) (i : Fin red.length) (z : ℕ), Reads A red[i] w z →
      Possible M i.castSucc (trace (A.node red[i]).obs w)
  | [], i, z, _ => by
    rw [trace, ← hlab]
    exact .last _
  | (a, o) :: w, i, z, h => by
    obtain ⟨c, y, harc, h⟩ := h
    have hcl := inv_closed I red[i] (List.getElem_mem i.2) a ((mem_allowed I.wf).2 harc.1) _ harc.2.1
    dsimp only at hcl
    obtain ⟨j, hj, rfl⟩ := List.getElem_of_mem hcl
    have ih := possible_of_reads I hn hlab ha hm hF w ⟨j, hj⟩ z h
    obtain ⟨_, hp⟩ := prob_learnt I hn ha hm i (hF _ (List.getElem_mem i.2)) a
    rw [trace, ← hlab, ← harc.2.2]
    refine .step (s' := (⟨j, hj⟩ : Fin red.length).castSucc) ?_ ih
    rw [(hp harc.1).2]
    have h1 : 0 < going A red[i] a red[j] := by
      unfold going
      have h3 := I.wf.pos harc.1 harc.2.1
      have h4 := List.single_le_sum (l := ((A.node red[i]).trans a).map (fun q => if q.2 = red[j] then q.1 else 0)) (by simp) c
        (List.mem_map.2 ⟨_, harc.2.1, by simp⟩)
      dsimp only at h3
      omega
    have h2 := total_pos I.wf harc.1
    exact div_pos (by exact_mod_cast h1) (by exact_mod_cast h2)

end Jajapy.IOAlergia
