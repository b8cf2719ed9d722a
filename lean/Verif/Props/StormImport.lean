import Verif.Props.Storm
import Verif.Props.CreatePCTMC
import Verif.Lemmas.Compose

/-!
C70: MDPs and PCTMCs built by Storm. What the conversions do not keep.
-/

namespace Jajapy.Storm

open Spec Spec.Storm Create Finset

variable {K : Type} [Field K] [LinearOrder K]

/-! ### MDPs -/

omit [LinearOrder K] in
theorem value_eq_mdp {S : Sparse K} (hS : Valid S) (i a j : ℕ) : value S i a j = denseRow 0 (rowMDP S i a) j := by
  unfold value rowMDP
  cases hs : S.states[i]? with
  | none => rfl
  | some s =>
    simp only [Option.map_some, Option.getD_some]
    cases ha : s.actions[a]? with
    | none => rw [List.getD_eq_getElem?_getD, ha]; rfl
    | some r =>
      rw [List.getD_eq_getElem?_getD, ha]
      simp only [Option.getD_some]
      rw [denseRow_sum (hS.columns s (List.mem_of_getElem? hs) r (List.mem_of_getElem? ha))]

theorem actionName_default {a b : ℕ} (h : actionName [] a = actionName [] b) : a = b := by
  simp only [actionName, List.length_nil, Nat.zero_le, if_true] at h
  have := congrArg String.toList h
  rw [String.toList_append, String.toList_append] at this
  exact Compose.toString_inj (String.toList_inj.1 (List.append_cancel_left this))

theorem order_perm {V : Type} {S : Sparse V} {m : ℕ} {names order : List String} (hm : ∀ s ∈ S.states, s.actions.length ≤ m)
    (hm' : ∃ s ∈ S.states, s.actions.length = m) (hnd : ((List.range m).map (actionName names)).Nodup) (ho : SetOrder order (allNames S names)) :
    order.Perm ((List.range m).map (actionName names)) := by
  rw [List.perm_ext_iff_of_nodup ho.1 hnd]
  intro x
  rw [ho.2 x]
  unfold allNames
  rw [List.mem_flatMap]
  simp only [List.mem_map, List.mem_range]
  constructor
  · rintro ⟨s, hs, a, ha, rfl⟩
    exact ⟨a, lt_of_lt_of_le ha (hm s hs), rfl⟩
  · rintro ⟨a, ha, rfl⟩
    obtain ⟨s, hs, e⟩ := hm'
    exact ⟨s, hs, a, by omega, rfl⟩

variable [IsStrictOrderedRing K] [FloorRing K]

/-- C70, MDPs: the states, their labels and, for each action number, the probabilities of Storm's model (0 for an action that the state does not have). The
state 'init' that may be added goes to the initial state with every action. (Missing: that the action number `a` has its own name `actionName names a` in the
result. The names are in the order `order` that Python chooses, see `actions_swapped`.) -/
theorem toMDP_spec_partial {S : Sparse K} (hS : Valid S) {m : ℕ} {names order : List String} (hm : ∀ s ∈ S.states, s.actions.length ≤ m)
    (hm' : ∃ s ∈ S.states, s.actions.length = m) (hnd : ((List.range m).map (actionName names)).Nodup) (ho : SetOrder order (allNames S names))
    {k : ℕ} (hk : OnlyInit S k)
    (hsum : ∀ i < S.states.length, ∀ a, ∑ j : Fin S.states.length, value S i a j = 1 ∨ ∑ j : Fin S.states.length, value S i a j = 0) :
    ∃ n, ∃ M : MDP K String n, toMDP S order = .ok ⟨n, M⟩ ∧ M.actions = order ∧ order.Perm ((List.range m).map (actionName names)) ∧
      (Named (labels S k) → ∃ h : n = S.states.length + 1, (∀ s, M.labelling s = newLabels S (s.cast h)) ∧
        (∀ (i j : Fin S.states.length) (a : Fin M.actions.length), M.matrix (i.castSucc.cast h.symm) a (j.castSucc.cast h.symm) = value S i a j ∧
          M.matrix (i.castSucc.cast h.symm) a ((Fin.last _).cast h.symm) = 0 ∧
          M.matrix ((Fin.last _).cast h.symm) a (j.castSucc.cast h.symm) = if j.val = k then 1 else 0) ∧
        ∀ s, M.initialState s = if s.cast h = Fin.last _ then 1 else 0) ∧
      (¬ Named (labels S k) → ∃ h : n = S.states.length, (∀ s, M.labelling s = name (labels S s)) ∧
        (∀ (i j : Fin S.states.length) (a : Fin M.actions.length), M.matrix (i.cast h.symm) a (j.cast h.symm) = value S i a j) ∧
        ∀ s, M.initialState s = if s.val = k then 1 else 0) := by
  have hperm := order_perm hm hm' hnd ho
  have hol : order.length = m := by rw [hperm.length_eq]; simp
  have hN : k < S.states.length := hk.1
  have hdrop : ∀ s ∈ S.states, ∀ r ∈ s.actions.drop order.length, r.isEmpty = true := by
    intro s hs r hr
    rw [List.drop_eq_nil_of_le (by rw [hol]; exact hm s hs)] at hr
    cases hr
  have hval : ∀ (i j : Fin S.states.length) (a : ℕ), denseRow 0 (rowMDP S i a) j = value S i a j := fun i j a => (value_eq_mdp hS i a j).symm
  have hok : ∀ {n : ℕ} (f : Fin n → K), (∑ j, f j = 1 ∨ ∑ j, f j = 0) → RowOK f := by
    intro n f h
    rcases h with h | h
    · left; rw [h]; simp
    · right; rw [h]; simp
  by_cases hn : Named (labels S k)
  swap
  · obtain ⟨hadd, hin, hlen, hlab⟩ := fromLabels_old (K := K) hS.labels hk hn
    refine ⟨S.states.length, ⟨order, fun i a j => value S i a j, fun i => name (labels S i), fun i => if i.val = k then 1 else 0⟩,
      toMDP_of (size_none hadd) hdrop ?_, rfl, hperm, fun h => absurd h hn, fun _ => ⟨rfl, fun _ => rfl, fun _ _ _ => rfl, fun _ => rfl⟩⟩
    rw [mkMDP_ok_iff]
    have hx : ∀ (i : Fin S.states.length) (a : Fin order.length) (j : Fin S.states.length),
        extendMDP S.states.length (addInit S) (fun i a => denseRow 0 (rowMDP S i a)) i a j = value S i a j := by
      intro i a j
      simp only [extendMDP, if_pos i.2, if_pos j.2, hval]
    refine ⟨hin, hlen, ?_, ⟨rfl, fun i a j => (hx i a j).symm⟩, hlab⟩
    intro i a
    apply hok
    simp only [hx]
    exact hsum i i.2 a
  · obtain ⟨hadd, hin, hlen, hlab⟩ := fromLabels_new (K := K) hS.labels hk hn
    let mat : Fin (S.states.length + 1) → Fin order.length → Fin (S.states.length + 1) → K :=
      fun i a j => extendMDP S.states.length (addInit S) (fun i a => denseRow 0 (rowMDP S i a)) i a j
    have m1 : ∀ (i j : Fin S.states.length) a, mat i.castSucc a j.castSucc = value S i a j := by
      intro i j a
      refine Eq.trans ?_ (hval i j a)
      simp only [mat, extendMDP, Fin.val_castSucc, if_pos i.2, if_pos j.2]
    have m2 : ∀ (i : Fin S.states.length) a, mat i.castSucc a (Fin.last _) = 0 := by
      intro i a
      simp only [mat, extendMDP, Fin.val_castSucc, if_pos i.2, Fin.val_last, lt_irrefl, if_false]
    have m3 : ∀ (j : Fin S.states.length) a, mat (Fin.last _) a j.castSucc = if j.val = k then 1 else 0 := by
      intro j a
      simp only [mat, extendMDP, hadd, Fin.val_castSucc, Fin.val_last, lt_irrefl, if_false, Option.some.injEq]
    have m4 : ∀ a, mat (Fin.last _) a (Fin.last _) = 0 := by
      intro a
      simp only [mat, extendMDP, hadd, Fin.val_last, lt_irrefl, if_false, Option.some.injEq]
      exact if_neg (by omega)
    refine ⟨S.states.length + 1, ⟨order, mat, newLabels S, fun s => if s = Fin.last _ then 1 else 0⟩,
      toMDP_of (by unfold size; rw [hadd]; rfl) hdrop ?_, rfl, hperm, fun _ => ⟨rfl, fun _ => rfl, fun i j a => ⟨m1 i j a, m2 i a, m3 j a⟩, fun _ => rfl⟩,
      fun h => absurd hn h⟩
    rw [mkMDP_ok_iff]
    refine ⟨hin, hlen, ?_, ⟨rfl, fun _ _ _ => rfl⟩, hlab⟩
    intro i a
    apply hok
    show ∑ j, mat i a j = 1 ∨ ∑ j, mat i a j = 0
    rw [Fin.sum_univ_castSucc]
    refine Fin.lastCases ?_ (fun i => ?_) i
    · simp only [m3, m4]
      left
      rw [Finset.sum_eq_single (⟨k, hN⟩ : Fin S.states.length)]
      · simp
      · intro j _ hj
        rw [if_neg (fun e => hj (Fin.ext e))]
      · simp
    · simp only [m1, m2, add_zero]
      exact hsum i i.2 a

omit [IsStrictOrderedRing K] [FloorRing K] [Field K] [LinearOrder K] in
/-- The names that `loadPrism` gives to the actions are different: the hypothesis of `toMDP_spec_partial` holds for them. -/
theorem defaultNames_nodup (m : ℕ) : ((List.range m).map (actionName [])).Nodup :=
  (List.nodup_range (n := m)).map (fun _ _ h => actionName_default h)

/-! ### PCTMCs -/

/-- What holds after the transitions `ts`. -/
structure PInv (st : PSt K) (ts : List (ℕ × ℕ × Expr K)) : Prop where
  zero : st.exprs[0]? = some (.num 0)
  len : st.exprs.length ≤ ts.length + 1
  look : ∀ i j, st.exprs[st.matrix i j]? = some (exprOf ts i j)
  nodup : st.names.Nodup
  mem : ∀ p, p ∈ st.names ↔ ∃ t ∈ ts, p ∈ t.2.2.free
  indexes : st.indexes = st.names.map (mentions ts)

omit [IsStrictOrderedRing K] [FloorRing K] [LinearOrder K] in
theorem addParam_fold (ij : ℕ × ℕ) (fs : List String) (hf : fs.Nodup) (F : String → List (ℕ × ℕ)) (st : PSt K) (hn : st.names.Nodup)
    (hF : ∀ q, q ∉ st.names → F q = []) (hix : st.indexes = st.names.map F) :
    (fs.foldl (addParam ij) st).matrix = st.matrix ∧ (fs.foldl (addParam ij) st).exprs = st.exprs ∧ (fs.foldl (addParam ij) st).names.Nodup ∧
    (∀ p, p ∈ (fs.foldl (addParam ij) st).names ↔ p ∈ st.names ∨ p ∈ fs) ∧
    (fs.foldl (addParam ij) st).indexes = (fs.foldl (addParam ij) st).names.map (fun q => if q ∈ fs then F q ++ [ij] else F q) := by
  induction fs generalizing F st with
  | nil => exact ⟨rfl, rfl, hn, fun p => by simp, by simpa using hix⟩
  | cons p fs ih =>
    obtain ⟨hp, hf'⟩ := List.nodup_cons.1 hf
    rw [List.foldl_cons]
    have key : (addParam ij st p).matrix = st.matrix ∧ (addParam ij st p).exprs = st.exprs ∧ (addParam ij st p).names.Nodup ∧
        (∀ q, q ∈ (addParam ij st p).names ↔ q ∈ st.names ∨ q = p) ∧
        (addParam ij st p).indexes = (addParam ij st p).names.map (fun q => if q = p then F q ++ [ij] else F q) := by
      unfold addParam
      by_cases h : p ∈ st.names
      · simp only [if_pos h]
        refine ⟨trivial, trivial, hn, fun q => ⟨Or.inl, ?_⟩, ?_⟩
        · rintro (h' | rfl)
          · exact h'
          · exact h
        · rw [hix]
          exact CreatePCTMC.modify_map st.names hn F (· ++ [ij]) p h
      · simp only [if_neg h]
        have hn' : (st.names ++ [p]).Nodup := by
          rw [List.nodup_append]
          refine ⟨hn, List.nodup_singleton p, ?_⟩
          rintro a ha b hb rfl
          exact h (List.mem_singleton.1 hb ▸ ha)
        refine ⟨trivial, trivial, hn', fun q => by simp, ?_⟩
        have e : st.indexes ++ [[]] = (st.names ++ [p]).map F := by
          rw [List.map_append, ← hix, List.map_singleton, hF p h]
        rw [e]
        exact CreatePCTMC.modify_map (st.names ++ [p]) hn' F (· ++ [ij]) p (by simp)
    obtain ⟨k1, k2, k3, k4, k5⟩ := key
    obtain ⟨i1, i2, i3, i4, i5⟩ := ih hf' (fun q => if q = p then F q ++ [ij] else F q) (addParam ij st p) k3
      (fun q hq => by
        have := (not_iff_not.2 (k4 q)).1 hq
        push Not at this
        rw [if_neg this.2, hF q this.1]) k5
    refine ⟨i1.trans k1, i2.trans k2, i3, fun q => ?_, ?_⟩
    · rw [i4 q, k4 q, List.mem_cons, or_assoc]
    · rw [i5]
      apply List.map_congr_left
      intro q _
      by_cases h1 : q = p
      · subst h1; simp [hp]
      · simp [h1]

omit [IsStrictOrderedRing K] [FloorRing K] in
theorem addTrans_inv {st : PSt K} {ts : List (ℕ × ℕ × Expr K)} (hI : PInv st ts) (t : ℕ × ℕ × Expr K) (hlen : ts.length + 1 < 65536) :
    PInv (addTrans st t) (ts ++ [t]) := by
  obtain ⟨f1, f2, f3, f4, f5⟩ := addParam_fold (t.1, t.2.1) t.2.2.free (CreatePCTMC.free_nodup _) (mentions ts) st hI.nodup
    (fun q hq => by
      unfold mentions
      rw [List.map_eq_nil_iff, List.filter_eq_nil_iff]
      intro t' ht' h
      exact hq ((hI.mem q).2 ⟨t', ht', of_decide_eq_true h⟩)) hI.indexes
  have hmem : ∀ p, p ∈ (t.2.2.free.foldl (addParam (t.1, t.2.1)) st).names ↔ ∃ t' ∈ ts ++ [t], p ∈ t'.2.2.free := by
    intro p
    rw [f4 p, hI.mem p]
    simp only [List.mem_append, List.mem_singleton]
    constructor
    · rintro (⟨t', h, h'⟩ | h)
      · exact ⟨t', .inl h, h'⟩
      · exact ⟨t, .inr rfl, h⟩
    · rintro ⟨t', h | rfl, h'⟩
      · exact .inl ⟨t', h, h'⟩
      · exact .inr h'
  have hix : (t.2.2.free.foldl (addParam (t.1, t.2.1)) st).indexes = (t.2.2.free.foldl (addParam (t.1, t.2.1)) st).names.map (mentions (ts ++ [t])) := by
    rw [f5]
    apply List.map_congr_left
    intro q _
    unfold mentions
    rw [List.filter_append, List.map_append]
    by_cases hq : q ∈ t.2.2.free
    · simp [hq]
    · simp [hq]
  have hl := hI.len
  unfold addTrans
  dsimp only
  split_ifs with h
  · refine ⟨?_, by dsimp only; rw [f2]; simp; omega, ?_, f3, hmem, hix⟩
    · dsimp only
      rw [f2, List.getElem?_append_left (List.getElem?_eq_some_iff.1 hI.zero).1]
      exact hI.zero
    · intro i j
      rw [CreatePCTMC.exprOf_append]
      dsimp only
      rw [f2, f1]
      split_ifs with h'
      · rw [Nat.mod_eq_of_lt (by omega)]
        simp
      · rw [List.getElem?_append_left (List.getElem?_eq_some_iff.1 (hI.look i j)).1]
        exact hI.look i j
  · push Not at h
    refine ⟨by dsimp only; rw [f2]; exact hI.zero, by dsimp only; rw [f2]; simp; omega, ?_, f3, hmem, hix⟩
    intro i j
    rw [CreatePCTMC.exprOf_append]
    dsimp only
    rw [f2] at h ⊢
    rw [f1]
    split_ifs with h'
    · have hlt := List.idxOf_lt_length_iff.2 h.2
      rw [Nat.mod_eq_of_lt (by omega), List.getElem?_eq_getElem hlt, List.getElem_idxOf hlt]
    · exact hI.look i j

omit [IsStrictOrderedRing K] [FloorRing K] in
theorem transitions_inv (ts done : List (ℕ × ℕ × Expr K)) (st : PSt K) (hI : PInv st done) (hlen : (done ++ ts).length < 65536) :
    PInv (ts.foldl addTrans st) (done ++ ts) := by
  induction ts generalizing done st with
  | nil => simpa using hI
  | cons t ts ih =>
    rw [List.foldl_cons]
    have := ih (done ++ [t]) (addTrans st t) (addTrans_inv hI t (by simp at hlen; omega)) (by simpa using hlen)
    simpa using this

omit [IsStrictOrderedRing K] [FloorRing K] [LinearOrder K] [Field K] in
theorem mem_transitions {S : Sparse (Expr K)} (h1 : OneAction S) (i j : ℕ) (e : Expr K) : (i, j, e) ∈ transitions S ↔ Entry S i 0 j e := by
  unfold transitions Entry
  rw [List.mem_flatMap]
  constructor
  · rintro ⟨⟨s, i'⟩, hs, hm⟩
    obtain ⟨⟨j', e'⟩, hq, he⟩ := List.mem_map.1 hm
    simp only [Prod.mk.injEq] at he
    obtain ⟨rfl, rfl, rfl⟩ := he
    have hs' : S.states[i']? = some s := List.mem_zipIdx_iff_getElem?.1 hs
    obtain ⟨r, hr⟩ := h1 s (List.mem_of_getElem? hs')
    rw [hr] at hq
    exact ⟨s, r, hs', by rw [hr]; rfl, by simpa using hq⟩
  · rintro ⟨s, r, hs, hr, hm⟩
    refine ⟨(s, i), List.mem_zipIdx_iff_getElem?.2 hs, List.mem_map.2 ⟨(j, e), ?_, rfl⟩⟩
    exact List.mem_flatten.2 ⟨r, List.mem_of_getElem? hr, hm⟩

omit [LinearOrder K] [IsStrictOrderedRing K] [FloorRing K] in
theorem exprOf_of {ts : List (ℕ × ℕ × Expr K)} {i j : ℕ} {e : Expr K} (h : (i, j, e) ∈ ts) (hu : ∀ e', (i, j, e') ∈ ts → e' = e) : exprOf ts i j = e := by
  unfold exprOf
  have hm : (i, j, e) ∈ ts.filter (fun t => t.1 = i ∧ t.2.1 = j) := List.mem_filter.2 ⟨h, by simp⟩
  cases hl : (ts.filter (fun t => t.1 = i ∧ t.2.1 = j)).getLast? with
  | none => rw [List.getLast?_eq_none_iff.1 hl] at hm; cases hm
  | some t =>
    obtain ⟨h1, h2⟩ := List.mem_filter.1 (List.mem_of_getLast? hl)
    obtain ⟨i', j', e'⟩ := t
    have := of_decide_eq_true h2
    dsimp only at this ⊢
    obtain ⟨rfl, rfl⟩ := this
    exact hu e' h1

omit [LinearOrder K] [IsStrictOrderedRing K] [FloorRing K] in
theorem exprOf_none {ts : List (ℕ × ℕ × Expr K)} {i j : ℕ} (h : ∀ e, (i, j, e) ∉ ts) : exprOf ts i j = .num 0 := by
  unfold exprOf
  have : ts.filter (fun t => t.1 = i ∧ t.2.1 = j) = [] := by
    rw [List.filter_eq_nil_iff]
    rintro ⟨i', j', e⟩ ht hd
    have := of_decide_eq_true hd
    dsimp only at this
    obtain ⟨rfl, rfl⟩ := this
    exact h e ht
  rw [this]
  rfl

omit [LinearOrder K] [IsStrictOrderedRing K] [FloorRing K] [Field K] in
theorem entry_unique {S : Sparse (Expr K)} (hS : Valid S) {i j : ℕ} {e e' : Expr K} (h : Entry S i 0 j e) (h' : Entry S i 0 j e') : e' = e := by
  obtain ⟨s, r, hs, hr, hm⟩ := h
  obtain ⟨s', r', hs', hr', hm'⟩ := h'
  rw [hs] at hs'; cases hs'
  rw [hr] at hr'; cases hr'
  have hnd := hS.columns s (List.mem_of_getElem? hs) r (List.mem_of_getElem? hr)
  have := List.inj_on_of_nodup_map hnd hm hm' rfl
  simp only [Prod.mk.injEq, true_and] at this
  exact this.symm

omit [LinearOrder K] [IsStrictOrderedRing K] [FloorRing K] [Field K] in
theorem entry_range {S : Sparse (Expr K)} (hS : Valid S) {i a j : ℕ} {e : Expr K} (h : Entry S i a j e) : i < S.states.length ∧ j < S.states.length := by
  obtain ⟨s, r, hs, hr, hm⟩ := h
  exact ⟨(List.getElem?_eq_some_iff.1 hs).1, hS.range s (List.mem_of_getElem? hs) r (List.mem_of_getElem? hr) _ hm⟩

/-- What is common to the two cases of `toPCTMC_spec`. `N` is the number of states and `ts` are all the transitions. -/
theorem toPCTMC_aux {S : Sparse (Expr K)} (hin : "init" ∈ labelling S) (hlen : (labelling S).length = size S)
    (hts : (transitions S).length + 1 < 65536) :
    ∃ M, toPCTMC S = .ok M ∧ M.matrix.length = size S ∧ (∀ r ∈ M.matrix, r.length = size S) ∧ M.labelling = labelling S ∧
      (∀ i j, i < size S → j < size S → M.transitionExpression i j = .ok
        (exprOf (transitions S ++ ((addInit S).map (fun k => (S.states.length, k, Expr.num 1))).toList) i j)) ∧
      M.names.Nodup ∧ (∀ p, p ∈ M.names ↔ ∃ t ∈ transitions S, p ∈ t.2.2.free) ∧ M.indexes = M.names.map (mentions (transitions S)) ∧
      M.values = [] ∧ M.sync = [] ∧
      M.initialState = (labelling S).map (fun i => if i = "init" then 1 / ((labelling S).count "init" : K) else 0) := by
  have hI0 : PInv (K := K) ⟨fun _ _ => 0, [.num 0], [], []⟩ [] :=
    ⟨rfl, by simp, fun _ _ => rfl, List.nodup_nil, fun p => by simp, rfl⟩
  have hI := transitions_inv (transitions S) [] _ hI0 (by simp; omega)
  rw [List.nil_append] at hI
  set st := (transitions S).foldl addTrans ⟨fun _ _ => 0, [.num 0], [], []⟩ with hst
  have hst2 : ∃ st2, addInitTrans S.states.length (addInit S) st = st2 ∧ st2.names = st.names ∧ st2.indexes = st.indexes ∧
      ∀ i j, st2.exprs[st2.matrix i j]? = some (exprOf (transitions S ++ ((addInit S).map (fun k => (S.states.length, k, Expr.num 1))).toList) i j) := by
    cases hk : addInit S with
    | none => exact ⟨st, rfl, rfl, rfl, fun i j => by simpa using hI.look i j⟩
    | some k =>
      refine ⟨_, rfl, rfl, rfl, fun i j => ?_⟩
      simp only [Option.map_some, Option.toList_some]
      rw [CreatePCTMC.exprOf_append]
      dsimp only [addInitTrans]
      split_ifs
      · rw [Nat.mod_eq_of_lt (by have := hI.len; omega)]
        simp
      · rw [List.getElem?_append_left (List.getElem?_eq_some_iff.1 (hI.look i j)).1]
        exact hI.look i j
  obtain ⟨st2, e0, e1, e2, e3⟩ := hst2
  have hsq : ∀ r ∈ array (size S) st2.matrix, r.length = (array (size S) st2.matrix).length := by
    intro r hr
    obtain ⟨i, _, rfl⟩ := List.mem_map.1 hr
    simp [array]
  have hal : (array (size S) st2.matrix).length = size S := by simp [array]
  unfold toPCTMC
  rw [← hst, e0]
  dsimp only
  refine ⟨⟨array (size S) st2.matrix, labelling S, st2.exprs, [], st2.indexes, st2.names,
    (labelling S).map (fun i => if i = "init" then 1 / ((labelling S).count "init" : K) else 0), []⟩,
    (PCTMC.mkPCTMC_ok_iff _ _ _ _ _ _ _ hsq _).2 ⟨⟨hin, ?_, ?_, ?_⟩, rfl, rfl, rfl, rfl, rfl, rfl, ?_, rfl⟩, hal, fun r hr => ?_, rfl, ?_, ?_, ?_, ?_, rfl, rfl, rfl⟩
  · rw [e1, e2, hI.indexes]; simp
  · intro r hr t ht
    obtain ⟨i, _, rfl⟩ := List.mem_map.1 hr
    obtain ⟨j, _, rfl⟩ := List.mem_map.1 ht
    exact (List.getElem?_eq_some_iff.1 (e3 i j)).1
  · rw [hal, hlen]
  · symm
    rw [List.filterMap_eq_nil_iff]
    intro q hq
    obtain ⟨p, _, rfl⟩ := List.mem_map.1 hq
    rfl
  · rw [hsq r hr, hal]
  · intro i j hi hj
    unfold PCTMC.transitionExpression
    simp only [array, List.getElem?_map, List.getElem?_range hi, Option.map_some, List.getElem?_range hj]
    rw [e3 i j]
  · dsimp only; rw [e1]; exact hI.nodup
  · dsimp only; rw [e1]; exact hI.mem
  · dsimp only; rw [e2, e1]; exact hI.indexes

/-- C70, PCTMCs (fewer than 65535 transitions). The expression of a transition is the one of Storm's model, and 0 when there is none; the parameters are those of
the transitions; no parameter has a value. -/
theorem toPCTMC_spec_partial {S : Sparse (Expr K)} (hS : Valid S) (h1 : OneAction S) {k : ℕ} (hk : OnlyInit S k) (hts : (transitions S).length + 1 < 65536) :
    ∃ M, toPCTMC S = .ok M ∧ M.matrix.length = size S ∧ (∀ r ∈ M.matrix, r.length = size S) ∧
      (∀ i j e, Entry S i 0 j e → M.transitionExpression i j = .ok e) ∧
      (∀ i j : Fin S.states.length, (∀ e, ¬ Entry S i 0 j e) → M.transitionExpression i j = .ok (.num 0)) ∧
      M.names.Nodup ∧ (∀ p, p ∈ M.names ↔ ∃ i j e, Entry S i 0 j e ∧ p ∈ e.free) ∧
      M.indexes = M.names.map (mentions (transitions S)) ∧ M.values = [] ∧ M.sync = [] ∧
      (Named (labels S k) → size S = S.states.length + 1 ∧ M.labelling = List.ofFn (newLabels S) ∧
        M.initialState = List.replicate S.states.length 0 ++ [1] ∧
        (∀ i : Fin S.states.length, M.transitionExpression i S.states.length = .ok (.num 0)) ∧
        ∀ j : Fin S.states.length, M.transitionExpression S.states.length j = .ok (.num (if j.val = k then 1 else 0))) ∧
      (¬ Named (labels S k) → size S = S.states.length ∧ M.labelling = List.ofFn (fun i : Fin S.states.length => name (labels S i)) ∧
        M.initialState = List.ofFn (fun i : Fin S.states.length => if i.val = k then 1 else 0)) := by
  have hN : k < S.states.length := hk.1
  have hlist : ∀ {n : ℕ} {l : List String} {f : Fin n → String} {g : Fin n → K}, FromLabels l f g → l.length = n →
      l = List.ofFn f ∧ l.map (fun i => if i = "init" then 1 / (l.count "init" : K) else 0) = List.ofFn g := by
    intro n l f g h hl
    have e : l = List.ofFn f := by
      apply List.ext_getElem?
      intro i
      by_cases hi : i < n
      · have := h.1 ⟨i, hi⟩
        rw [show l[i]? = some (f ⟨i, hi⟩) from this]
        simp [hi]
      · rw [List.getElem?_eq_none (by omega), List.getElem?_eq_none (by simp; omega)]
    refine ⟨e, ?_⟩
    have hc : l.count "init" = (univ.filter (fun s => f s = "init")).card := count_init l hl f h.1
    rw [hc, e, List.map_ofFn]
    congr 1
    funext s
    simp only [Function.comp]
    exact (h.2 s).symm
  have hE : ∀ i j e, Entry S i 0 j e → exprOf (transitions S) i j = e := fun i j e h =>
    exprOf_of ((mem_transitions h1 i j e).2 h) (fun e' h' => entry_unique hS h ((mem_transitions h1 i j e').1 h'))
  have hE0 : ∀ i j, (∀ e, ¬ Entry S i 0 j e) → exprOf (transitions S) i j = .num 0 := fun i j h =>
    exprOf_none (fun e he => h e ((mem_transitions h1 i j e).1 he))
  have hnames : ∀ {l : List String}, (∀ p, p ∈ l ↔ ∃ t ∈ transitions S, p ∈ t.2.2.free) → ∀ p, p ∈ l ↔ ∃ i j e, Entry S i 0 j e ∧ p ∈ e.free := by
    intro l h p
    rw [h p]
    constructor
    · rintro ⟨⟨i, j, e⟩, ht, hp⟩
      exact ⟨i, j, e, (mem_transitions h1 i j e).1 ht, hp⟩
    · rintro ⟨i, j, e, ht, hp⟩
      exact ⟨(i, j, e), (mem_transitions h1 i j e).2 ht, hp⟩
  by_cases hn : Named (labels S k)
  · obtain ⟨hadd, hin, hlen, hlab⟩ := fromLabels_new (K := K) hS.labels hk hn
    have hsize : size S = S.states.length + 1 := by unfold size; rw [hadd]; rfl
    obtain ⟨M, m1, m2, m3, m4, m5, m6, m7, m8, m9, m10, m11⟩ := toPCTMC_aux (K := K) hin (by rw [hlen, hsize]) hts
    rw [hadd] at m5
    simp only [Option.map_some, Option.toList_some, CreatePCTMC.exprOf_append] at m5
    obtain ⟨l1, l2⟩ := hlist hlab hlen
    refine ⟨M, m1, m2, m3, ?_, ?_, m6, hnames m7, m8, m9, m10, fun _ => ⟨hsize, m4.trans l1, ?_, ?_, ?_⟩, fun h => absurd hn h⟩
    · intro i j e h
      obtain ⟨hi, hj⟩ := entry_range hS h
      rw [m5 i j (by omega) (by omega), if_neg (by omega), hE i j e h]
    · intro i j h
      rw [m5 i j (by omega) (by omega), if_neg (by omega), hE0 i j h]
    · rw [m11, l2, List.ofFn_succ_last]
      simp only [Fin.castSucc_ne_last, if_false, if_true]
      simp
    · intro i
      rw [m5 i _ (by omega) (by omega), if_neg (by omega), hE0]
      intro e h
      have := (entry_range hS h).2
      omega
    · intro j
      rw [m5 _ j (by omega) (by omega)]
      by_cases h : j.val = k
      · rw [if_pos ⟨rfl, h⟩, if_pos h]
      · rw [if_neg (by tauto), if_neg h, hE0]
        intro e h
        have := (entry_range hS h).1
        omega
  · obtain ⟨hadd, hin, hlen, hlab⟩ := fromLabels_old (K := K) hS.labels hk hn
    have hsize : size S = S.states.length := size_none hadd
    obtain ⟨M, m1, m2, m3, m4, m5, m6, m7, m8, m9, m10, m11⟩ := toPCTMC_aux (K := K) hin (by rw [hlen, hsize]) hts
    rw [hadd] at m5
    simp only [Option.map_none, Option.toList_none, List.append_nil] at m5
    obtain ⟨l1, l2⟩ := hlist hlab hlen
    refine ⟨M, m1, m2, m3, ?_, ?_, m6, hnames m7, m8, m9, m10, fun h => absurd h hn, fun _ => ⟨hsize, m4.trans l1, m11.trans l2⟩⟩
    · intro i j e h
      obtain ⟨hi, hj⟩ := entry_range hS h
      rw [m5 i j (by omega) (by omega), hE i j e h]
    · intro i j h
      rw [m5 i j (by omega) (by omega), hE0 i j h]

/-! ### What is lost -/

/-- A MC whose second state is labelled 'deadlock'. -/
def deadMC : MC ℚ String 2 := ⟨fun _ s' => if s' = 1 then 1 else 0, fun s => if s = 0 then "init" else "deadlock", fun s => if s = 0 then 1 else 0⟩

/-- C56 fails: a label 'deadlock' comes back as 'empty'. -/
theorem deadlock_lost : (toMC (ofMC deadMC)).map (fun M => List.ofFn M.2.labelling) = .ok ["init", "empty"] := by decide +kernel

/-- A MDP: 'a' leads to the state 1 and 'b' stays in the state 0. -/
def abMDP : MDP ℚ String 2 :=
  ⟨["a", "b"], fun s a s' => if s = 0 ∧ a.val = 1 then (if s' = 0 then 1 else 0) else if s' = 1 then 1 else 0, fun s => if s = 0 then "init" else "x",
    fun s => if s = 0 then 1 else 0⟩

/-- C56 and C70 fail: `list(set(['a','b']))` can be `['b','a']`; then in the result 'b' leads to the state 1 and 'a' stays in the state 0. -/
theorem actions_swapped : SetOrder ["b", "a"] (allNames (ofMDP abMDP) abMDP.actions) ∧
    (toMDP (ofMDP abMDP) ["b", "a"]).map (fun M => (M.2.actions, (List.ofFn M.2.matrix).map (fun f => (List.ofFn f).map List.ofFn))) =
      .ok (["b", "a"], [[[0, 1], [1, 0]], [[0, 1], [0, 1]]]) := by
  refine ⟨⟨by decide, fun x => ?_⟩, by decide +kernel⟩
  rw [show allNames (ofMDP abMDP) abMDP.actions = ["a", "b", "a", "b"] by decide +kernel]
  simp only [List.mem_cons, List.not_mem_nil, or_false]
  tauto

/-! ### The hypotheses can be met -/

/-- The round trip of a MC with two initial states. -/
example : ∃ M : MC ℚ String 3, (∃ s, M.labelling s = "init") ∧ (∀ s, RowOK (M.matrix s)) ∧
    (∀ s, M.initialState s = if M.labelling s = "init" then 1 / ((univ.filter (fun s => M.labelling s = "init")).card : ℚ) else 0) ∧
    ∀ s, M.labelling s ≠ "deadlock" :=
  ⟨⟨fun _ s' => if s' = 2 then 1/2 else 1/4, fun s => if s = 2 then "x" else "init", fun s => if s = 2 then 0 else 1/2⟩,
    ⟨0, by decide⟩, by decide +kernel, by decide +kernel, by decide⟩

/-- A CTMC without absorbing state. -/
example : ∃ M : CTMC ℚ String 2, (∃ s, M.labelling s = "init") ∧ (∀ s, M.e s ≠ 0) ∧ ∀ s, M.labelling s ≠ "deadlock" :=
  ⟨⟨fun s _ => if s = 0 then 3 else 1/2, fun s => if s = 0 then "init" else "x", fun s => if s = 0 then 1 else 0⟩, ⟨0, by decide⟩, by decide +kernel, by decide⟩

/-- A MDP for the round trip. -/
example : (∃ s, abMDP.labelling s = "init") ∧ (∀ s a, RowOK (abMDP.matrix s a)) ∧
    (∀ s, abMDP.initialState s = if abMDP.labelling s = "init" then 1 / ((univ.filter (fun s => abMDP.labelling s = "init")).card : ℚ) else 0) ∧
    (∀ s, abMDP.labelling s ≠ "deadlock") ∧ abMDP.actions.Nodup :=
  ⟨⟨0, by decide⟩, by decide +kernel, by decide +kernel, by decide, by decide⟩

/-- A chain of Storm: the initial state is also labelled 'x' and 'y', the other state has no label. -/
def dice : Sparse ℚ := ⟨[⟨["y", "init", "x"], [[(0, 1/3), (1, 2/3)]]⟩, ⟨["deadlock"], [[(1, 1)]]⟩], [], []⟩

theorem dice_valid : Valid dice := by
  refine ⟨?_, ?_, ?_⟩ <;> intro s hs <;> simp only [dice, List.mem_cons, List.not_mem_nil, or_false] at hs
  · rcases hs with rfl | rfl <;> decide
  · rcases hs with rfl | rfl <;> decide
  · rcases hs with rfl | rfl <;> simp [dice] <;> omega

example : Valid dice ∧ OneAction dice ∧ OnlyInit dice 0 ∧ Named (labels dice 0) ∧
    ∀ i < dice.states.length, ∑ j : Fin dice.states.length, value dice i 0 j = 1 := by
  refine ⟨dice_valid, ?_, ⟨by decide, by decide⟩, ⟨"x", by decide, by decide⟩, by decide +kernel⟩
  intro s hs
  simp only [dice, List.mem_cons, List.not_mem_nil, or_false] at hs
  rcases hs with rfl | rfl <;> exact ⟨_, rfl⟩

/-- What it becomes. -/
example : (toMC dice).map (fun M => (List.ofFn M.2.labelling, (List.ofFn M.2.matrix).map List.ofFn, List.ofFn M.2.initialState)) =
    .ok (["x_y", "empty", "init"], [[1/3, 2/3, 0], [0, 1, 0], [1, 0, 0]], [0, 0, 1]) := by decide +kernel

/-- A MDP of Storm in which the second state has one action less. -/
def game : Sparse ℚ := ⟨[⟨["init"], [[(0, 1)], [(0, 1/2), (1, 1/2)]]⟩, ⟨["x"], [[(0, 1)]]⟩], [], []⟩

example : Valid game ∧ (∀ s ∈ game.states, s.actions.length ≤ 2) ∧ (∃ s ∈ game.states, s.actions.length = 2) ∧
    SetOrder ["a1", "a0"] (allNames game []) ∧ OnlyInit game 0 ∧
    ∀ i < game.states.length, ∀ a, ∑ j : Fin game.states.length, value game i a j = 1 ∨ ∑ j : Fin game.states.length, value game i a j = 0 := by
  refine ⟨⟨?_, ?_, ?_⟩, by decide, by decide, ⟨by decide, fun x => ?_⟩, ⟨by decide, by decide⟩, ?_⟩
  · intro s hs; simp only [game, List.mem_cons, List.not_mem_nil, or_false] at hs; rcases hs with rfl | rfl <;> decide
  · intro s hs; simp only [game, List.mem_cons, List.not_mem_nil, or_false] at hs; rcases hs with rfl | rfl <;> decide
  · intro s hs; simp only [game, List.mem_cons, List.not_mem_nil, or_false] at hs; rcases hs with rfl | rfl <;> simp [game] <;> omega
  · rw [show allNames game [] = ["a0", "a1", "a0"] by decide +kernel]
    simp only [List.mem_cons, List.not_mem_nil, or_false]
    tauto
  · intro i hi a
    match a with
    | 0 => left; revert i; decide +kernel
    | 1 => revert i; decide +kernel
    | a + 2 =>
      right
      have : ∀ j : Fin game.states.length, value game i (a + 2) j = 0 := by
        intro j
        rcases (show i = 0 ∨ i = 1 by simp [game] at hi; omega) with rfl | rfl <;> simp [value, game]
      simp [this]

/-- A parametric CTMC of Storm. -/
def tandem : Sparse (Expr ℚ) := ⟨[⟨["init", "x"], [[(0, .sym "p"), (1, .mul (.num 2) (.sym "p"))]]⟩, ⟨["y"], [[(0, .add (.sym "q") (.sym "p"))]]⟩], [], []⟩

example : Valid tandem ∧ OneAction tandem ∧ OnlyInit tandem 0 ∧ (transitions tandem).length + 1 < 65536 := by
  refine ⟨⟨?_, ?_, ?_⟩, ?_, ⟨by decide, by decide⟩, by decide⟩ <;> intro s hs <;> simp only [tandem, List.mem_cons, List.not_mem_nil, or_false] at hs
  · rcases hs with rfl | rfl <;> decide
  · rcases hs with rfl | rfl <;> simp
  · rcases hs with rfl | rfl <;> simp [tandem] <;> omega
  · rcases hs with rfl | rfl <;> exact ⟨_, rfl⟩

example : (toPCTMC tandem).map (fun M => (M.labelling, M.names, M.indexes)) = .ok (["x", "y", "init"], ["p", "q"], [[(0, 0), (0, 1), (1, 0)], [(1, 0)]]) := by
  decide +kernel

end Jajapy.Storm
