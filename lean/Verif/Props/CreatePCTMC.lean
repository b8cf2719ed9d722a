import Verif.Spec.CreatePCTMC
import Verif.Props.PCTMC

/-!
C14 and C15: `createPCTMC`.
-/

namespace Jajapy.CreatePCTMC

open Spec

section
variable {K : Type} [Field K] [LinearOrder K]

theorem free_nodup (e : Expr K) : e.free.Nodup := by
  induction e with
  | num c => exact List.nodup_nil
  | sym p => exact List.nodup_singleton p
  | add a b _ hb => exact List.Nodup.union a.free hb
  | mul a b _ hb => exact List.Nodup.union a.free hb
  | pow a k ha => exact ha

/-! ### The indexes of the parameters -/

theorem modify_map (params : List String) (hn : params.Nodup) (F : String → List (ℕ × ℕ)) (g : List (ℕ × ℕ) → List (ℕ × ℕ))
    (p : String) (hp : p ∈ params) :
    (params.map F).modify (params.idxOf p) g = params.map (fun q => if q = p then g (F q) else F q) := by
  apply List.ext_getElem?
  intro k
  rw [List.getElem?_modify]
  simp only [List.getElem?_map]
  cases hk : params[k]? with
  | none => rfl
  | some q =>
    simp only [Option.map_some, Option.some.injEq]
    obtain ⟨hk', rfl⟩ := List.getElem?_eq_some_iff.1 hk
    by_cases e : params.idxOf p = k
    · subst e
      have : params[params.idxOf p] = p := List.getElem_idxOf hk'
      simp [this]
    · have : params[k] ≠ p := by
        rintro rfl
        exact e (hn.idxOf_getElem k hk')
      simp [e, this]

theorem addIndex_fold (params : List String) (hn : params.Nodup) (ij : ℕ × ℕ) (fs : List String) (hf : fs.Nodup)
    (F : String → List (ℕ × ℕ)) (ix : List (List (ℕ × ℕ))) :
    fs.foldlM (addIndex params ij) (params.map F) = .ok ix ↔
      (∀ p ∈ fs, p ∈ params) ∧ ix = params.map (fun q => if q ∈ fs then F q ++ [ij] else F q) := by
  induction fs generalizing F with
  | nil =>
    simp only [List.foldlM_nil, pure, Except.pure, Except.ok.injEq, List.not_mem_nil, if_false, false_imp_iff, implies_true, true_and]
    exact eq_comm
  | cons p fs ih =>
    rw [List.foldlM_cons]
    unfold addIndex
    by_cases hp : p ∈ params
    · rw [if_pos hp, modify_map params hn F _ p hp]
      simp only [bind, Except.bind]
      have hf' := List.nodup_cons.1 hf
      have := ih hf'.2 (fun q => if q = p then F q ++ [ij] else F q)
      unfold addIndex at this
      rw [this]
      have e : params.map (fun q => if q ∈ fs then (if q = p then F q ++ [ij] else F q) ++ [ij] else if q = p then F q ++ [ij] else F q)
          = params.map (fun q => if q ∈ p :: fs then F q ++ [ij] else F q) := by
        apply List.map_congr_left
        intro q _
        by_cases h1 : q = p
        · subst h1; simp [hf'.1]
        · simp [h1]
      rw [e]
      simp [hp]
    · rw [if_neg hp]
      simp only [bind, Except.bind, reduceCtorEq, false_iff]
      rintro ⟨h, _⟩
      exact hp (h p (by simp))

/-! ### The loop -/

/-- What holds after the transitions `ts`. -/
structure Inv (params : List String) (st : St K) (ts : List (Trans K)) : Prop where
  zero : st.exprs[0]? = some (.num 0)
  len : st.exprs.length ≤ ts.length + 1
  look : ∀ i j, st.exprs[st.matrix i j]? = some (exprOf ts i j)
  indexes : st.indexes = params.map (mentions ts)

theorem inv_start (params : List String) : Inv (K := K) params (start params) [] := by
  refine ⟨rfl, by simp [start], fun i j => rfl, ?_⟩
  rfl

theorem exprOf_append (ts : List (Trans K)) (t : Trans K) (i j : ℕ) :
    exprOf (ts ++ [t]) i j = if i = t.1 ∧ j = t.2.1 then t.2.2 else exprOf ts i j := by
  unfold exprOf
  rw [List.filter_append]
  by_cases h : i = t.1 ∧ j = t.2.1
  · rw [if_pos h]
    have : [t].filter (fun t : Trans K => decide (t.1 = i ∧ t.2.1 = j)) = [t] := by
      simp only [List.filter_cons, List.filter_nil]
      rw [if_pos]
      exact decide_eq_true ⟨h.1.symm, h.2.symm⟩
    rw [this, List.getLast?_concat]
  · rw [if_neg h]
    have : [t].filter (fun t : Trans K => decide (t.1 = i ∧ t.2.1 = j)) = [] := by
      simp only [List.filter_cons, List.filter_nil]
      rw [if_neg]
      intro hd
      have hd := of_decide_eq_true hd
      exact h ⟨hd.1.symm, hd.2.symm⟩
    rw [this, List.append_nil]

theorem step_ok_iff (params : List String) (hn : params.Nodup) (n : ℕ) (st st' : St K) (ts : List (Trans K)) (t : Trans K)
    (hI : Inv params st ts) (hlen : ts.length + 1 < 65536) :
    (step params n st t = .ok st' → (t.1 < n ∧ t.2.1 < n ∧ ∀ p ∈ t.2.2.free, p ∈ params) ∧ Inv params st' (ts ++ [t])) ∧
    ((t.1 < n ∧ t.2.1 < n ∧ ∀ p ∈ t.2.2.free, p ∈ params) → ∃ st', step params n st t = .ok st') := by
  unfold step
  by_cases hb : n ≤ t.1 ∨ n ≤ t.2.1
  · simp only [hb, if_true]
    refine ⟨fun h => (by cases h), fun h => ?_⟩
    omega
  · simp only [hb, if_false]
    push Not at hb
    have hfold := fun ix => addIndex_fold params hn (t.1, t.2.1) t.2.2.free (free_nodup _) (mentions ts) ix
    rw [← hI.indexes] at hfold
    constructor
    · intro h
      obtain ⟨ix, h1, h2⟩ := (Except.bind_eq_ok _ _ _).1 h
      injection h2 with h2
      obtain ⟨hp, rfl⟩ := (hfold ix).1 h1
      refine ⟨⟨hb.1, hb.2, hp⟩, ?_⟩
      have hpre : ∀ (k : ℕ) e, st.exprs[k]? = some e → (addExpr st.exprs t.2.2)[k]? = some e := by
        intro k e hk
        unfold addExpr
        split_ifs
        · obtain ⟨hk', _⟩ := List.getElem?_eq_some_iff.1 hk
          rw [List.getElem?_append_left hk']; exact hk
        · exact hk
      have hmem : t.2.2 ∈ addExpr st.exprs t.2.2 := by
        unfold addExpr
        split_ifs with h
        · simp
        · push Not at h; exact h.2
      have hlen' : (addExpr st.exprs t.2.2).length ≤ (ts ++ [t]).length + 1 := by
        have := hI.len
        unfold addExpr
        split_ifs <;> simp <;> omega
      subst h2
      refine ⟨hpre 0 _ hI.zero, hlen', ?_, ?_⟩
      · intro i j
        rw [exprOf_append]
        dsimp only
        split_ifs with h
        · have hlt := List.idxOf_lt_length_iff.2 hmem
          rw [Nat.mod_eq_of_lt (by simp at hlen'; omega), List.getElem?_eq_getElem hlt, List.getElem_idxOf hlt]
        · exact hpre _ _ (hI.look i j)
      · dsimp only
        apply List.map_congr_left
        intro q _
        unfold mentions
        rw [List.filter_append, List.map_append]
        by_cases hq : q ∈ t.2.2.free
        · simp [hq]
        · simp [hq]
    · rintro ⟨_, _, hp⟩
      obtain h := (hfold _).2 ⟨hp, rfl⟩
      rw [h]
      exact ⟨_, rfl⟩

theorem loop_ok_iff (params : List String) (hn : params.Nodup) (n : ℕ) (ts done : List (Trans K)) (st : St K)
    (hI : Inv params st done) (hlen : (done ++ ts).length < 65536) :
    (∀ st', ts.foldlM (step params n) st = .ok st' →
      (∀ t ∈ ts, t.1 < n ∧ t.2.1 < n ∧ ∀ p ∈ t.2.2.free, p ∈ params) ∧ Inv params st' (done ++ ts)) ∧
    ((∀ t ∈ ts, t.1 < n ∧ t.2.1 < n ∧ ∀ p ∈ t.2.2.free, p ∈ params) → ∃ st', ts.foldlM (step params n) st = .ok st') := by
  induction ts generalizing done st with
  | nil =>
    refine ⟨?_, fun _ => ⟨st, rfl⟩⟩
    intro st' h
    injection h with h
    subst h
    exact ⟨by simp, by simpa using hI⟩
  | cons t ts ih =>
    have hl : done.length + 1 < 65536 := by simp at hlen; omega
    constructor
    · intro st' h
      rw [List.foldlM_cons] at h
      obtain ⟨s1, h1, h2⟩ := (Except.bind_eq_ok _ _ _).1 h
      obtain ⟨a, b⟩ := (step_ok_iff params hn n st s1 done t hI hl).1 h1
      obtain ⟨c, d⟩ := (ih (done ++ [t]) s1 b (by simpa using hlen)).1 st' h2
      refine ⟨?_, by simpa using d⟩
      intro t' ht'
      rcases List.mem_cons.1 ht' with rfl | h
      · exact a
      · exact c t' h
    · intro h
      obtain ⟨s1, h1⟩ := (step_ok_iff params hn n st st done t hI hl).2 (h t (by simp))
      obtain ⟨a, b⟩ := (step_ok_iff params hn n st s1 done t hI hl).1 h1
      obtain ⟨s2, h2⟩ := (ih (done ++ [t]) s1 b (by simpa using hlen)).2 (fun x hx => h x (by simp [hx]))
      refine ⟨s2, ?_⟩
      rw [List.foldlM_cons, h1]
      exact h2

/-! ### The function -/

variable [IsStrictOrderedRing K] [FloorRing K]

/-- The state ids that occur in a description. -/
def IsId (ts : List (Trans K)) (sync : List (ℕ × String × ℕ × Expr K)) (i : ℕ) : Prop :=
  (∃ t ∈ ts, t.1 = i ∨ t.2.1 = i) ∨ ∃ t ∈ sync, t.1 = i ∨ t.2.2.1 = i

omit [LinearOrder K] [IsStrictOrderedRing K] [FloorRing K] in
theorem nbIds_eq (ts : List (Trans K)) (sync : List (ℕ × String × ℕ × Expr K)) (n : ℕ) (h : ∀ i, IsId ts sync i ↔ i < n) :
    nbIds ts sync = n := by
  unfold nbIds sortedSet
  rw [List.length_insertionSort, ← List.card_toFinset]
  rw [← Finset.card_range n]
  congr 1
  ext i
  rw [List.mem_toFinset, Finset.mem_range, ← h i]
  simp only [IsId, List.mem_append, List.mem_map]
  constructor
  · rintro ((⟨t, ht, rfl⟩ | ⟨t, ht, rfl⟩) | (⟨t, ht, rfl⟩ | ⟨t, ht, rfl⟩))
    · exact .inl ⟨t, ht, .inl rfl⟩
    · exact .inl ⟨t, ht, .inr rfl⟩
    · exact .inr ⟨t, ht, .inl rfl⟩
    · exact .inr ⟨t, ht, .inr rfl⟩
  · rintro (⟨t, ht, rfl | rfl⟩ | ⟨t, ht, rfl | rfl⟩)
    · exact .inl (.inl ⟨t, ht, rfl⟩)
    · exact .inl (.inr ⟨t, ht, rfl⟩)
    · exact .inr (.inl ⟨t, ht, rfl⟩)
    · exact .inr (.inr ⟨t, ht, rfl⟩)

theorem create_aux (ts : List (Trans K)) (labelling params : List String) (initial : PInit K) (inst : List (String × Option K))
    (sync : List (ℕ × String × ℕ × Expr K)) (hp : params.Nodup) (n : ℕ) (hnb : nbIds ts sync = n)
    (hlen : (ts ++ initTrans n initial).length < 65536) :
    (∀ M, (createPCTMC ts labelling params initial inst sync).2.2 = .ok M →
      ("init" ∉ labelling ∧ labelling.length = n ∧
        ∀ t ∈ ts ++ initTrans n initial, t.1 < n + 1 ∧ t.2.1 < n + 1 ∧ ∀ p ∈ t.2.2.free, p ∈ params) ∧
      IsDescribed M n ts (initTrans n initial) labelling params inst sync) ∧
    (("init" ∉ labelling ∧ labelling.length = n ∧
        ∀ t ∈ ts ++ initTrans n initial, t.1 < n + 1 ∧ t.2.1 < n + 1 ∧ ∀ p ∈ t.2.2.free, p ∈ params) →
      ∃ M, (createPCTMC ts labelling params initial inst sync).2.2 = .ok M) := by
  unfold createPCTMC
  rw [hnb]
  by_cases h1 : "init" ∈ labelling
  · rw [if_pos h1]
    exact ⟨fun M h => (by cases h), fun h => absurd h1 h.1⟩
  rw [if_neg h1]
  dsimp only
  by_cases h2 : n + 1 > (labelling ++ ["init"]).length
  · rw [if_pos h2]
    refine ⟨fun M h => (by cases h), fun h => ?_⟩
    simp at h2; omega
  rw [if_neg h2]
  dsimp only
  obtain ⟨l1, l2⟩ := loop_ok_iff params hp (n + 1) (ts ++ initTrans n initial) [] (start params) (inv_start params) (by simpa using hlen)
  simp only [List.nil_append] at l1
  have hsq : ∀ st : St K, ∀ row ∈ (List.range (n + 1)).map (fun i => (List.range (n + 1)).map (st.matrix i)),
      row.length = ((List.range (n + 1)).map (fun i => (List.range (n + 1)).map (st.matrix i))).length := by
    intro st row hrow
    obtain ⟨i, _, rfl⟩ := List.mem_map.1 hrow
    simp
  constructor
  · intro M h
    obtain ⟨st, hst, hM⟩ := (Except.bind_eq_ok _ _ _).1 h
    obtain ⟨hall, hI⟩ := l1 st hst
    obtain ⟨⟨_, _, _, h4⟩, e1, e2, e3, e4, e5, e6, e7, e8⟩ := (PCTMC.mkPCTMC_ok_iff _ _ _ _ _ _ _ (hsq st) M).1 hM
    simp only [List.length_append, List.length_map, List.length_range, List.length_singleton] at h4
    have hl : labelling.length = n := by omega
    refine ⟨⟨h1, hl, hall⟩, ?_⟩
    refine ⟨?_, e2, ?_, ?_, e5, ?_, ?_, e6⟩
    · rw [e1]
      refine ⟨by simp, ?_⟩
      intro r hr
      rw [hsq st r hr]; simp
    · intro s hs
      rw [e8]
      have hc : (labelling ++ ["init"]).count "init" = 1 := by
        rw [List.count_append, List.count_eq_zero_of_not_mem h1]; simp
      rw [hc, List.getElem?_map]
      rcases Nat.lt_or_ge s n with hs' | hs'
      · rw [List.getElem?_append_left (by omega)]
        have : labelling[s]'(by omega) ≠ "init" := by
          intro he; exact h1 (he ▸ List.getElem_mem _)
        rw [List.getElem?_eq_getElem (by omega)]
        have hsn : s ≠ n := by omega
        simp [this, hsn]
      · have : s = n := by omega
        subst this
        rw [List.getElem?_append_right (by omega), hl]
        simp
    · intro i j hi hj
      unfold PCTMC.transitionExpression
      rw [e1, e3]
      simp only [List.getElem?_map, List.getElem?_range hi, Option.map_some, List.getElem?_range hj]
      rw [hI.look i j]
    · rw [e4, hI.indexes]
    · intro p x
      rw [e7]
      simp only [chosen, List.mem_filterMap, List.mem_filter, decide_eq_true_eq, Option.map_eq_some_iff, Prod.mk.injEq]
      constructor
      · rintro ⟨⟨q, o⟩, ⟨a, b⟩, y, c, rfl, rfl⟩
        dsimp only at b c
        subst c
        exact ⟨b, a⟩
      · rintro ⟨a, b⟩
        exact ⟨(p, some x), ⟨b, a⟩, x, rfl, rfl, rfl⟩
  · rintro ⟨_, hl, hall⟩
    obtain ⟨st, hst⟩ := l2 hall
    obtain ⟨_, hI⟩ := l1 st hst
    rw [hst]
    simp only [bind, Except.bind]
    refine ⟨PCTMC.mk _ (labelling ++ ["init"]) st.exprs ((chosen params inst).filterMap (fun p => p.2.map (fun x => (p.1, x))))
      st.indexes params ((labelling ++ ["init"]).map (fun i => if i = "init" then 1 / ((labelling ++ ["init"]).count "init" : K) else 0))
      sync, (PCTMC.mkPCTMC_ok_iff _ _ _ _ _ _ _ (hsq st) _).2 ⟨⟨by simp, ?_, ?_, by simp [hl]⟩, rfl, rfl, rfl, rfl, rfl, rfl, rfl, rfl⟩⟩
    · rw [hI.indexes]; simp
    · intro row hr t ht
      obtain ⟨i, _, rfl⟩ := List.mem_map.1 hr
      obtain ⟨j, _, rfl⟩ := List.mem_map.1 ht
      exact (List.getElem?_eq_some_iff.1 (hI.look i j)).1

/-- C14, PCTMCs: if the state ids of the description are 0, …, n-1 and the parameters are distinct, the PCTMC returned is the
described one. Missing: other state ids (`createPCTMC_gap_enters_init`), 65536 transitions or more. -/
theorem createPCTMC_spec_partial (ts : List (Trans K)) (labelling params : List String) (initial : PInit K)
    (inst : List (String × Option K)) (sync : List (ℕ × String × ℕ × Expr K)) (hp : params.Nodup) (n : ℕ)
    (hids : ∀ i, IsId ts sync i ↔ i < n) (hlen : (ts ++ initTrans n initial).length < 65536) (M : PCTMC K)
    (h : (createPCTMC ts labelling params initial inst sync).2.2 = .ok M) :
    IsDescribed M n ts (initTrans n initial) labelling params inst sync :=
  ((create_aux ts labelling params initial inst sync hp n (nbIds_eq ts sync n hids) hlen).1 M h).2

/-- The initial transitions: to the given state with rate 1, or to state `i` with the `i`-th rate. -/
theorem initTrans_spec (n : ℕ) (initial : PInit K) (i : ℕ) :
    (∀ s, initial = .int s → exprOf (initTrans n initial) n i = .num (if i = s then 1 else 0)) ∧
    (∀ l, initial = .list l → exprOf (initTrans n initial) n i = .num (l.getD i 0)) := by
  constructor
  · rintro s rfl
    unfold exprOf initTrans
    by_cases h : i = s
    · subst h; simp
    · have : s ≠ i := fun e => h e.symm
      simp [h, this]
  · rintro l rfl
    have : (initTrans n (.list l)).filter (fun t : Trans K => decide (t.1 = n ∧ t.2.1 = i)) =
        ((l[i]?).map (fun x => ((n, i, .num x) : Trans K))).toList := by
      unfold initTrans
      rw [List.filter_map]
      have : ∀ k, ((l.zipIdx k).filter ((fun t : Trans K => decide (t.1 = n ∧ t.2.1 = i)) ∘ (fun p => (n, p.2, .num p.1)))).map
          (fun p => ((n, p.2, .num p.1) : Trans K)) =
          if k ≤ i then ((l[i - k]?).map (fun x => ((n, i, .num x) : Trans K))).toList else [] := by
        induction l with
        | nil => intro k; simp
        | cons a l ih =>
          intro k
          rw [List.zipIdx_cons, List.filter_cons]
          by_cases hk : k = i
          · subst hk
            have := ih (k + 1)
            rw [if_pos (by simp), List.map_cons, this]
            simp
          · have := ih (k + 1)
            simp only [Function.comp, decide_eq_true_eq, true_and] at this ⊢
            rw [if_neg hk, this]
            by_cases hlt : k ≤ i
            · obtain ⟨d, rfl⟩ : ∃ d, i = k + 1 + d := ⟨i - (k + 1), by omega⟩
              have e1 : k + 1 + d - k = d + 1 := by omega
              simp [hlt, e1]
            · rw [if_neg hlt, if_neg (by omega)]
      have := this 0
      simpa using this
    unfold exprOf
    rw [this, List.getD_eq_getElem?_getD]
    cases l[i]? <;> rfl

/-- C14, PCTMCs: such a description is accepted exactly when no label is 'init', every state has one label, the initial
transitions go to states, and every symbol is one of the parameters. -/
theorem createPCTMC_ok_iff (ts : List (Trans K)) (labelling params : List String) (initial : PInit K)
    (inst : List (String × Option K)) (sync : List (ℕ × String × ℕ × Expr K)) (hp : params.Nodup) (n : ℕ)
    (hids : ∀ i, IsId ts sync i ↔ i < n) (hlen : (ts ++ initTrans n initial).length < 65536) :
    (∃ M, (createPCTMC ts labelling params initial inst sync).2.2 = .ok M) ↔
      "init" ∉ labelling ∧ labelling.length = n ∧ (∀ t ∈ initTrans n initial, t.2.1 ≤ n) ∧
      ∀ t ∈ ts, ∀ p ∈ t.2.2.free, p ∈ params := by
  obtain ⟨a, b⟩ := create_aux ts labelling params initial inst sync hp n (nbIds_eq ts sync n hids) hlen
  have hid : ∀ t ∈ ts, t.1 < n ∧ t.2.1 < n := fun t ht =>
    ⟨(hids _).1 (.inl ⟨t, ht, .inl rfl⟩), (hids _).1 (.inl ⟨t, ht, .inr rfl⟩)⟩
  have hinit : ∀ t ∈ initTrans n initial, t.1 = n ∧ t.2.2.free = [] := by
    intro t ht
    cases initial with
    | int i =>
      simp only [initTrans, List.mem_singleton] at ht
      subst ht; exact ⟨rfl, rfl⟩
    | list l =>
      obtain ⟨q, _, rfl⟩ := List.mem_map.1 ht
      exact ⟨rfl, rfl⟩
  constructor
  · rintro ⟨M, h⟩
    obtain ⟨⟨h1, h2, h3⟩, _⟩ := a M h
    refine ⟨h1, h2, fun t ht => ?_, fun t ht => (h3 t (by simp [ht])).2.2⟩
    have := (h3 t (by simp [ht])).2.1
    omega
  · rintro ⟨h1, h2, h3, h4⟩
    refine b ⟨h1, h2, fun t ht => ?_⟩
    rcases List.mem_append.1 ht with h | h
    · have := hid t h
      exact ⟨by omega, by omega, h4 t h⟩
    · have := hinit t h
      refine ⟨by omega, by have := h3 t h; omega, ?_⟩
      rw [this.2]; simp

omit [IsStrictOrderedRing K] in
/-- C15 fails for PCTMCs: unless it raises SyntaxError the call appends 'init' to the caller's list of labels and the
initial transitions to the caller's list of transitions, even when it is refused; the same call is then always refused. -/
theorem createPCTMC_not_repeatable (ts : List (Trans K)) (labelling params : List String) (initial : PInit K)
    (inst : List (String × Option K)) (sync : List (ℕ × String × ℕ × Expr K)) (h : "init" ∉ labelling) :
    let r := createPCTMC ts labelling params initial inst sync
    r.1 = labelling ++ ["init"] ∧ r.2.1 = ts ++ initTrans (nbIds ts sync) initial ∧
      (createPCTMC r.2.1 r.1 params initial inst sync).2.2 = .error .syntaxError := by
  have e : (createPCTMC ts labelling params initial inst sync).1 = labelling ++ ["init"] ∧
      (createPCTMC ts labelling params initial inst sync).2.1 = ts ++ initTrans (nbIds ts sync) initial := by
    unfold createPCTMC
    rw [if_neg h]
    dsimp only
    split_ifs <;> exact ⟨rfl, rfl⟩
  refine ⟨e.1, e.2, ?_⟩
  rw [e.1, e.2]
  unfold createPCTMC
  rw [if_pos (by simp)]

end

/-! ### Examples -/

/-- Two states and a parameter. -/
def ex : List (Trans ℚ) := [(0, 1, .sym "p"), (1, 0, .mul (.num 2) (.sym "p")), (0, 0, .num 3)]

example : (∀ i, IsId ex [] i ↔ i < 2) ∧ ["p"].Nodup ∧ (ex ++ initTrans 2 (.int 0)).length < 65536 ∧
    (match (createPCTMC ex ["a", "b"] ["p"] (.int 0) [("p", some (1/2 : ℚ)), ("z", some 1)] []).2.2 with
      | .ok M => decide (M.matrix = [[3, 1, 0], [2, 0, 0], [4, 0, 0]] ∧ M.indexes = [[(0, 1), (1, 0)]] ∧ M.values = [("p", 1/2)])
      | .error _ => false) = true := by
  refine ⟨?_, by decide, by decide, by decide +kernel⟩
  intro i
  simp only [IsId, ex, List.mem_cons, List.not_mem_nil, or_false, false_and, exists_false, exists_eq_or_imp, exists_eq_left]
  omega

/-- C14 fails for state ids with gaps: with the ids 0 and 2 the transition to the state 2 becomes a transition to the added
initial state. (`createMC` numbers the ids in increasing order.) -/
theorem createPCTMC_gap_enters_init :
    (match (createPCTMC [(0, 2, .sym "p"), (2, 0, .num (1 : ℚ))] ["a", "b"] ["p"] (.int 0) [] []).2.2 with
      | .ok M => decide (M.labelling = ["a", "b", "init"] ∧ M.transitionExpression 0 2 = .ok (.sym "p") ∧
          M.transitionExpression 0 1 = .ok (.num 0))
      | .error _ => false) = true := by decide +kernel

/-- With the ids 1, 2, 4 the call raises IndexError: there are three states, and the matrix has no column 4. -/
theorem createPCTMC_ids_from_one :
    (createPCTMC [(1, 2, .num (1 : ℚ)), (2, 4, .num 1)] ["a", "b", "c"] [] (.int 1) [] []).2.2 = .error .indexError := by
  rfl

/-- A description with more labels than states is announced as accepted ("WARNING: the labelling list is bigger than the
number of states") and then refused by the constructor. -/
theorem createPCTMC_labels_bigger :
    (createPCTMC ex ["a", "b", "c"] ["p"] (.int 0) [] []).2.2 = .error .valueError := by
  rfl

end Jajapy.CreatePCTMC
