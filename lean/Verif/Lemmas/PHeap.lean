import Verif.Spec.PHeap
import Verif.Props.PCTMC
import Verif.Props.Simulation
import Mathlib.Data.List.GetD

/-!
Lemmas for C114.
-/

set_option autoImplicit false
set_option linter.unusedSectionVars false

namespace Jajapy
namespace PHeap
open PCompose
variable {K : Type} [Field K] [LinearOrder K]

theorem known_some (d : Valuation K) : known (d.map (fun q => (q.1, some q.2))) = d := by
  unfold known
  rw [List.filterMap_map]
  induction d with
  | nil => rfl
  | cons q d ih =>
    rw [List.filterMap_cons]
    simp only [Function.comp, Option.map_some]
    rw [← ih]
    congr 1
    simp [ih, Function.comp_def]

theorem known_filter (d : List (String × Option K)) : known (d.filter (fun p => p.2.isSome)) = known d := by
  unfold known
  induction d with
  | nil => rfl
  | cons q d ih =>
    rcases q with ⟨p, x⟩
    cases x <;> simp_all

/-! ### The values of a composition -/

theorem mkPCTMC_values [FloorRing K] {matrix : List (List ℕ)} {labelling : List String} {exprs : List (Expr K)} {values : List (String × Option K)}
    {indexes : List (List (ℕ × ℕ))} {names : List String} {sync : List (Sync K)} {M : PCTMC K}
    (h : mkPCTMC matrix labelling exprs values indexes names sync = .ok M) : M.values = known values := by
  unfold mkPCTMC at h
  by_cases h1 : "init" ∉ labelling
  · rw [if_pos h1] at h
    cases h
  rw [if_neg h1] at h
  by_cases h2 : indexes.length ≠ names.length
  · rw [if_pos h2] at h
    cases h
  rw [if_neg h2] at h
  cases hm : matrix.flatten.max? with
  | none =>
    rw [hm] at h
    cases h
  | some m =>
    rw [hm] at h
    dsimp only at h
    by_cases h3 : m ≥ exprs.length
    · rw [if_pos h3] at h
      cases h
    rw [if_neg h3] at h
    by_cases h4 : labelling.length ≠ matrix.length
    · rw [if_pos h4] at h
      cases h
    rw [if_neg h4] at h
    obtain ⟨i, -, h⟩ := (Except.bind_eq_ok _ _ _).1 h
    rw [← Except.ok.inj h]
    rfl

theorem mkPCTMC_known [FloorRing K] (matrix : List (List ℕ)) (labelling : List String) (exprs : List (Expr K)) (values : List (String × Option K))
    (indexes : List (List (ℕ × ℕ))) (names : List String) (sync : List (Sync K)) :
    mkPCTMC matrix labelling exprs ((known values).map (fun q => (q.1, some q.2))) indexes names sync = mkPCTMC matrix labelling exprs values indexes names sync := by
  have e : ((known values).map (fun q => (q.1, some q.2))).filterMap (fun p => p.2.map (fun x => (p.1, x))) = values.filterMap (fun p => p.2.map (fun x => (p.1, x))) :=
    known_some (known values)
  unfold mkPCTMC
  rw [e]

theorem compose2_values [FloorRing K] {order : List String} {m1 m2 : PCTMC K} {s1 s2 dflt : List (Sync K)} {r : PCTMC K × List (Sync K)}
    (h : compose2 order m1 m2 s1 s2 dflt = .ok r) : r.1.values = m1.values := by
  unfold compose2 at h
  obtain ⟨B, -, h⟩ := (Except.bind_eq_ok _ _ _).1 h
  obtain ⟨ts, -, h⟩ := (Except.bind_eq_ok _ _ _).1 h
  obtain ⟨B', -, h⟩ := (Except.bind_eq_ok _ _ _).1 h
  obtain ⟨M, hM, h⟩ := (Except.bind_eq_ok _ _ _).1 h
  rw [← Except.ok.inj h]
  rw [mkPCTMC_values hM]
  exact known_some _

theorem loop_values [FloorRing K] (ms : List (Comp K × List String)) : ∀ (dflt : List (Sync K)) (m : Comp K) (ts dflt' : List (Sync K))
    (r : PCTMC K × List (Sync K)), loop ms dflt m ts = (dflt', .ok r) → r.1.values = m.model.values := by
  induction ms with
  | nil =>
    intro dflt m ts dflt' r h
    rw [loop] at h
    rw [← Except.ok.inj (congrArg Prod.snd h)]
  | cons a ms ih =>
    intro dflt m ts dflt' r h
    rw [loop] at h
    split at h
    · cases congrArg Prod.snd h
    · rename_i q hq
      rw [ih _ _ _ _ _ h]
      exact compose2_values hq

theorem addSync_values {M M' : PCTMC K} {t : Sync K} (h : addSync M t = .ok M') : M'.values = M.values := by
  unfold addSync at h
  obtain ⟨e, -, h⟩ := (Except.bind_eq_ok _ _ _).1 h
  obtain ⟨ix, -, h⟩ := (Except.bind_eq_ok _ _ _).1 h
  rw [← Except.ok.inj h]

theorem addSyncs_values (ts : List (Sync K)) : ∀ {M M' : PCTMC K}, ts.foldlM addSync M = .ok M' → M'.values = M.values := by
  induction ts with
  | nil =>
    intro M M' h
    rw [← Except.ok.inj h]
  | cons t ts ih =>
    intro M M' h
    rw [List.foldlM_cons] at h
    obtain ⟨M1, h1, h⟩ := (Except.bind_eq_ok _ _ _).1 h
    rw [ih h, addSync_values h1]

theorem removeLoop_values (bad : PCTMC K → ℕ → Bool) (M : PCTMC K) (s : ℕ) : (PCTMC.removeLoop bad M s).values = M.values := by
  induction M, s using PCTMC.removeLoop.induct bad with
  | case1 M s h hb ih =>
    rw [PCTMC.removeLoop, dif_pos h, if_pos hb, ih]
    rfl
  | case2 M s h hb ih => rw [PCTMC.removeLoop, dif_pos h, if_neg hb, ih]
  | case3 M s h => rw [PCTMC.removeLoop, dif_neg h]

theorem removeUnreachable_values (M : PCTMC K) : M.removeUnreachable.values = M.values := removeLoop_values _ M 0

theorem dropAll_values (l : List ℕ) (M : PCTMC K) : (PCTMC.dropAll l M).values = M.values := by
  have key : ∀ (n : ℕ) (l : List ℕ) (M : PCTMC K), l.length = n → (PCTMC.dropAll l M).values = M.values := by
    intro n
    induction n with
    | zero =>
      intro l M h
      rw [List.length_eq_zero_iff.1 h, PCTMC.dropAll]
    | succ n ih =>
      intro l M h
      cases l with
      | nil => cases h
      | cons i l =>
        rw [PCTMC.dropAll, ih _ _ (by rw [List.length_map]; simpa using h)]
        rfl
  exact key _ l M rfl

theorem composeAll_values [FloorRing K] {perm : List ℕ → List ℕ} {dflt dflt' : List (Sync K)} {m m2 : Comp K × List String} {ms : List (Comp K × List String)}
    {M : PCTMC K} (h : composeAll perm dflt (m :: m2 :: ms) = (dflt', .ok M)) : M.values = m.1.model.values := by
  unfold composeAll at h
  have h2 := congrArg Prod.snd h
  dsimp only at h2
  cases hl : loop (m2 :: ms) dflt m.1 [] with
  | mk d r =>
    rw [hl] at h2
    dsimp only at h2
    cases r with
    | error e => cases h2
    | ok q =>
      have h3 : finish perm q.1 q.2 = .ok M := h2
      unfold finish at h3
      obtain ⟨M1, h1, h3⟩ := (Except.bind_eq_ok _ _ _).1 h3
      rw [← Except.ok.inj h3]
      rw [dropAll_values, removeUnreachable_values, addSyncs_values _ h1]
      exact loop_values (m2 :: ms) dflt m.1 [] d q hl

/-! ### Instantiation -/

theorem instantiate_spec {M M' : PCTMC K} {ps : List String} {vs : List K} {b : Bool} (h : M.instantiate ps vs = .ok (b, M')) :
    (b = false → M' = M) ∧ M' = { M with values := M'.values } := by
  unfold PCTMC.instantiate at h
  obtain ⟨c, -, h⟩ := (Except.bind_eq_ok _ _ _).1 h
  cases c with
  | true =>
    simp only [if_true] at h
    cases Except.ok.inj h
    exact ⟨fun h => (by cases h), rfl⟩
  | false =>
    simp only [Bool.false_eq_true, if_false] at h
    cases Except.ok.inj h
    exact ⟨fun _ => rfl, rfl⟩

theorem instantiateLoop_spec (rounds : List (List K)) : ∀ {M M' : PCTMC K} {ps : List String} {lo hi : K},
    M.instantiateLoop ps lo hi rounds = .ok (some M') → M' = { M with values := M'.values } := by
  induction rounds with
  | nil =>
    intro M M' ps lo hi h
    cases h
  | cons r rounds ih =>
    intro M M' ps lo hi h
    unfold PCTMC.instantiateLoop at h
    obtain ⟨⟨b, M1⟩, h1, h⟩ := (Except.bind_eq_ok _ _ _).1 h
    obtain ⟨a1, a2⟩ := instantiate_spec h1
    dsimp only at h
    cases b with
    | true =>
      simp only [if_true] at h
      cases Except.ok.inj h
      exact a2
    | false =>
      rw [a1 rfl] at h
      simp only [Bool.false_eq_true, if_false] at h
      exact ih h

/-! ### The invariant -/

/-- Every variable holds a model of its own; the addresses are addresses of dictionaries. -/
structure Inv (H : Heap K) : Prop where
  vars : H.vars = List.range H.objs.length
  dict : ∀ o ∈ H.objs, o.dict < H.dicts.length
  dvars : ∀ a ∈ H.dvars, a < H.dicts.length

theorem Inv.empty : Inv (Heap.empty : Heap K) :=
  ⟨rfl, fun o h => absurd h (by simp [Heap.empty]), fun a h => absurd h (by simp [Heap.empty])⟩

theorem Inv.models {H : Heap K} (h : Inv H) : H.models = H.objs.map H.view := by
  unfold Heap.models
  rw [h.vars]
  apply List.ext_getElem?
  intro k
  have : ∀ (l : List (Obj K)) (f : Obj K → Comp K), (List.range l.length).filterMap (fun a => (l[a]?).map f) = l.map f := by
    intro l f
    induction l using List.reverseRecOn with
    | nil => rfl
    | append_singleton l x ih =>
      rw [List.length_append, List.length_singleton, List.range_succ, List.filterMap_append, List.map_append]
      congr 1
      · rw [← ih]
        apply List.filterMap_congr
        intro a ha
        rw [List.getElem?_append_left (List.mem_range.1 ha)]
      · simp
  rw [this]

theorem Inv.obj {H : Heap K} (h : Inv H) (v : ℕ) : H.obj v = (H.objs[v]?).map (fun o => (v, o)) := by
  unfold Heap.obj
  rw [h.vars]
  by_cases hv : v < H.objs.length
  · rw [List.getElem?_range hv]
  · rw [List.getElem?_eq_none (by simpa using hv), List.getElem?_eq_none (by omega)]
    rfl

theorem Inv.model {H : Heap K} (h : Inv H) (v : ℕ) : H.models[v]? = (H.objs[v]?).map H.view := by
  rw [h.models, List.getElem?_map]

theorem view_append (H : Heap K) (d : List (List (String × Option K))) (o : Obj K) (ho : o.dict < H.dicts.length) (X : Heap K) (hX : X.dicts = H.dicts ++ d) :
    X.view o = H.view o := by
  unfold Heap.view
  rw [hX, List.getD_append _ _ _ _ ho]

theorem getElem?_lt {β : Type} {l : List β} {k : ℕ} {x : β} (h : l[k]? = some x) : k < l.length := by
  by_contra hc
  rw [List.getElem?_eq_none (by omega)] at h
  cases h

theorem setValues_spec {H : Heap K} (h : Inv H) {v : ℕ} {o : Obj K} (ho : H.objs[v]? = some o) (M : PCTMC K)
    (hM : M = { (H.view o).model with values := M.values }) :
    Inv (H.setValues v o M.values) ∧ (H.setValues v o M.values).values = { H.values with models := H.models.set v ⟨M, o.shared⟩ } := by
  have hv := getElem?_lt ho
  have hinv : Inv (H.setValues v o M.values) := by
    refine ⟨?_, fun x hx => ?_, fun a ha => ?_⟩
    · show H.vars = List.range (H.objs.set v _).length
      rw [List.length_set]
      exact h.vars
    · show x.dict < (H.dicts ++ [_]).length
      rw [List.length_append, List.length_singleton]
      rcases List.mem_or_eq_of_mem_set hx with hx | hx
      · exact Nat.lt_succ_of_lt (h.dict x hx)
      · rw [hx]
        exact Nat.lt_succ_self _
    · show a < (H.dicts ++ [_]).length
      rw [List.length_append, List.length_singleton]
      exact Nat.lt_succ_of_lt (h.dvars a ha)
  refine ⟨hinv, ?_⟩
  unfold Heap.values
  congr 1
  · unfold Heap.dictionaries
    refine List.map_congr_left (fun a ha => ?_)
    show known ((H.dicts ++ [_]).getD a []) = _
    rw [List.getD_append _ _ _ _ (h.dvars a ha)]
  · rw [hinv.models, h.models]
    apply List.ext_getElem?
    intro k
    rw [List.getElem?_map, List.getElem?_set, List.getElem?_map]
    show Option.map _ ((H.objs.set v _)[k]?) = _
    rw [List.getElem?_set, List.length_map]
    by_cases hk : v = k
    · subst hk
      rw [if_pos rfl, if_pos rfl, if_pos hv, if_pos hv, Option.map_some]
      congr 1
      unfold Heap.view
      show (⟨{ o.body with values := known ((H.dicts ++ [M.values.map (fun q => (q.1, some q.2))]).getD H.dicts.length []) }, o.shared⟩ : Comp K) = _
      rw [List.getD_append_right _ _ _ _ (le_refl _), Nat.sub_self]
      show (⟨{ o.body with values := known (M.values.map (fun q => (q.1, some q.2))) }, o.shared⟩ : Comp K) = _
      rw [known_some]
      congr 1
      exact hM.symm
    · rw [if_neg hk, if_neg hk]
      cases hx : H.objs[k]? with
      | none => rfl
      | some x =>
        rw [Option.map_some, Option.map_some]
        congr 1
        exact view_append H _ x (h.dict x (List.mem_of_getElem? hx)) _ rfl

/-- A new model, after a change of the dictionaries that keeps the numbers. -/
theorem add_spec {H : Heap K} (h : Inv H) (D : List (List (String × Option K))) (hl : D.length = H.dicts.length)
    (hD : ∀ a, known (D.getD a []) = known (H.dicts.getD a [])) (o : Obj K) (ho : o.dict < H.dicts.length) (dflt : List (Sync K)) :
    Inv (⟨D, H.objs ++ [o], H.dvars, H.vars ++ [H.objs.length], dflt⟩ : Heap K) ∧
      (⟨D, H.objs ++ [o], H.dvars, H.vars ++ [H.objs.length], dflt⟩ : Heap K).values
        = { H.values with models := H.models ++ [H.view o], dflt := dflt } := by
  have hinv : Inv (⟨D, H.objs ++ [o], H.dvars, H.vars ++ [H.objs.length], dflt⟩ : Heap K) := by
    refine ⟨?_, fun x hx => ?_, fun a ha => ?_⟩
    · show H.vars ++ [H.objs.length] = List.range (H.objs ++ [o]).length
      rw [List.length_append, List.length_singleton, List.range_succ, h.vars]
    · show x.dict < D.length
      rw [hl]
      rcases List.mem_append.1 hx with hx | hx
      · exact h.dict x hx
      · rw [List.mem_singleton.1 hx]
        exact ho
    · show a < D.length
      rw [hl]
      exact h.dvars a ha
  have hv : ∀ x, (⟨D, H.objs ++ [o], H.dvars, H.vars ++ [H.objs.length], dflt⟩ : Heap K).view x = H.view x := by
    intro x
    unfold Heap.view
    dsimp only
    rw [hD]
  refine ⟨hinv, ?_⟩
  unfold Heap.values
  congr 1
  · unfold Heap.dictionaries
    exact List.map_congr_left (fun a _ => hD a)
  · rw [hinv.models, h.models]
    dsimp only
    rw [List.map_append]
    congr 1
    · exact List.map_congr_left (fun x _ => hv x)
    · rw [List.map_cons, hv, List.map_nil]

end PHeap
end Jajapy
