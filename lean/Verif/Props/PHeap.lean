import Verif.Lemmas.PHeap
import Verif.Props.PCompose

/-!
C114: parametric CTMCs behave as values. Histories of constructors, `instantiate`, `randomInstantiation` and compositions, in any order, on any number of models:
what the models are, and which calls raise, is what it would be if every call changed its own model only.
-/

set_option autoImplicit false
set_option linter.unusedSectionVars false

namespace Jajapy
namespace PHeap
open PCompose
variable {K : Type} [Field K] [LinearOrder K]

theorem instantiate_step [FloorRing K] {H : Heap K} (h : Inv H) (v : ℕ) (ps : List String) (xs : List K) :
    Inv (H.instantiate v ps xs).1 ∧ ((H.instantiate v ps xs).1.values, (H.instantiate v ps xs).2) = valueStep H.values (.instantiate v ps xs) := by
  unfold Heap.instantiate valueStep
  dsimp only
  rw [h.obj, show H.values.models = H.models from rfl, h.model]
  cases ho : H.objs[v]? with
  | none => exact ⟨h, rfl⟩
  | some o =>
    simp only [Option.map_some]
    cases hr : (H.view o).model.instantiate ps xs with
    | error e => exact ⟨h, rfl⟩
    | ok r =>
      rcases r with ⟨b, M⟩
      obtain ⟨h1, h2⟩ := instantiate_spec hr
      cases b with
      | true =>
        dsimp only
        obtain ⟨g1, g2⟩ := setValues_spec h ho M h2
        exact ⟨g1, by rw [g2]; rfl⟩
      | false =>
        dsimp only
        refine ⟨h, ?_⟩
        rw [h1 rfl]
        have hk : H.models[v]? = some (H.view o) := by rw [h.model, ho]; rfl
        have : H.models.set v (H.view o) = H.models := by
          apply List.ext_getElem?
          intro k
          rw [List.getElem?_set]
          by_cases hq : v = k
          · subst hq
            rw [if_pos rfl, if_pos (getElem?_lt hk), hk]
          · rw [if_neg hq]
        rw [show (⟨(H.view o).model, (H.view o).shared⟩ : Comp K) = H.view o from rfl, this]
        rfl

theorem random_step [FloorRing K] {H : Heap K} (h : Inv H) (v : ℕ) (ps : Option (List String)) (lo hi : Option K) (rounds : List (List K)) :
    Inv (H.random v ps lo hi rounds).1 ∧
      ((H.random v ps lo hi rounds).1.values, (H.random v ps lo hi rounds).2) = valueStep H.values (.random v ps lo hi rounds) := by
  unfold Heap.random valueStep
  dsimp only
  rw [h.obj, show H.values.models = H.models from rfl, h.model]
  cases ho : H.objs[v]? with
  | none => exact ⟨h, rfl⟩
  | some o =>
    simp only [Option.map_some]
    cases hr : (H.view o).model.randomInstantiation ps lo hi rounds with
    | error e => exact ⟨h, rfl⟩
    | ok r =>
      cases r with
      | none => exact ⟨h, rfl⟩
      | some M =>
        dsimp only
        obtain ⟨g1, g2⟩ := setValues_spec h ho M (instantiateLoop_spec rounds hr)
        exact ⟨g1, by rw [g2]; rfl⟩

theorem src_spec {H : Heap K} (h : Inv H) (d : Src) :
    H.values.src d = (H.src d).map (fun a => known (H.dicts.getD a [])) ∧ ∀ a, H.src d = some a → a < H.dicts.length := by
  cases d with
  | var k =>
    refine ⟨?_, fun a ha => h.dvars a (List.mem_of_getElem? ha)⟩
    show H.dictionaries[k]? = (H.dvars[k]?).map _
    unfold Heap.dictionaries
    rw [List.getElem?_map]
  | attr v =>
    unfold Heap.src Values.src
    dsimp only
    rw [h.obj, show H.values.models = H.models from rfl, h.model]
    cases ho : H.objs[v]? with
    | none => exact ⟨rfl, fun a ha => (by cases ha)⟩
    | some o =>
      refine ⟨rfl, fun a ha => ?_⟩
      rw [← Option.some.inj ha]
      exact h.dict o (List.mem_of_getElem? ho)

theorem new_step [FloorRing K] {H : Heap K} (h : Inv H) (matrix : List (List ℕ)) (labelling : List String) (exprs : List (Expr K)) (d : Src)
    (indexes : List (List (ℕ × ℕ))) (names : List String) (sync : Option (List (Sync K))) :
    Inv (H.new matrix labelling exprs d indexes names sync).1 ∧
      ((H.new matrix labelling exprs d indexes names sync).1.values, (H.new matrix labelling exprs d indexes names sync).2)
        = valueStep H.values (.new matrix labelling exprs d indexes names sync) := by
  obtain ⟨s1, s2⟩ := src_spec h d
  unfold Heap.new valueStep
  dsimp only
  rw [s1]
  cases hs : H.src d with
  | none => exact ⟨h, rfl⟩
  | some a =>
    simp only [Option.map_some]
    rw [mkPCTMC_known]
    cases hM : mkPCTMC matrix labelling exprs (H.dicts.getD a []) indexes names (sync.getD []) with
    | error e => exact ⟨h, rfl⟩
    | ok M =>
      dsimp only
      have hD : ∀ b, known ((H.dicts.modify a (fun d => d.filter (fun p => p.2.isSome))).getD b []) = known (H.dicts.getD b []) := by
        intro b
        rw [List.getD_eq_getElem?_getD, List.getD_eq_getElem?_getD, List.getElem?_modify]
        cases hb : H.dicts[b]? with
        | none => rfl
        | some x =>
          by_cases hab : a = b
          · simp [hab, known_filter]
          · simp [hab]
      obtain ⟨g1, g2⟩ := add_spec h (H.dicts.modify a (fun d => d.filter (fun p => p.2.isSome))) (List.length_modify ..) hD ⟨M, sync.isNone, a⟩
        (s2 a hs) H.dflt
      refine ⟨g1, ?_⟩
      rw [g2]
      have : H.view ⟨M, sync.isNone, a⟩ = ⟨M, sync.isNone⟩ := by
        unfold Heap.view
        dsimp only
        rw [← mkPCTMC_values hM]
      rw [this]
      rfl

theorem compose_step [FloorRing K] {H : Heap K} (h : Inv H) (vs : List (ℕ × List String)) (perm : List ℕ → List ℕ) (hvs : vs.length ≠ 1) :
    Inv (H.compose vs perm).1 ∧ ((H.compose vs perm).1.values, (H.compose vs perm).2) = valueStep H.values (.compose vs perm) := by
  match vs, hvs with
  | [], _ => exact ⟨h, rfl⟩
  | [_], hvs => exact absurd rfl hvs
  | v :: w :: vs, _ =>
    have hmap : (v :: w :: vs).mapM (fun p => (H.obj p.1).map (fun o => (H.view o.2, p.2)))
        = (v :: w :: vs).mapM (fun p => (H.values.models[p.1]?).map (fun m => (m, p.2))) := by
      congr 1
      funext p
      rw [h.obj, show H.values.models = H.models from rfl, h.model, Option.map_map, Option.map_map]
      rfl
    unfold Heap.compose valueStep
    dsimp only
    rw [hmap]
    cases hcs : (v :: w :: vs).mapM (fun p => (H.values.models[p.1]?).map (fun m => (m, p.2))) with
    | none =>
      cases H.obj v.1 with
      | none => exact ⟨h, rfl⟩
      | some q => exact ⟨h, rfl⟩
    | some cs =>
      rw [List.mapM_cons] at hcs
      obtain ⟨c, hc, hcs⟩ := Option.bind_eq_some_iff.1 hcs
      rw [List.mapM_cons] at hcs
      obtain ⟨cs2, hcs2, hcs⟩ := Option.bind_eq_some_iff.1 hcs
      obtain ⟨c2, -, hcs2⟩ := Option.bind_eq_some_iff.1 hcs2
      obtain ⟨cs3, -, hcs2⟩ := Option.bind_eq_some_iff.1 hcs2
      cases Option.some.inj hcs2
      cases Option.some.inj hcs
      rw [show H.values.models = H.models from rfl, h.model] at hc
      rw [h.obj]
      cases ho : H.objs[v.1]? with
      | none =>
        rw [ho] at hc
        cases hc
      | some o =>
        rw [ho] at hc
        have hc := Option.some.inj hc
        simp only [Option.map_some]
        rw [show H.values.dflt = H.dflt from rfl]
        cases hr : composeAll perm H.dflt (c :: c2 :: cs3) with
        | mk dflt r =>
          cases r with
          | error e => exact ⟨⟨h.vars, h.dict, h.dvars⟩, rfl⟩
          | ok M =>
            dsimp only
            obtain ⟨g1, g2⟩ := add_spec h H.dicts rfl (fun _ => rfl) ⟨M, true, o.dict⟩ (h.dict o (List.mem_of_getElem? ho)) dflt
            refine ⟨g1, ?_⟩
            rw [g2]
            have : H.view ⟨M, true, o.dict⟩ = ⟨M, true⟩ := by
              have e := composeAll_values hr
              rw [← hc] at e
              unfold Heap.view
              dsimp only
              congr 1
              rw [show known (H.dicts.getD o.dict []) = M.values from e.symm]
            rw [this]
            rfl

theorem step_spec [FloorRing K] {H : Heap K} (h : Inv H) (o : Op K) (ho : o.Tame) :
    Inv (H.step o).1 ∧ ((H.step o).1.values, (H.step o).2) = valueStep H.values o := by
  cases o with
  | dict d =>
    unfold Heap.step
    dsimp only
    have hinv : Inv (⟨H.dicts ++ [d], H.objs, H.dvars ++ [H.dicts.length], H.vars, H.dflt⟩ : Heap K) := by
      refine ⟨h.vars, fun x hx => ?_, fun a ha => ?_⟩
      · show x.dict < (H.dicts ++ [d]).length
        rw [List.length_append, List.length_singleton]
        exact Nat.lt_succ_of_lt (h.dict x hx)
      · show a < (H.dicts ++ [d]).length
        rw [List.length_append, List.length_singleton]
        rcases List.mem_append.1 ha with ha | ha
        · exact Nat.lt_succ_of_lt (h.dvars a ha)
        · rw [List.mem_singleton.1 ha]
          exact Nat.lt_succ_self _
    refine ⟨hinv, ?_⟩
    unfold Heap.values valueStep
    dsimp only
    congr 2
    · unfold Heap.dictionaries
      dsimp only
      rw [List.map_append]
      congr 1
      · refine List.map_congr_left (fun a ha => ?_)
        rw [List.getD_append _ _ _ _ (h.dvars a ha)]
      · rw [List.map_cons, List.getD_append_right _ _ _ _ (le_refl _), Nat.sub_self]
        rfl
    · rw [hinv.models, h.models]
      refine List.map_congr_left (fun x hx => ?_)
      exact view_append H [d] x (h.dict x hx) _ rfl
  | write k p x => exact absurd ho id
  | new matrix labelling exprs d indexes names sync => exact new_step h matrix labelling exprs d indexes names sync
  | instantiate v ps xs => exact instantiate_step h v ps xs
  | random v ps lo hi rounds => exact random_step h v ps lo hi rounds
  | compose vs perm => exact compose_step h vs perm ho

/-- C114, partial (the caller writes in no dictionary and composes at least two models at a time): the models behave as values, although a composition and its
first component share their dictionary. -/
theorem models_are_values_partial [FloorRing K] (os : List (Op K)) (hos : ∀ o ∈ os, o.Tame) :
    ((Heap.run os Heap.empty).1.values, (Heap.run os Heap.empty).2) = valueRun os ⟨[], [], []⟩ := by
  have key : ∀ (os : List (Op K)) (H : Heap K), Inv H → (∀ o ∈ os, o.Tame) → ((H.run os).1.values, (H.run os).2) = valueRun os H.values := by
    intro os
    induction os with
    | nil => exact fun H _ _ => rfl
    | cons o os ih =>
      intro H h hos
      obtain ⟨g1, g2⟩ := step_spec h o (hos o (List.mem_cons_self ..))
      have e1 : (H.step o).1.values = (valueStep H.values o).1 := congrArg Prod.fst g2
      have e2 : (H.step o).2 = (valueStep H.values o).2 := congrArg Prod.snd g2
      have := ih _ g1 (fun o' ho' => hos o' (List.mem_cons_of_mem _ ho'))
      rw [Heap.run, valueRun]
      dsimp only
      rw [e1] at this
      rw [← this, e2]
  exact key os Heap.empty Inv.empty hos

/-- Hence a call changes its own model only. -/
theorem others_unchanged_partial [FloorRing K] (os : List (Op K)) (o : Op K) (hos : ∀ o' ∈ os ++ [o], o'.Tame) (k : ℕ) (m : Comp K)
    (hm : (Heap.run os Heap.empty).1.models[k]? = some m)
    (hk : ∀ v, ((∃ ps xs, o = .instantiate v ps xs) ∨ ∃ ps lo hi rounds, o = .random v ps lo hi rounds) → v ≠ k) :
    (Heap.run (os ++ [o]) Heap.empty).1.models[k]? = some m := by
  have split : ∀ (os : List (Op K)) (V : Values K), (valueRun (os ++ [o]) V).1 = (valueStep (valueRun os V).1 o).1 := by
    intro os
    induction os with
    | nil => exact fun V => rfl
    | cons a os ih =>
      intro V
      rw [List.cons_append, valueRun, valueRun]
      exact ih _
  have e0 := congrArg Prod.fst (models_are_values_partial os (fun o' ho' => hos o' (List.mem_append_left _ ho')))
  have e1 := congrArg Prod.fst (models_are_values_partial (os ++ [o]) hos)
  dsimp only at e0 e1
  rw [split, ← e0] at e1
  have e2 : (Heap.run (os ++ [o]) Heap.empty).1.models = (valueStep (Heap.run os Heap.empty).1.values o).1.models := congrArg Values.models e1
  rw [e2]
  set V := (Heap.run os Heap.empty).1.values
  have hS : V.models[k]? = some m := hm
  have hlt := getElem?_lt hS
  cases o with
  | dict d => exact hS
  | write j p x => exact absurd (hos _ (List.mem_append_right _ (List.mem_singleton.2 rfl))) id
  | new matrix labelling exprs d indexes names sync =>
    unfold valueStep
    dsimp only
    split
    · exact hS
    · split
      · exact hS
      · dsimp only
        rw [List.getElem?_append_left hlt]
        exact hS
  | instantiate v ps xs =>
    have hvk : v ≠ k := hk v (Or.inl ⟨ps, xs, rfl⟩)
    unfold valueStep
    dsimp only
    split
    · exact hS
    · split
      · exact hS
      · dsimp only
        rw [List.getElem?_set_ne hvk]
        exact hS
  | random v ps lo hi rounds =>
    have hvk : v ≠ k := hk v (Or.inr ⟨ps, lo, hi, rounds, rfl⟩)
    unfold valueStep
    dsimp only
    split
    · exact hS
    · split
      · exact hS
      · dsimp only
        rw [List.getElem?_set_ne hvk]
        exact hS
      · exact hS
  | compose vs perm =>
    have h1 := hos (.compose vs perm) (List.mem_append_right _ (List.mem_singleton.2 rfl))
    match vs, h1 with
    | [], _ => exact hS
    | [_], h1 => exact absurd rfl h1
    | v :: w :: vs, _ =>
      unfold valueStep
      dsimp only
      split
      · exact hS
      · split
        · exact hS
        · dsimp only
          rw [List.getElem?_append_left hlt]
          exact hS

/-! ### Where it fails -/

/-- The model of the examples: two states and the initial one, rates `2 x` and `y^2`. -/
def exNew (d : Src) : Op ℚ :=
  .new [[0, 1, 0], [2, 0, 0], [3, 0, 0]] ["a", "b", "init"] [.num 0, .mul (.num 2) (.sym "x"), .pow (.sym "y") 2, .num 1] d [[(0, 1)], [(1, 0)]] ["x", "y"] (some [])

/-- The values of the models, the content of the first dictionary and the errors. -/
def observe (os : List (Op ℚ)) : List (Valuation ℚ) × Option (List (String × Option ℚ)) × List (Option Err) :=
  let r := Heap.run os Heap.empty
  (r.1.models.map (fun m => m.model.values), (r.1.dvars[0]?).map (fun a => r.1.dicts.getD a []), r.2)

/-- The constructor deletes the entries `nan` from the dictionary of the caller. -/
theorem constructor_deletes_nan :
    observe [.dict [("x", some 1), ("y", none)], exNew (.var 0)] = ([[("x", 1)]], some [("x", some 1)], [none, none]) := by
  decide +kernel

/-- The model keeps the dictionary of the caller: a later change of the dictionary is a change of the model, and may set a rate that `instantiate` would
refuse. -/
theorem dictionary_is_kept :
    observe [.dict [("x", some 1), ("y", some 3)], exNew (.var 0), .write 0 "x" (-1)]
      = ([[("x", -1), ("y", 3)]], some [("x", some (-1)), ("y", some 3)], [none, none, none]) := by
  decide +kernel

/-- The composition of one model is that model: instantiating the one is instantiating the other. -/
theorem composition_of_one :
    (observe [.dict [("x", some 1), ("y", some 3)], exNew (.var 0), .compose [(0, [])] id, .instantiate 1 ["x"] [5]]).1
      = [[("x", 5), ("y", 3)], [("x", 5), ("y", 3)]] := by
  decide +kernel

/-! ### Examples -/

/-- Two models with one dictionary, and a third one with the dictionary of the second; then instantiations. -/
def exOps : List (Op ℚ) :=
  [.dict [("x", some 1), ("y", none)], exNew (.var 0), exNew (.var 0), exNew (.attr 1), .instantiate 0 ["x", "y"] [5, 6], .random 1 none none none [[1/2]],
    .instantiate 1 ["x"] [7], .compose [] id]

example : ∀ o ∈ exOps, o.Tame := by
  intro o ho
  simp only [exOps, exNew, List.mem_cons, List.not_mem_nil, or_false] at ho
  rcases ho with rfl | rfl | rfl | rfl | rfl | rfl | rfl | rfl <;> simp [Op.Tame]

example : observe exOps = ([[("x", 5), ("y", 6)], [("x", 7), ("y", 31/200)], [("x", 1)]], some [("x", some 1)],
    [none, none, none, none, none, none, none, some .valueError]) := by
  decide +kernel

/-- A model of `exNew` is composed with another one, then the result is instantiated. -/
def exComposed : List (Op ℚ) := [.dict [("x", some 1), ("y", some 3)], exNew (.var 0), exNew (.var 0), .compose [(0, []), (1, ["x", "y"])] id]

theorem exComposed_ok : (Heap.run exComposed Heap.empty).2 = [none, none, none, none] := by
  have e := congrArg Prod.snd (models_are_values_partial exComposed (by
    intro o ho
    simp only [exComposed, exNew, List.mem_cons, List.not_mem_nil, or_false] at ho
    rcases ho with rfl | rfl | rfl | rfl <;> simp [Op.Tame]))
  dsimp only at e
  rw [e]
  set m : Comp ℚ := ⟨⟨[[0, 1, 0], [2, 0, 0], [3, 0, 0]], ["a", "b", "init"], [.num 0, .mul (.num 2) (.sym "x"), .pow (.sym "y") 2, .num 1],
    [("x", 1), ("y", 3)], [[(0, 1)], [(1, 0)]], ["x", "y"], [0, 0, 1], []⟩, false⟩ with hm
  have hc : ∃ d M, composeAll id [] [(m, []), (m, ["x", "y"])] = (d, .ok M) := by
    have h : (match composeFuel 1000 [] m [(m, ["x", "y"])] with | some (_, .ok _) => true | _ => false) = true := by decide +kernel
    split at h
    · rename_i d M hd
      exact ⟨d, M, composeFuel_eq 1000 [] m [] _ _ _ hd⟩
    · cases h
  obtain ⟨d, M, hc⟩ := hc
  have hmk : mkPCTMC (K := ℚ) [[0, 1, 0], [2, 0, 0], [3, 0, 0]] ["a", "b", "init"] [.num 0, .mul (.num 2) (.sym "x"), .pow (.sym "y") 2, .num 1]
      [("x", some 1), ("y", some 3)] [[(0, 1)], [(1, 0)]] ["x", "y"] [] = .ok m.model := by
    have h : (match mkPCTMC (K := ℚ) [[0, 1, 0], [2, 0, 0], [3, 0, 0]] ["a", "b", "init"] [.num 0, .mul (.num 2) (.sym "x"), .pow (.sym "y") 2, .num 1]
      [("x", some 1), ("y", some 3)] [[(0, 1)], [(1, 0)]] ["x", "y"] [] with
        | .ok X => decide (X.matrix = m.model.matrix ∧ X.labelling = m.model.labelling ∧ X.exprs = m.model.exprs ∧ X.values = m.model.values ∧
            X.indexes = m.model.indexes ∧ X.names = m.model.names ∧ X.initialState = m.model.initialState ∧ X.sync = m.model.sync)
        | .error _ => false) = true := by decide +kernel
    split at h
    · rename_i X hX
      obtain ⟨h1, h2, h3, h4, h5, h6, h7, h8⟩ := of_decide_eq_true h
      rw [hX]
      cases X
      simp_all
    · cases h
  have s1 : valueStep (⟨[], [], []⟩ : Values ℚ) (.dict [("x", some 1), ("y", some 3)]) = (⟨[[("x", 1), ("y", 3)]], [], []⟩, none) := rfl
  have s2 : ∀ ms, valueStep (⟨[[("x", 1), ("y", 3)]], ms, []⟩ : Values ℚ) (exNew (.var 0)) = (⟨[[("x", 1), ("y", 3)]], ms ++ [m], []⟩, none) := by
    intro ms
    simp only [valueStep, exNew, Values.src, List.getElem?_cons_zero, List.map_cons, List.map_nil, Option.getD_some, hmk, Option.isNone_some]
    rfl
  have s3 : (valueStep (⟨[[("x", 1), ("y", 3)]], [m, m], []⟩ : Values ℚ) (.compose [(0, []), (1, ["x", "y"])] id)).2 = none := by
    have hm : [((0 : ℕ), ([] : List String)), (1, ["x", "y"])].mapM (fun p => (([m, m])[p.1]?).map (fun x => (x, p.2))) = some [(m, []), (m, ["x", "y"])] := rfl
    simp only [valueStep, hm, hc]
  unfold exComposed
  simp only [valueRun, s1, s2, List.nil_append, List.singleton_append, s3]

/-- Instantiating the composition leaves the values of its first component alone, although they shared their dictionary. -/
example (m : Comp ℚ) (h : (Heap.run exComposed Heap.empty).1.models[0]? = some m) :
    (Heap.run (exComposed ++ [.instantiate 2 ["x"] [7]]) Heap.empty).1.models[0]? = some m := by
  refine others_unchanged_partial exComposed _ ?_ 0 m h ?_
  · intro o ho
    simp only [exComposed, exNew, List.mem_append, List.mem_cons, List.not_mem_nil, or_false] at ho
    rcases ho with (rfl | rfl | rfl | rfl) | rfl <;> simp [Op.Tame]
  · rintro v (⟨ps, xs, e⟩ | ⟨ps, lo, hi, rounds, e⟩)
    · cases e
      decide
    · cases e

end PHeap
end Jajapy
