import Verif.Lemmas.SetHeap
import Verif.Props.Prep

/-!
C113: `Set` objects behave as values. Histories of constructors, `addSet`, `sort` (`logLikelihood`) and `fit`, in any order, on any number of objects: what the
objects contain, and which calls raise, is what it would be if every call changed its own object only.
-/

set_option autoImplicit false

namespace Jajapy
namespace SetHeap
variable {α : Type}

theorem fit_spec [LinearOrder α] (kind : α → Kind) (init : α) {H : Heap α} (h : Inv H) (i : ℕ) (m : Option ℕ)
    (hr : ∀ S, H.views[i]? = some S → m = some 2 ∨ Ready init S) :
    Inv (H.fit kind init i m).1 ∧ ((H.fit kind init i m).1.views, (H.fit kind init i m).2) = valueStep kind H.views (.fit i m) := by
  unfold Heap.fit valueStep
  dsimp only
  cases hi : H.sets[i]? with
  | none =>
    have : H.views[i]? = none := by
      unfold Heap.views
      rw [List.getElem?_map, hi]
      rfl
    rw [this]
    exact ⟨h, rfl⟩
  | some S =>
    rw [views_getElem? hi]
    dsimp only
    have key : ∃ A, Prep.getTrainingSet kind init m H.traces (.obj ⟨H.lists.getD S.seq [], S.times, S.floatTimes, S.type⟩)
        = .ok (H.traces, ⟨H.lists.getD S.seq [], S.times, S.floatTimes, S.type⟩, A) := by
      by_cases hm : m = some 2 ∨ S.type = some 3
      · exact ⟨none, Prep.prepare_HMM kind init m _ _ hm⟩
      · rcases hr _ (views_getElem? hi) with h2 | h3 | ⟨t, ht, hl, ho⟩
        · exact absurd (Or.inl h2) hm
        · exact absurd (Or.inr h3) hm
        · obtain ⟨A, h1, h2, h3⟩ := Prep.alphabet_spec (H.view S) t ht hl
          have hin : init ∈ A := (h3 init).2 ho
          refine ⟨some (A.erase init), ?_⟩
          unfold Prep.getTrainingSet Prep.resolve
          simp only [bind, Except.bind]
          have e : Prep.SetObj.content H.traces ⟨H.lists.getD S.seq [], S.times, S.floatTimes, S.type⟩ = H.view S := rfl
          rw [if_pos (by tauto), e, h1]
          simp only
          rw [if_neg (not_not.2 hin)]
          rfl
    obtain ⟨A, hA⟩ := key
    rw [hA]
    exact ⟨h, rfl⟩

theorem step_spec [LinearOrder α] (kind : α → Kind) (init : α) {H : Heap α} (h : Inv H) (o : Op α) (h1 : o.Counted) (h2 : o.Unshared)
    (h3 : o.Prepared init H.views) :
    Inv (H.step kind init o).1 ∧ ((H.step kind init o).1.views, (H.step kind init o).2) = valueStep kind H.views o := by
  cases o with
  | make l times t =>
    refine make_spec kind h l times t (fun ts hts => ?_)
    subst hts
    exact h1
  | share i times t => exact absurd h2 id
  | addSet i j => exact addSet_spec kind h i j
  | sort i => exact sort_spec kind h i
  | fit i m => exact fit_spec kind init h i m h3

theorem run_spec [LinearOrder α] (kind : α → Kind) (init : α) (os : List (Op α)) : ∀ (H : Heap α), Inv H → Tame kind init os H.views →
    ((H.run kind init os).1.views, (H.run kind init os).2) = valueRun kind os H.views := by
  induction os with
  | nil =>
    intro H _ _
    rfl
  | cons o os ih =>
    intro H h ⟨h1, h2, h3, h4⟩
    obtain ⟨g1, g2⟩ := step_spec kind init h o h1 h2 h3
    have e1 : (H.step kind init o).1.views = (valueStep kind H.views o).1 := congrArg Prod.fst g2
    have e2 : (H.step kind init o).2 = (valueStep kind H.views o).2 := congrArg Prod.snd g2
    have := ih _ g1 (by rw [e1]; exact h4)
    rw [Heap.run, valueRun]
    dsimp only
    rw [e1] at this
    rw [← this, e2]

/-- C113, partial (no list given to two constructors, no training on a set whose traces lack the initial label): the sets behave as values. -/
theorem sets_are_values_partial [LinearOrder α] (kind : α → Kind) (init : α) (os : List (Op α)) (h : Tame kind init os []) :
    ((Heap.run kind init os Heap.empty).1.views, (Heap.run kind init os Heap.empty).2) = valueRun kind os [] :=
  run_spec kind init os Heap.empty Inv.empty h

/-- Hence a call changes its own object only: what the other sets contain stays as it is. -/
theorem others_unchanged_partial [LinearOrder α] (kind : α → Kind) (init : α) (os : List (Op α)) (o : Op α) (h : Tame kind init (os ++ [o]) []) (k : ℕ)
    (S : TSet α) (hS : (Heap.run kind init os Heap.empty).1.views[k]? = some S)
    (hk : ∀ i, (o = .sort i ∨ ∃ j, o = .addSet i j) → i ≠ k) :
    (Heap.run kind init (os ++ [o]) Heap.empty).1.views[k]? = some S := by
  have split : ∀ (os : List (Op α)) (V : List (TSet α)), Tame kind init (os ++ [o]) V →
      Tame kind init os V ∧ (valueRun kind (os ++ [o]) V).1 = (valueStep kind (valueRun kind os V).1 o).1 := by
    intro os
    induction os with
    | nil => exact fun V _ => ⟨trivial, rfl⟩
    | cons a os ih =>
      intro V ⟨a1, a2, a3, a4⟩
      obtain ⟨b1, b2⟩ := ih _ a4
      refine ⟨⟨a1, a2, a3, b1⟩, ?_⟩
      rw [List.cons_append, valueRun, valueRun]
      exact b2
  obtain ⟨t1, t2⟩ := split os [] h
  have e0 := congrArg Prod.fst (sets_are_values_partial kind init os t1)
  have e1 := congrArg Prod.fst (sets_are_values_partial kind init (os ++ [o]) h)
  dsimp only at e0 e1
  rw [e0] at hS
  rw [e1, t2]
  set V := (valueRun kind os []).1
  have hlt := getElem?_lt hS
  cases o with
  | make l times t =>
    unfold valueStep
    dsimp only
    cases TSet.mk' kind l times t with
    | error e => exact hS
    | ok S' =>
      dsimp only
      rw [List.getElem?_append_left hlt]
      exact hS
  | share i times t =>
    unfold valueStep
    dsimp only
    cases V[i]? with
    | none => exact hS
    | some S0 =>
      dsimp only
      cases TSet.mk' kind S0.sequences (some times) t with
      | error e => exact hS
      | ok S' =>
        dsimp only
        rw [List.getElem?_append_left hlt]
        exact hS
  | addSet i j =>
    have hik : i ≠ k := hk i (Or.inr ⟨j, rfl⟩)
    unfold valueStep
    dsimp only
    cases V[i]? with
    | none => exact hS
    | some S1 =>
      cases V[j]? with
      | none => exact hS
      | some S2 =>
        dsimp only
        cases S1.addSet S2 with
        | error e => exact hS
        | ok S' =>
          dsimp only
          rw [List.getElem?_set_ne hik]
          exact hS
  | sort i =>
    have hik : i ≠ k := hk i (Or.inl rfl)
    unfold valueStep
    dsimp only
    cases V[i]? with
    | none => exact hS
    | some S1 =>
      dsimp only
      rw [List.getElem?_set_ne hik]
      exact hS
  | fit i m =>
    unfold valueStep
    dsimp only
    cases V[i]? with
    | none => exact hS
    | some S1 => exact hS

/-! ### Where it fails -/

/-- Two sets made from one list: adding to one of them gives the other more traces than multiplicities … -/
theorem shared_list :
    (Heap.run (fun _ : ℕ => Kind.str) 0 [.make [[0, 1]] (some [2]) none, .share 0 [3] none, .make [[0, 2]] none none, .addSet 0 2] Heap.empty).1.views
      = [⟨[[0, 1], [0, 2]], [2, 1], false, some 0⟩, ⟨[[0, 1], [0, 2]], [3], false, some 0⟩, ⟨[[0, 2]], [1], false, some 0⟩] := by
  decide +kernel

/-- … and adding that one to a third set fails half way: the third set is changed, and has more traces than multiplicities as well. -/
theorem shared_list_raises :
    let r := Heap.run (fun _ : ℕ => Kind.str) 0
      [.make [[0, 1]] (some [2]) none, .share 0 [3] none, .make [[0, 2]] none none, .addSet 0 2, .make [[0, 5]] none none, .addSet 3 1] Heap.empty
    r.2 = [none, none, none, none, none, some .indexError] ∧
      r.1.views[3]? = some ⟨[[0, 5], [0, 1], [0, 2]], [1, 3], false, some 0⟩ := by
  decide +kernel

/-- After `s.addSet(s')` the two sets share traces: a training on `s` changes `s'` too, and only some of its traces. Here the first trace of `s'` was in `s`
already (as an equal list of its own), the second one is shared: it gets the initial label (0), the first one does not. -/
theorem fit_changes_another_set :
    let r := Heap.run (fun _ : ℕ => Kind.str) 0
      [.make [[1, 1]] none none, .make [[1, 1], [1, 2]] none none, .addSet 0 1, .fit 0 (some 0)] Heap.empty
    r.2 = [none, none, none, none] ∧
      r.1.views = [⟨[[0, 1, 1], [0, 1, 2]], [2, 1], false, some 0⟩, ⟨[[1, 1], [0, 1, 2]], [1, 1], false, some 0⟩] := by
  decide +kernel

/-- A later training on `s'` then finds the initial label in its alphabet and does not insert it: the first trace stays without it. -/
theorem fit_changes_another_set_forever :
    let r := Heap.run (fun _ : ℕ => Kind.str) 0
      [.make [[1, 1]] none none, .make [[1, 1], [1, 2]] none none, .addSet 0 1, .fit 0 (some 0), .fit 1 (some 0)] Heap.empty
    r.1.views[1]? = some ⟨[[1, 1], [0, 1, 2]], [1, 1], false, some 0⟩ := by
  decide +kernel

/-! ### Examples -/

/-- A history with every kind of call. -/
def exOps : List (Op ℕ) :=
  [.make [[0, 2], [0, 1], [0, 2]] none none, .make [[0, 3], [0, 1]] (some [4, 1]) none, .addSet 0 1, .addSet 0 0, .fit 0 (some 0), .addSet 1 0, .sort 0,
    .sort 1, .addSet 1 0]

theorem exOps_tame : Tame (fun _ : ℕ => Kind.str) 0 exOps [] := by
  refine ⟨trivial, trivial, trivial, rfl, trivial, trivial, trivial, trivial, trivial, trivial, trivial, trivial, trivial, trivial, ?_, trivial, trivial,
    trivial, trivial, trivial, trivial, trivial, trivial, trivial, trivial, trivial, trivial, trivial⟩
  intro S hS
  have : S = ⟨[[0, 2], [0, 1], [0, 3]], [4, 4, 8], false, some 0⟩ := by
    have e : some S = some (⟨[[0, 2], [0, 1], [0, 3]], [4, 4, 8], false, some 0⟩ : TSet ℕ) := by
      rw [← hS]
      decide +kernel
    exact Option.some.inj e
  subst this
  refine Or.inr (Or.inr ⟨0, rfl, Or.inl rfl, [0, 1], by simp, ?_⟩)
  simp [Spec.Occurs]

/-- What the two sets contain after the first six calls. -/
example : (Heap.run (fun _ : ℕ => Kind.str) 0 (exOps.take 6) Heap.empty).1.views
    = [⟨[[0, 2], [0, 1], [0, 3]], [4, 4, 8], false, some 0⟩, ⟨[[0, 3], [0, 1], [0, 2]], [12, 5, 4], false, some 0⟩] := by
  decide +kernel

example := sets_are_values_partial (fun _ : ℕ => Kind.str) 0 exOps exOps_tame

end SetHeap
end Jajapy
