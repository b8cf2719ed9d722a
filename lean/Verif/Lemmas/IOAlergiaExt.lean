import Verif.Lemmas.IOAlergiaTree
import Verif.Props.Simulation

/-!
Merging does not change the counts that a state has: it redirects transitions to a state with the same observation, and adds transitions.
-/

namespace Jajapy.IOAlergia

open Relation Auto Spec.IOAlergia

/-- The counts and observations of the transitions of a state for an action. -/
def row (A : Auto) (x : ℕ) (a : String) : List (ℕ × String) := ((A.node x).trans a).map (fun q => (q.1, (A.node q.2).obs))

/-- The counts are kept. -/
structure Ext (A A' : Auto) : Prop where
  obs : ∀ x, (A'.node x).obs = (A.node x).obs
  acts : ∀ {x a}, a ∈ (A.node x).acts → a ∈ (A'.node x).acts
  row : ∀ {x a}, a ∈ (A.node x).acts → row A x a <+: row A' x a

theorem Ext.refl (A : Auto) : Ext A A := ⟨fun _ => rfl, fun h => h, fun _ => List.prefix_rfl⟩

theorem Ext.trans {A A' A'' : Auto} (h : Ext A A') (h' : Ext A' A'') : Ext A A'' :=
  ⟨fun x => (h'.obs x).trans (h.obs x), fun ha => h'.acts (h.acts ha), fun ha => (h.row ha).trans (h'.row (h.acts ha))⟩

theorem replaceFirst_row {α : Type} {f : ℕ → α} {old new : ℕ} (h : f new = f old) : ∀ (l : List (ℕ × ℕ)),
    (replaceFirst old new l).map (fun q => (q.1, f q.2)) = l.map (fun q => (q.1, f q.2))
  | [] => rfl
  | q :: l => by
    rw [replaceFirst]
    split
    · rename_i e
      rw [List.map_cons, List.map_cons]
      dsimp only
      rw [h, e]
    · rw [List.map_cons, List.map_cons, replaceFirst_row h l]

theorem row_congr {A A' : Auto} (ho : ∀ x, (A'.node x).obs = (A.node x).obs) (x : ℕ) (a : String) :
    row A' x a = ((A'.node x).trans a).map (fun q => (q.1, (A.node q.2).obs)) := by
  unfold row
  simp only [ho]

theorem set_obs (A : Auto) (x : ℕ) (v : Node) (h : v.obs = (A.node x).obs) (y : ℕ) : ((A.set x v).node y).obs = (A.node y).obs := by
  unfold Auto.set
  dsimp only
  split
  · rename_i e; rw [h, e]
  · rfl

theorem change_ext (A : Auto) (x : ℕ) (a : String) {s1 s2 : ℕ} (h : (A.node s1).obs = (A.node s2).obs) :
    Ext A (A.set x ((A.node x).transitionChange a s2 s1)) := by
  have ho := set_obs A x ((A.node x).transitionChange a s2 s1) rfl
  refine ⟨ho, ?_, ?_⟩
  · intro y b hb
    unfold Auto.set
    dsimp only
    split
    · rename_i e; subst e; exact hb
    · exact hb
  · intro y b _
    rw [row_congr ho]
    unfold row Auto.set
    dsimp only
    split
    · rename_i e
      subst e
      unfold Node.transitionChange
      dsimp only
      split
      · rename_i e'
        subst e'
        rw [replaceFirst_row (f := fun z => (A.node z).obs) h]
      · exact List.prefix_rfl
    · exact List.prefix_rfl

theorem changes_ext {s1 s2 : ℕ} : ∀ (ps : List (ℕ × String)) (A : Auto), (A.node s1).obs = (A.node s2).obs →
    Ext A (ps.foldl (fun A p => A.set p.1 ((A.node p.1).transitionChange p.2 s2 s1)) A)
  | [], A, _ => Ext.refl A
  | p :: ps, A, h => by
    have h1 := change_ext A p.1 p.2 h
    exact h1.trans (changes_ext ps _ (by rw [h1.obs, h1.obs]; exact h))

theorem counter_ext (A : Auto) (x c : ℕ) : Ext A (A.set x { A.node x with counter := c }) := by
  have ho := set_obs A x { A.node x with counter := c } rfl
  refine ⟨ho, ?_, ?_⟩
  · intro y b hb
    unfold Auto.set
    dsimp only
    split
    · rename_i e; subst e; exact hb
    · exact hb
  · intro y b _
    rw [row_congr ho]
    unfold row Auto.set
    dsimp only
    split
    · rename_i e
      subst e
      exact List.prefix_rfl
    · exact List.prefix_rfl

theorem addCounter_ext (A : Auto) (s1 s2 : ℕ) : Ext A (A.addCounter s1 s2) := by
  unfold addCounter
  exact (counter_ext A s1 _).trans (counter_ext _ s2 0)

theorem add_ext (A : Auto) (x : ℕ) (a : String) (c d : ℕ) : Ext A (A.set x ((A.node x).transitionsAdd a c d)) := by
  have h0 : ((A.node x).transitionsAdd a c d).obs = (A.node x).obs := by
    unfold Node.transitionsAdd; split <;> rfl
  have ho := set_obs A x ((A.node x).transitionsAdd a c d) h0
  have key : ∀ b ∈ (A.node x).acts, b ∈ ((A.node x).transitionsAdd a c d).acts ∧ (A.node x).trans b <+: ((A.node x).transitionsAdd a c d).trans b := by
    intro b hb
    unfold Node.transitionsAdd
    split
    · refine ⟨hb, ?_⟩
      dsimp only
      split
      · rename_i e; subst e; exact List.prefix_append _ _
      · exact List.prefix_rfl
    · rename_i hn
      refine ⟨List.mem_append_left _ hb, ?_⟩
      dsimp only
      rw [if_neg (by rintro rfl; exact hn hb)]
  refine ⟨ho, ?_, ?_⟩
  · intro y b hb
    unfold Auto.set
    dsimp only
    split
    · rename_i e; subst e; exact (key b hb).1
    · exact hb
  · intro y b hb
    rw [row_congr ho]
    unfold row Auto.set
    dsimp only
    split
    · rename_i e
      subst e
      exact (key b hb).2.map _
    · exact List.prefix_rfl

theorem successor_obs {A : Auto} {x y : ℕ} {a o : String} (e : A.successor x a o = some y) : (A.node y).obs = o := by
  unfold successor at e
  split at e
  · simpa using List.find?_some e
  · cases e

theorem mergeLoop_ext {rec : Auto → ℕ → ℕ → Option Auto} (hrec : ∀ A s1 s2 A', (A.node s1).obs = (A.node s2).obs → rec A s1 s2 = some A' → Ext A A')
    {s1 s2 : ℕ} : ∀ (ks : List Key) (A A' : Auto), mergeLoop rec s1 s2 ks A = some A' → Ext A A'
  | [], A, A', e => by
    cases e; exact Ext.refl A
  | (a, o) :: ks, A, A', e => by
    rw [mergeLoop] at e
    rcases e2 : A.successor s2 a o with _ | t2
    · rw [e2] at e
      exact mergeLoop_ext hrec ks A A' e
    · rw [e2] at e
      rcases e1 : A.successor s1 a o with _ | t1
      · rw [e1] at e
        exact (add_ext A s1 a _ t2).trans (mergeLoop_ext hrec ks _ A' e)
      · rw [e1] at e
        dsimp only at e
        rcases er : rec A t1 t2 with _ | A1
        · rw [er] at e; cases e
        · rw [er] at e
          exact (hrec A t1 t2 A1 ((successor_obs e1).trans (successor_obs e2).symm) er).trans (mergeLoop_ext hrec ks A1 A' e)

theorem merge_ext : ∀ (f : ℕ) (A : Auto) (s1 s2 : ℕ) (A' : Auto), (A.node s1).obs = (A.node s2).obs → merge f A s1 s2 = some A' → Ext A A'
  | 0, _, _, _, _, _, e => by cases e
  | f + 1, A, s1, s2, A', h, e => by
    rw [merge] at e
    exact ((changes_ext (A.findPredec s2) A h).trans (addCounter_ext _ s1 s2)).trans (mergeLoop_ext (merge_ext f) _ _ A' e)

/-- A transition keeps its count. -/
theorem Ext.arc {A A' : Auto} (h : Ext A A') {x c y : ℕ} {a o : String} (e : Arc A x a o c y) : ∃ y', Arc A' x a o c y' := by
  obtain ⟨h1, h2, h3⟩ := e
  have hm : (c, o) ∈ IOAlergia.row A x a := List.mem_map.2 ⟨(c, y), h2, by rw [← h3]⟩
  obtain ⟨⟨c', y'⟩, hq, e⟩ := List.mem_map.1 ((h.row h1).subset hm)
  cases e
  exact ⟨y', h.acts h1, hq, rfl⟩

/-! ### The configurations of the loop -/

section
variable {bound : ℕ → ℕ → ℕ → ℕ → Py Bool} (hbd : ∀ a b c d, ∃ v, bound a b c d = .ok v) {A0 : Auto} {D0 : Set ℕ}
include hbd

/-- What is known of a configuration. -/
structure Known (A0 A : Auto) (red blue : List ℕ) : Prop where
  inv : ∃ D, Inv A red blue D
  same : Same A0 A
  ext : Ext A0 A
  zero : [0] <+: red
  reads : ∀ x ∈ Roots A0 [0], ∀ w z, run A0.look x w = some z → ∃ z', run A.look x w = some z'

theorem compat_loop : ∀ A red blue D, Inv A red blue D → ∀ r ∈ red, ∀ b ∈ blue, ∃ v, compatTest bound A r b = .ok v ∧
    (v = true → (A.node r).obs = (A.node b).obs) := by
  intro A red blue D I r _ b hb
  obtain ⟨v, hv, hs⟩ := I.compatTest hbd hb r
  exact ⟨v, hv, fun h => (hs.1 h [] r b rfl rfl).1⟩

theorem firstCompatible_mem {A : Auto} {red blue : List ℕ} {b : ℕ} {D : Set ℕ} (I : Inv A red (b :: blue) D) {o : Option ℕ}
    (e : firstCompatible (compatTest bound) A b red = .ok o) : ∀ r, o = some r → r ∈ red ∧ AlikeFutures bound A r b := by
  obtain ⟨o', h1, h2⟩ := firstCompatible_spec (compat := compatTest bound) (A := A) (b := b) red
    (fun r hr => by obtain ⟨v, hv, _⟩ := compat_loop hbd A red _ D I r hr b List.mem_cons_self; exact ⟨v, hv⟩)
  rw [e] at h1
  cases h1
  intro r hr
  obtain ⟨h3, h4⟩ := h2 r hr
  obtain ⟨v, hv, hs⟩ := I.compatTest hbd (b := b) List.mem_cons_self r
  rw [h4] at hv
  cases hv
  exact ⟨h3, hs.1 rfl⟩

theorem visited_known (h0 : Inv A0 [0] (A0.initial.flatMap (fun i => (A0.node i).successors)) D0) {A : Auto} {red blue : List ℕ}
    (h : Visited bound A0 A red blue) : Known A0 A red blue := by
  induction h with
  | start => exact ⟨⟨D0, h0⟩, Same.refl _, Ext.refl _, List.prefix_rfl, fun _ _ _ z h => ⟨z, h⟩⟩
  | @merge A red b blue r A' _ hf hm ih =>
    obtain ⟨D, I⟩ := ih.inv
    obtain ⟨hr, ha⟩ := firstCompatible_mem hbd I hf r rfl
    have hobs := (ha [] r b rfl rfl).1
    obtain ⟨hbR, hbs, _⟩ := I.blueIn b List.mem_cons_self
    obtain ⟨A2, D2, hm2, M⟩ := merge_top (f := A.size + 1) I.wf I.forest (Or.inl hr) hbR (I.blue_live List.mem_cons_self)
      (I.blue_preds List.mem_cons_self) hobs (I.redLt r hr) hbs (Nat.lt_succ_self _)
    rw [hm] at hm2
    cases hm2
    refine ⟨⟨D2, I.merged hr M⟩, ih.same.trans M.same, ih.ext.trans (merge_ext _ _ _ _ _ hobs hm), ih.zero, ?_⟩
    intro x hx w z e
    obtain ⟨z', e'⟩ := ih.reads x hx w z e
    refine M.run x ?_ w z' e'
    rcases hx with hx | hx
    · exact Or.inl (ih.zero.subset hx)
    · exact Or.inr (ih.same.initial ▸ hx)
  | @promote A red b blue _ _ ih =>
    obtain ⟨D, I⟩ := ih.inv
    exact ⟨⟨D, I.promote⟩, ih.same, ih.ext, ih.zero.trans (List.prefix_append _ _), ih.reads⟩

/-- The result of the loop is a configuration of the loop. -/
theorem loop_visited {d : ℕ} : ∀ (f : ℕ) (A : Auto) (red blue : List ℕ) (A' : Auto) (red' : List ℕ), A.size + 1 = d → Visited bound A0 A red blue →
    (∀ A red blue, Visited bound A0 A red blue → Known A0 A red blue) →
    loop (compatTest bound) d f A red blue = .ok (some (A', red')) → Visited bound A0 A' red' []
  | 0, _, _, _, _, _, _, _, _, e => by cases e
  | f + 1, A, red, [], A', red', _, h, _, e => by
    cases e; exact h
  | f + 1, A, red, b :: blue, A', red', hd, h, hk, e => by
    rw [loop] at e
    obtain ⟨o, ho, e⟩ := (Except.bind_eq_ok _ _ _).1 e
    cases o with
    | none => exact loop_visited f A _ _ A' red' hd (h.promote ho) hk e
    | some r =>
      dsimp only at e
      rcases hm : A.merge d r b with _ | A1
      · rw [hm] at e; cases e
      · rw [hm] at e
        have h1 : Visited bound A0 A1 red (nextBlue A1 red (b :: blue) b) := h.merge ho (by rw [hd]; exact hm)
        refine loop_visited f A1 _ _ A' red' ?_ h1 hk e
        rw [← hd, (hk _ _ _ h1).same.size, (hk _ _ _ h).same.size]

end

end Jajapy.IOAlergia
