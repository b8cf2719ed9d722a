import Verif.Lemmas.PFinish
import Verif.Props.Compose

/-!
C48 and C71: the synchronous composition of parametric CTMCs.
-/

set_option linter.unusedSectionVars false

namespace Jajapy.PCompose

open PCTMC Spec
open Compose (pair_lt pair_inj)

variable {K : Type} [Field K] [LinearOrder K]

/-! ### The specification on pairs -/

/-- The component of `Compose.Part` that a model is, when the parameters have the values `ρ`. -/
def partOf (M : PCTMC K) (S : List (Sync K)) (ρ : String → K) : Compose.Part K where
  rate := fun i j => (M.rateExpr i j).den ρ
  labelling := M.labelling
  sync := S.map (fun t => (t.1, t.2.1, t.2.2.1, t.2.2.2.den ρ))

/-- The product of two systems, read on pairs of states, is the composition that is specified for CTMCs (`Compose.rate`):
`i * n + j` is the pair `(i, j)`. -/
theorem prod_total (m1 m2 : PCTMC K) (l1 l2 : List String) (s1 s2 : List (Sync K)) (ρ : String → K)
    (hs : ∀ u ∈ s2, u.1 < l2.length ∧ u.2.2.1 < l2.length)
    (i j i' j' : ℕ) (hj : j < l2.length) (hj' : j' < l2.length) :
    ((sysOf m1 l1 s1 ρ).prod (sysOf m2 l2 s2 ρ)).total (some (i * l2.length + j)) (some (i' * l2.length + j')) =
      Compose.rate (partOf m1 s1 ρ) (partOf m2 s2 ρ) l1.length l2.length (some (i, j)) (some (i', j')) ∧
    ((sysOf m1 l1 s1 ρ).prod (sysOf m2 l2 s2 ρ)).total none (some (i' * l2.length + j')) =
      Compose.rate (partOf m1 s1 ρ) (partOf m2 s2 ρ) l1.length l2.length none (some (i', j')) := by
  have hp : 0 < l2.length := by omega
  have e1 : ∀ i j, j < l2.length → (i * l2.length + j) / l2.length = i := by
    intro i j hj
    rw [Nat.mul_comm, Nat.mul_add_div hp, Nat.div_eq_of_lt hj, Nat.add_zero]
  have e2 : ∀ i j, j < l2.length → (i * l2.length + j) % l2.length = j := by
    intro i j hj
    rw [Nat.mul_comm, Nat.mul_add_mod, Nat.mod_eq_of_lt hj]
  constructor
  · have hsync : ((((sysOf m1 l1 s1 ρ).prod (sysOf m2 l2 s2 ρ)).sync).map
        (fun t => if t.1 = i * l2.length + j ∧ t.2.2.1 = i' * l2.length + j' then t.2.2.2 else 0)).sum =
        Compose.syncRate (partOf m1 s1 ρ) (partOf m2 s2 ρ) i j i' j' := by
      unfold Compose.syncRate Sys.prod partOf sysOf
      simp only
      induction s1 with
      | nil => rfl
      | cons t s1 ih =>
        rw [List.map_cons, List.flatMap_cons, List.map_append, List.sum_append, ih, List.map_cons, List.sum_cons]
        congr 1
        clear ih
        induction s2 with
        | nil => rfl
        | cons u s2 ih =>
          have hu := hs u (by simp)
          rw [List.map_cons, List.filterMap_cons, List.map_cons, List.sum_cons, ← ih (fun v hv => hs v (by simp [hv]))]
          by_cases ha : t.2.1 = u.2.1
          · simp only [if_pos ha, List.map_cons, List.sum_cons]
            congr 1
            by_cases hc : t.1 * l2.length + u.1 = i * l2.length + j ∧ t.2.2.1 * l2.length + u.2.2.1 = i' * l2.length + j'
            · obtain ⟨a1, a2⟩ := pair_inj hu.1 hj hc.1
              obtain ⟨a3, a4⟩ := pair_inj hu.2 hj' hc.2
              rw [if_pos hc, if_pos ⟨ha, a1, a3, a2, a4⟩]
            · rw [if_neg hc, if_neg]
              rintro ⟨_, a1, a3, a2, a4⟩
              exact hc ⟨by rw [a1, a2], by rw [a3, a4]⟩
          · simp only [if_neg ha]
            rw [if_neg (fun h => ha h.1), zero_add]
    show _ + _ = _
    rw [hsync]
    simp only [Sys.prod, Compose.rate, sysOf, partOf, e1 i j hj, e2 i j hj, e1 i' j' hj', e2 i' j' hj']
  · simp only [Sys.prod, Sys.total, Compose.rate, sysOf, partOf, e1 i' j' hj', e2 i' j' hj']

variable [IsStrictOrderedRing K] [FloorRing K]

/-! ### Two components -/

/-- C48, for two parametric CTMCs whose only initial state is the last one, when the second one has at most one state more than
the first one, a self-loop of the first one occurs only if every state of the second one has a self-loop, and there are less than
65536 expressions: if every parameter of a local rate that is added to a synchronised rate occurs in some synchronised rate then
the call succeeds, and for all values of the parameters (those of the instantiated ones being given) the result is the
composition — interleaving, products of the rates for the common actions, products of the initial rates, labels joined by a comma —
without the states that cannot be reached; whether there is such a condition or not, a call that succeeds returns the
composition. Missing: the other pairs of components, on which the code is wrong, and the values of the parameters of the second
component, which are lost (see the counterexamples below). -/
theorem compose_two_partial (perm : List ℕ → List ℕ) (hperm : ∀ k, (perm k).Perm k) (dflt : List (Sync K)) (m1 m2 : Comp K)
    (o order : List String) (l1 l2 : List String) (h1 : Ok m1.model l1 (m1.syncs dflt)) (h2 : Ok m2.model l2 (m2.syncs dflt))
    (hsize : l2.length ≤ l1.length + 1) (ho : IsOrder m1.model m2.model order)
    (hsmall : (l1.length + l2.length) ^ 2 + (m1.syncs dflt).length * (m2.syncs dflt).length < 65536)
    (hloop : ∀ i < l1.length, entry m1.model i i ≠ 0 → ∀ j < l2.length, entry m2.model j j ≠ 0) :
    (composeAll perm dflt [(m1, o), (m2, order)]).1 = dflt ∧
    (∀ M, (composeAll perm dflt [(m1, o), (m2, order)]).2 = .ok M → M.WF ∧ M.values = m1.model.values ∧
      ∃ st, ∀ ρ, Extends ρ m1.model.values → Extends ρ m2.model.values →
        Realises M ((sysOf m1.model l1 (m1.syncs dflt) ρ).prod (sysOf m2.model l2 (m2.syncs dflt) ρ)) ρ st) ∧
    ((∀ t ∈ m1.syncs dflt, ∀ u ∈ m2.syncs dflt, t.2.1 = u.2.1 → ∀ p,
        (u.1 = u.2.2.1 ∧ (m1.model.rateExpr t.1 t.2.2.1).Occurs p ∨ t.1 = t.2.2.1 ∧ (m2.model.rateExpr u.1 u.2.2.1).Occurs p) →
        ∃ t' ∈ m1.syncs dflt, ∃ u' ∈ m2.syncs dflt, t'.2.1 = u'.2.1 ∧ (t'.2.2.2.Occurs p ∨ u'.2.2.2.Occurs p)) →
      ∃ M, (composeAll perm dflt [(m1, o), (m2, order)]).2 = .ok M) := by
  have hsq : (l1.length + l2.length) ^ 2 = l1.length * l1.length + l2.length * l2.length + l1.length * l2.length + l1.length * l2.length := by ring
  obtain ⟨R, ts, e, c⟩ := compose2_spec h1 h2 hsize ho (by omega) hloop dflt
  have hlen : ts.length ≤ (m1.syncs dflt).length * (m2.syncs dflt).length := by
    rw [c.isTs, List.length_map, syncPairs]
    refine (List.length_filter_le _ _).trans ?_
    simp [List.length_flatMap, List.map_const']
  have hto : ∀ x, entry R x (labs l1 l2).length = 0 := by rw [labs_length]; exact c.toInit
  have hsm := c.small
  obtain ⟨f1, f2⟩ := finish_spec c.ok c.inR hto c.start (by omega) perm hperm
  have hs1 : (if m1.shared = true then dflt ++ [] else dflt) = dflt := by split <;> simp
  have hs2 : (if m1.shared = true then dflt else m1.model.sync ++ []) = m1.syncs dflt := by
    unfold Comp.syncs
    split <;> simp
  have hcall : composeAll perm dflt [(m1, o), (m2, order)] = (dflt, finish perm R ts) := by
    unfold composeAll
    simp only [loop, hs1, hs2, e]
    rfl
  rw [hcall]
  refine ⟨rfl, ?_, ?_⟩
  · intro M hM
    obtain ⟨g1, g2, _, st, g3⟩ := f1 M hM
    exact ⟨g1, by rw [g2, c.values], st, fun ρ hρ1 hρ2 => (g3 ρ).congr (c.same ρ hρ1 hρ2)⟩
  · intro hk
    refine f2 ?_ c.keys
    intro t ht p hp
    rw [c.isTs] at ht
    obtain ⟨q, hq, rfl⟩ := List.mem_map.1 ht
    obtain ⟨q1, q2, q3⟩ := syncPairs_mem.1 hq
    have hq1 := h1.sync _ q1
    have hq2 := h2.sync _ q2
    obtain ⟨t', ht', u', hu', ha, hocc⟩ := hk q.1 q1 q.2 q2 q3 p (c.cell _ _ _ _ hq1.1 hq2.1 hq1.2 hq2.2 p hp)
    refine c.keys (joined l2.length (t', u')) ?_ p ?_
    · rw [c.isTs]
      exact List.mem_map.2 ⟨(t', u'), syncPairs_mem.2 ⟨ht', hu', ha⟩, rfl⟩
    · rcases hocc with h | h
      · exact .mulL _ _ h
      · exact .mulR _ _ h

/-! ### Three components -/

/-- C48 for three components, when the default argument of the constructor is still the empty list and the third component has
its own list of synchronous transitions: a call that succeeds returns the composition. Missing: the sizes and self-loops as for
two components. -/
theorem compose_three_partial (perm : List ℕ → List ℕ) (hperm : ∀ k, (perm k).Perm k) (m1 m2 m3 : Comp K)
    (o o2 o3 : List String) (l1 l2 l3 : List String) (h1 : Ok m1.model l1 (m1.syncs [])) (h2 : Ok m2.model l2 (m2.syncs []))
    (h3 : Ok m3.model l3 m3.model.sync) (hown : m3.shared = false)
    (hsize : l2.length ≤ l1.length + 1) (hsize3 : l3.length ≤ l1.length * l2.length + 1) (ho : IsOrder m1.model m2.model o2)
    (ho3 : ∀ R ts, compose2 o2 m1.model m2.model (m1.syncs []) (m2.syncs []) [] = .ok (R, ts) → IsOrder R m3.model o3)
    (hsmall : (l1.length + l2.length) ^ 2 < 65536)
    (hsmall3 : (l1.length * l2.length + l3.length) ^ 2 + (m1.syncs []).length * (m2.syncs []).length * m3.model.sync.length < 65536)
    (hloop1 : ∀ i < l1.length, entry m1.model i i = 0) (hloop2 : ∀ i < l2.length, entry m2.model i i = 0)
    (M : PCTMC K) (hM : (composeAll perm [] [(m1, o), (m2, o2), (m3, o3)]).2 = .ok M) :
    M.WF ∧ M.values = m1.model.values ∧
    ∃ st, ∀ ρ, Extends ρ m1.model.values → Extends ρ m2.model.values → Extends ρ m3.model.values →
      Realises M (((sysOf m1.model l1 (m1.syncs []) ρ).prod (sysOf m2.model l2 (m2.syncs []) ρ)).prod (sysOf m3.model l3 m3.model.sync ρ)) ρ st := by
  have hsq : (l1.length + l2.length) ^ 2 = l1.length * l1.length + l2.length * l2.length + l1.length * l2.length + l1.length * l2.length := by ring
  obtain ⟨R, ts, e, c⟩ := compose2_spec h1 h2 hsize ho (by omega) (fun i hi h0 => absurd (hloop1 i hi) h0) []
  have hlen : ts.length ≤ (m1.syncs []).length * (m2.syncs []).length := by
    rw [c.isTs, List.length_map, syncPairs]
    refine (List.length_filter_le _ _).trans ?_
    simp [List.length_flatMap, List.map_const']
  have hn := labs_length l1 l2
  have hsq3 : (l1.length * l2.length + l3.length) ^ 2 = (labs l1 l2).length * (labs l1 l2).length + l3.length * l3.length +
      (labs l1 l2).length * l3.length + (labs l1 l2).length * l3.length := by rw [hn]; ring
  obtain ⟨R', ts', e', c'⟩ := compose2_spec c.ok h3 (by rw [hn]; exact hsize3) (ho3 R ts e) (by omega)
    (fun i hi h0 => absurd (c.noLoop hloop2 i (by rw [← hn]; exact hi)) h0) ts
  have hlen' : ts'.length ≤ (m1.syncs []).length * (m2.syncs []).length * m3.model.sync.length := by
    rw [c'.isTs, List.length_map, syncPairs]
    refine (List.length_filter_le _ _).trans ?_
    simp only [List.length_flatMap, List.length_map, List.map_const', List.sum_replicate, smul_eq_mul]
    exact Nat.mul_le_mul_right _ hlen
  have hto : ∀ x, entry R' x (labs (labs l1 l2) l3).length = 0 := by rw [labs_length]; exact c'.toInit
  have hsm := c'.small
  obtain ⟨f1, f2⟩ := finish_spec c'.ok c'.inR hto c'.start (by omega) perm hperm
  have hs1 : (if m1.shared = true then ([] : List (Sync K)) ++ [] else []) = [] := by split <;> simp
  have hs2 : (if m1.shared = true then [] else m1.model.sync ++ []) = m1.syncs [] := by
    unfold Comp.syncs
    split <;> simp
  have hs3 : m3.syncs ts = m3.model.sync := by
    unfold Comp.syncs
    rw [hown]
    rfl
  have hcall : composeAll perm [] [(m1, o), (m2, o2), (m3, o3)] = (ts, finish perm R' ts') := by
    unfold composeAll
    simp only [loop, hs1, hs2, e]
    simp only [if_true, List.nil_append, hs3, e']
    rfl
  rw [hcall] at hM
  obtain ⟨g1, g2, _, st, g3⟩ := f1 M hM
  refine ⟨g1, by rw [g2, c'.values, c.values], st, fun ρ hρ1 hρ2 hρ3 => (g3 ρ).congr ?_⟩
  exact (c'.same ρ (by rw [c.values]; exact hρ1) hρ3).trans ((c.same ρ hρ1 hρ2).prod (Same.refl _))

/-- C71 is violated for every such call: after it, the default argument of the constructor contains the synchronised
transitions of the first two components. -/
theorem compose_three_default (perm : List ℕ → List ℕ) (m1 m2 m3 : Comp K)
    (o o2 o3 : List String) (l1 l2 : List String) (h1 : Ok m1.model l1 (m1.syncs [])) (h2 : Ok m2.model l2 (m2.syncs []))
    (hsize : l2.length ≤ l1.length + 1) (ho : IsOrder m1.model m2.model o2)
    (hsmall : (l1.length + l2.length) ^ 2 < 65536)
    (hloop : ∀ i < l1.length, entry m1.model i i ≠ 0 → ∀ j < l2.length, entry m2.model j j ≠ 0) :
    (composeAll perm [] [(m1, o), (m2, o2), (m3, o3)]).1 = (syncPairs (m1.syncs []) (m2.syncs [])).map (fun q =>
      (q.1.1 * l2.length + q.2.1, q.1.2.1, q.1.2.2.1 * l2.length + q.2.2.2.1, .mul q.1.2.2.2 q.2.2.2.2)) := by
  have hsq : (l1.length + l2.length) ^ 2 = l1.length * l1.length + l2.length * l2.length + l1.length * l2.length + l1.length * l2.length := by ring
  obtain ⟨R, ts, e, c⟩ := compose2_spec h1 h2 hsize ho (by omega) hloop []
  have hs1 : (if m1.shared = true then ([] : List (Sync K)) ++ [] else []) = [] := by split <;> simp
  have hs2 : (if m1.shared = true then [] else m1.model.sync ++ []) = m1.syncs [] := by
    unfold Comp.syncs
    split <;> simp
  unfold composeAll
  simp only [loop, hs1, hs2, e]
  simp only [if_true, List.nil_append]
  have : (syncPairs (m1.syncs []) (m2.syncs [])).map (fun q =>
      (q.1.1 * l2.length + q.2.1, q.1.2.1, q.1.2.2.1 * l2.length + q.2.2.2.1, Expr.mul q.1.2.2.2 q.2.2.2.2)) = ts := c.isTs.symm
  rw [this]
  split <;> rfl

/-! ### Any number of components, without synchronous transitions -/

/-- The states of a model without its last one. -/
abbrev own (M : PCTMC K) : List String := M.labelling.dropLast

/-- Each list is an iteration order of the names met so far. -/
def Orders (names : List String) : List (Comp K × List String) → Prop
  | [] => True
  | m :: rest => (m.2.Nodup ∧ ∀ p, p ∈ m.2 ↔ p ∈ names ∨ p ∈ m.1.model.names) ∧ Orders m.2 rest

/-- The sizes that the code can handle: a component has at most one state more than the composition of the previous ones, and there are
not too many expressions. -/
def Sizes (n : ℕ) : List (Comp K × List String) → Prop
  | [] => True
  | m :: rest => ((own m.1.model).length ≤ n + 1 ∧ (n + (own m.1.model).length) ^ 2 < 65536) ∧ Sizes (n * (own m.1.model).length) rest

/-- The composition of a list of components. -/
def prodAll (A : Sys K) (ms : List (Comp K × List String)) (ρ : String → K) : Sys K :=
  ms.foldl (fun A m => A.prod (sysOf m.1.model (own m.1.model) [] ρ)) A

theorem prodAll_same {A B : Sys K} (h : Same A B) (ms : List (Comp K × List String)) (ρ : String → K) :
    Same (prodAll A ms ρ) (prodAll B ms ρ) := by
  induction ms generalizing A B with
  | nil => exact h
  | cons m ms ih => exact ih (h.prod (Same.refl _))

theorem loop_spec (ms : List (Comp K × List String)) (R : PCTMC K) (sh : Bool) (l : List String) (names : List String)
    (hR : Ok R l []) (hinR : R.IndexesInRange) (hto : ∀ x, entry R x l.length = 0)
    (hstart : R.initialState = R.labelling.map (fun i => if i = "init" then 1 else 0)) (hsm : R.exprs.length ≤ 65536)
    (hsync : sh = false → R.sync = [])
    (hms : ∀ m ∈ ms, Ok m.1.model (own m.1.model) [] ∧ m.1.syncs [] = [])
    (hn : ∀ p, p ∈ R.names ↔ p ∈ names) (ho : Orders names ms) (hs : Sizes l.length ms)
    (hl : ms ≠ [] → ∀ i < l.length, entry R i i = 0)
    (hl' : ∀ m ∈ ms.dropLast, ∀ i < (own m.1.model).length, entry m.1.model i i = 0) :
    ∃ R' l', loop ms [] ⟨R, sh⟩ [] = ([], .ok (R', [])) ∧ Ok R' l' [] ∧ R'.IndexesInRange ∧ (∀ x, entry R' x l'.length = 0) ∧
      R'.initialState = R'.labelling.map (fun i => if i = "init" then 1 else 0) ∧ R'.exprs.length ≤ 65536 ∧ R'.values = R.values ∧
      ∀ ρ, Extends ρ R.values → (∀ m ∈ ms, Extends ρ m.1.model.values) →
        Same (sysOf R' l' [] ρ) (prodAll (sysOf R l [] ρ) ms ρ) := by
  induction ms generalizing R sh l names with
  | nil => exact ⟨R, l, rfl, hR, hinR, hto, hstart, hsm, rfl, fun ρ _ _ => Same.refl _⟩
  | cons m ms ih =>
    obtain ⟨m2, order⟩ := m
    obtain ⟨ho1, ho2⟩ := ho
    obtain ⟨hs1, hs2⟩ := hs
    obtain ⟨hok, hsy⟩ := hms _ (List.mem_cons_self ..)
    dsimp only at *
    have hsq : (l.length + (own m2.model).length) ^ 2 = l.length * l.length + (own m2.model).length * (own m2.model).length +
      l.length * (own m2.model).length + l.length * (own m2.model).length := by ring
    have hord : IsOrder R m2.model order := ⟨ho1.1, fun p => by rw [ho1.2, hn]⟩
    obtain ⟨R1, ts, e, c⟩ := compose2_spec hR hok hs1.1 hord (by omega)
      (fun i hi h0 => absurd (hl (by simp) i hi) h0) []
    have hts : ts = [] := by rw [c.isTs]; rfl
    subst hts
    have hlen := labs_length l (own m2.model)
    have hsmall := c.small
    obtain ⟨R', l', i1, i2, i3, i4, i5, i6, i7, i8⟩ := ih R1 true (labs l (own m2.model)) order c.ok c.inR
      (by rw [hlen]; exact c.toInit) c.start (by omega) (by simp) (fun m hm => hms m (by simp [hm]))
      (fun p => by rw [c.namesEq]; rfl) ho2 (by rw [hlen]; exact hs2)
      (by
        intro hne i hi
        refine c.noLoop ?_ i (by rw [← hlen]; exact hi)
        refine hl' (m2, order) ?_
        rw [List.dropLast_cons_of_ne_nil hne]
        exact List.mem_cons_self ..)
      (by
        intro m hm
        refine hl' m ?_
        have hne : ms ≠ [] := by
          rintro rfl
          simp at hm
        rw [List.dropLast_cons_of_ne_nil hne]
        exact List.mem_cons_of_mem _ hm)
    refine ⟨R', l', ?_, i2, i3, i4, i5, i6, i7.trans c.values, ?_⟩
    · have h1 : (if sh = true then ([] : List (Sync K)) ++ [] else []) = [] := by split <;> simp
      have h2 : (if sh = true then [] else R.sync ++ []) = [] := by
        split
        · rfl
        · rw [hsync (by simpa using ‹¬ sh = true›)]
          rfl
      unfold loop
      simp only [h1, h2, hsy, e]
      exact i1
    · intro ρ hρ hρs
      have hs := c.same ρ hρ (hρs _ (List.mem_cons_self ..))
      exact (i8 ρ (by rw [c.values]; exact hρ) (fun m hm => hρs m (by simp [hm]))).trans (prodAll_same hs ms ρ)

/-- C48 for any number of components without synchronous transitions, when only the last one may have self-loops: the call
succeeds, leaves the default argument of the constructor empty and returns the composition. Missing: the sizes as for two
components. -/
theorem compose_all_partial (perm : List ℕ → List ℕ) (hperm : ∀ k, (perm k).Perm k) (m : Comp K × List String) (m2 : Comp K × List String)
    (ms : List (Comp K × List String))
    (hms : ∀ m' ∈ m :: m2 :: ms, Ok m'.1.model (own m'.1.model) [] ∧ m'.1.syncs [] = [])
    (ho : Orders m.1.model.names (m2 :: ms)) (hs : Sizes (own m.1.model).length (m2 :: ms))
    (hl : ∀ m' ∈ (m :: m2 :: ms).dropLast, ∀ i < (own m'.1.model).length, entry m'.1.model i i = 0) :
    ∃ M, composeAll perm [] (m :: m2 :: ms) = ([], .ok M) ∧ M.WF ∧ M.values = m.1.model.values ∧
      ∃ st, ∀ ρ, (∀ m' ∈ m :: m2 :: ms, Extends ρ m'.1.model.values) →
        Realises M (prodAll (sysOf m.1.model (own m.1.model) [] ρ) (m2 :: ms) ρ) ρ st := by
  obtain ⟨hok, hsy⟩ := hms m (List.mem_cons_self ..)
  obtain ⟨hok2, hsy2⟩ := hms m2 (by simp)
  obtain ⟨ho1, ho2⟩ := ho
  obtain ⟨hs1, hs2⟩ := hs
  have hsq : ((own m.1.model).length + (own m2.1.model).length) ^ 2 = (own m.1.model).length * (own m.1.model).length +
      (own m2.1.model).length * (own m2.1.model).length +
      (own m.1.model).length * (own m2.1.model).length + (own m.1.model).length * (own m2.1.model).length := by ring
  have hfirst : ∀ i < (own m.1.model).length, entry m.1.model i i = 0 := by
    refine hl m ?_
    rw [List.dropLast_cons_of_ne_nil (by simp)]
    exact List.mem_cons_self ..
  obtain ⟨R1, ts, e, c⟩ := compose2_spec hok hok2 hs1.1 ⟨ho1.1, ho1.2⟩ (by omega)
    (fun i hi h0 => absurd (hfirst i hi) h0) []
  have hts : ts = [] := by rw [c.isTs]; rfl
  subst hts
  have hlen := labs_length (own m.1.model) (own m2.1.model)
  have hsmall := c.small
  obtain ⟨R', l', i1, i2, i3, i4, i5, i6, i7, i8⟩ := loop_spec ms R1 true _ m2.2 c.ok c.inR (by rw [hlen]; exact c.toInit) c.start
    (by omega) (by simp) (fun m' hm => hms m' (by simp [hm])) (fun p => by rw [c.namesEq]; rfl) ho2 (by rw [hlen]; exact hs2)
    (by
      intro hne i hi
      refine c.noLoop ?_ i (by rw [← hlen]; exact hi)
      refine hl m2 ?_
      rw [List.dropLast_cons_of_ne_nil (by simp), List.dropLast_cons_of_ne_nil hne]
      simp)
    (by
      intro m' hm
      refine hl m' ?_
      have hne : ms ≠ [] := by
        rintro rfl
        simp at hm
      rw [List.dropLast_cons_of_ne_nil (by simp), List.dropLast_cons_of_ne_nil hne]
      simp [hm])
  obtain ⟨f1, f2⟩ := finish_spec i2 i3 i4 i5 (by simpa using i6) perm hperm
  obtain ⟨M, hM⟩ := f2 (by simp) (by simp)
  obtain ⟨g1, g2, _, st, g3⟩ := f1 M hM
  have h1 : (if m.1.shared = true then ([] : List (Sync K)) ++ [] else []) = [] := by split <;> simp
  have h2 : (if m.1.shared = true then [] else m.1.model.sync ++ []) = [] := by
    unfold Comp.syncs at hsy
    split
    · rfl
    · rename_i h
      rw [if_neg h] at hsy
      rw [hsy]
      rfl
  refine ⟨M, ?_, g1, by rw [g2, i7, c.values], st, fun ρ hρ => (g3 ρ).congr ?_⟩
  · unfold composeAll
    simp only [loop, h1, h2, hsy2, e, i1]
    rw [← hM]
    rfl
  · exact (i8 ρ (by rw [c.values]; exact hρ m (by simp)) (fun m' hm => hρ m' (by simp [hm]))).trans
      (prodAll_same (c.same ρ (hρ m (by simp)) (hρ m2 (by simp))) ms ρ)

/-! ### Examples -/

/-- A test for the conditions on a component. -/
def okB (M : PCTMC ℚ) (l : List String) (S : List (Sync ℚ)) : Bool :=
  M.matrix.all (fun r => r.length == M.matrix.length && r.all (fun t => decide (t < M.exprs.length))) &&
  decide (M.labelling.length = M.matrix.length) && decide (M.initialState.length = M.matrix.length) &&
  M.exprs.all (fun x => x.free.all (fun p => decide (p ∈ M.names))) &&
  decide (M.labelling = l ++ ["init"]) && decide ("init" ∉ l) && decide (M.exprs[0]? = some (.num 0)) &&
  (List.range l.length).all (fun j => (M.rateExpr l.length j).free.all (fun p => (M.values.lookup p).isSome)) &&
  S.all (fun t => decide (t.1 < l.length) && decide (t.2.2.1 < l.length) && t.2.2.2.free.all (fun p => decide (p ∈ M.names)))

theorem okB_ok {M : PCTMC ℚ} {l : List String} {S : List (Sync ℚ)} (h : okB M l S = true) : Ok M l S := by
  unfold okB at h
  simp only [Bool.and_eq_true, List.all_eq_true, decide_eq_true_eq, beq_iff_eq, List.mem_range] at h
  obtain ⟨⟨⟨⟨⟨⟨⟨⟨h1, h2⟩, h3⟩, h4⟩, h5⟩, h6⟩, h7⟩, h8⟩, h9⟩ := h
  exact {
    wf := {
      square := fun r hr => (h1 r hr).1
      labels := h2
      init := h3
      bound := fun r hr => (h1 r hr).2
      declared := fun x hx p hp => h4 x hx p ((Expr.mem_free _ _).2 hp) }
    lab := h5
    noinit := h6
    zero := h7
    initKnown := fun j hj p hp => (isSome_known _ _).1 (h8 j hj p ((Expr.mem_free _ _).2 hp))
    sync := fun t ht => (h9 t ht).1
    syncDecl := fun t ht p hp => (h9 t ht).2 p ((Expr.mem_free _ _).2 hp) }

/-- The removal of the expressions with a bound on the number of steps. -/
def dropFuel : ℕ → List ℕ → PCTMC ℚ → PCTMC ℚ
  | 0, _, M => M
  | _ + 1, [], M => M
  | n + 1, i :: l, M => dropFuel n (l.map (fun x => if x > i then x - 1 else x)) (M.dropExpr i)

theorem dropFuel_eq (n : ℕ) (l : List ℕ) (M : PCTMC ℚ) (h : l.length ≤ n) : dropFuel n l M = dropAll l M := by
  induction n generalizing l M with
  | zero =>
    rw [List.length_eq_zero_iff.1 (by omega : l.length = 0), dropAll]
    rfl
  | succ n ih =>
    cases l with
    | nil => rw [dropAll]; rfl
    | cons i l =>
      rw [dropAll, dropFuel]
      exact ih _ _ (by simpa using h)

/-- The last part of the composition with a bound on the number of steps; the set is iterated in increasing order. -/
def finishFuel (fuel : ℕ) (M : PCTMC ℚ) (ts : List (Sync ℚ)) : Option (Py (PCTMC ℚ)) :=
  match ts.foldlM addSync M with
  | .error e => some (.error e)
  | .ok M =>
    match Compose.removeFuel (fun M i => M.matrix.all (fun row => row.getD i 0 == 0) && decide (M.labelling.getD i "" ≠ "init")) fuel M 0 with
    | none => none
    | some M => some (.ok (dropFuel (unused M).length (unused M) M))

theorem finishFuel_eq (fuel : ℕ) (M : PCTMC ℚ) (ts : List (Sync ℚ)) (r : Py (PCTMC ℚ)) (h : finishFuel fuel M ts = some r) :
    finish id M ts = r := by
  unfold finishFuel at h
  unfold finish
  cases hM : ts.foldlM addSync M with
  | error e => rw [hM] at h; injection h with h
  | ok M1 =>
    rw [hM] at h
    dsimp only at h
    split at h
    · cases h
    · rename_i M2 hM2
      have : M1.removeUnreachable = M2 := Compose.removeFuel_eq _ fuel M1 0 M2 hM2
      simp only [bind, Except.bind, this, id]
      rw [dropFuel_eq _ _ _ le_rfl] at h
      injection h

/-- The composition with a bound on the number of steps of the removal. -/
def composeFuel (fuel : ℕ) (dflt : List (Sync ℚ)) (m : Comp ℚ) (rest : List (Comp ℚ × List String)) : Option (List (Sync ℚ) × Py (PCTMC ℚ)) :=
  match loop rest dflt m [] with
  | (d, .error e) => some (d, .error e)
  | (d, .ok q) =>
    match finishFuel fuel q.1 q.2 with
    | none => none
    | some r => some (d, r)

theorem composeFuel_eq (fuel : ℕ) (dflt : List (Sync ℚ)) (m : Comp ℚ) (o : List String) (m2 : Comp ℚ × List String)
    (rest : List (Comp ℚ × List String)) (r : List (Sync ℚ) × Py (PCTMC ℚ)) (h : composeFuel fuel dflt m (m2 :: rest) = some r) :
    composeAll id dflt ((m, o) :: m2 :: rest) = r := by
  unfold composeFuel at h
  show (match loop (m2 :: rest) dflt m [] with | (dflt', r) => (dflt', r.bind (fun q => finish id q.1 q.2))) = r
  split at h
  · rename_i d e hl
    rw [hl]
    injection h
  · rename_i d q hl
    rw [hl]
    dsimp only at h ⊢
    split at h
    · cases h
    · rename_i r' hr
      injection h with h
      rw [← h, ← finishFuel_eq _ _ _ _ hr]
      rfl

/-- The values of the parameters. -/
def val (v : List (String × ℚ)) : String → ℚ := fun p => (v.lookup p).getD 0

/-- What a call returns: the labels, the rates when the parameters have the values `v`; or the exception. -/
def show_ (v : List (String × ℚ)) : Py (PCTMC ℚ) → Except Err (List String × List (List ℚ))
  | .ok M => .ok (M.labelling, (List.range M.nb).map (fun i => (List.range M.nb).map (fun j => (M.rateExpr i j).den (val v))))
  | .error e => .error e

/-- The same as a pair that can be compared. -/
def shown (v : List (String × ℚ)) (r : Py (PCTMC ℚ)) : Option Err × Option (List String × List (List ℚ)) :=
  match show_ v r with
  | .ok x => (none, some x)
  | .error e => (some e, none)

theorem shown_fuel (fuel : ℕ) (v : List (String × ℚ)) (dflt : List (Sync ℚ)) (m : Comp ℚ) (o : List String) (m2 : Comp ℚ × List String)
    (rest : List (Comp ℚ × List String)) (x : Option Err × Option (List String × List (List ℚ)))
    (h : (composeFuel fuel dflt m (m2 :: rest)).map (fun r => shown v r.2) = some x) :
    shown v (composeAll id dflt ((m, o) :: m2 :: rest)).2 = x := by
  rw [Option.map_eq_some_iff] at h
  obtain ⟨r, hr, rfl⟩ := h
  rw [composeFuel_eq fuel dflt m o m2 rest r hr]

/-- Two states `a`, `b` and the initial state: `a` → `b` at rate `p`, `b` → `a` at rate 3, the action `x` from `a` to `b` at
rate `q`. `p` is 2. -/
def exA : Comp ℚ where
  model := {
    matrix := [[0, 1, 0], [2, 0, 0], [3, 0, 0]]
    labelling := ["a", "b", "init"]
    exprs := [.num 0, .sym "p", .num 3, .num 1]
    values := [("p", 2)]
    indexes := [[(0, 1)], []]
    names := ["p", "q"]
    initialState := [0, 0, 1]
    sync := [(0, "x", 1, .sym "q")] }
  shared := false

/-- Two states `c`, `d` and the initial state: a self-loop on `c` at rate `r`, the action `x` from `c` to `d` at rate 7, an action
`y` from `d` to `c`. -/
def exB : Comp ℚ where
  model := {
    matrix := [[1, 0, 0], [0, 0, 0], [2, 0, 0]]
    labelling := ["c", "d", "init"]
    exprs := [.num 0, .sym "r", .num 1]
    values := []
    indexes := [[(0, 0)]]
    names := ["r"]
    initialState := [0, 0, 1]
    sync := [(0, "x", 1, .num 7), (1, "y", 0, .num 11)] }
  shared := false

/-- One state `e` with an action `x` to itself at rate 2. -/
def exC : Comp ℚ where
  model := {
    matrix := [[0, 0], [1, 0]]
    labelling := ["e", "init"]
    exprs := [.num 0, .num 1]
    values := []
    indexes := []
    names := []
    initialState := [0, 1]
    sync := [(0, "x", 0, .num 2)] }
  shared := false

/-- Two states `c`, `d`: the action `x` from `c` to `d` at rate 7, `d` → `c` at rate `r`. -/
def exD : Comp ℚ where
  model := {
    matrix := [[0, 0, 0], [1, 0, 0], [2, 0, 0]]
    labelling := ["c", "d", "init"]
    exprs := [.num 0, .sym "r", .num 1]
    values := []
    indexes := [[(1, 0)]]
    names := ["r"]
    initialState := [0, 0, 1]
    sync := [(0, "x", 1, .num 7)] }
  shared := false

theorem exAB_order : IsOrder exA.model exB.model ["r", "p", "q"] := ⟨by decide, by simp [exA, exB]; grind⟩
theorem exAD_order : IsOrder exA.model exD.model ["p", "q", "r"] := ⟨by decide, by simp [exA, exD]; grind⟩

/-- The hypotheses of `compose_two_partial` are met, also those for success. -/
example : ∃ M st, (composeAll id [] [(exA, []), (exB, ["r", "p", "q"])]).2 = .ok M ∧ ∀ ρ, ρ "p" = 2 →
    Realises M ((sysOf exA.model ["a", "b"] exA.model.sync ρ).prod (sysOf exB.model ["c", "d"] exB.model.sync ρ)) ρ st := by
  obtain ⟨_, h2, h3⟩ := compose_two_partial id (fun _ => List.Perm.refl _) [] exA exB [] ["r", "p", "q"] ["a", "b"] ["c", "d"]
    (okB_ok (by decide +kernel)) (okB_ok (by decide +kernel)) (by decide) exAB_order (by decide) (by decide)
  obtain ⟨M, hM⟩ := h3 (by
    intro t ht u hu ha p hp
    have h1 : t = (0, "x", 1, .sym "q") := by simpa [exA, Comp.syncs] using ht
    have h2 : u = (0, "x", 1, .num 7) ∨ u = (1, "y", 0, .num 11) := by simpa [exB, Comp.syncs] using hu
    subst h1
    rcases h2 with rfl | rfl <;> simp at hp)
  obtain ⟨_, _, st, h⟩ := h2 M hM
  refine ⟨M, st, hM, fun ρ hρ => h ρ ?_ ?_⟩
  · intro p x hp
    have : p = "p" ∧ x = 2 := by
      simp only [exA, List.lookup] at hp
      split at hp
      · rename_i e
        exact ⟨by simpa using e, by injection hp with hp; exact hp.symm⟩
      · cases hp
    rw [this.1, this.2, hρ]
  · intro p x hp
    cases hp

/-- The composition of the example, for p = 2, q = 5, r = 4. -/
example : shown [("p", 2), ("q", 5), ("r", 4)] (composeAll id [] [(exA, []), (exB, ["r", "p", "q"])]).2 =
    (none, some (["a,c", "a,d", "b,c", "b,d", "init"],
      [[4, 0, 2, 35, 0], [0, 0, 0, 2, 0], [3, 0, 4, 0, 0], [0, 3, 0, 0, 0], [1, 0, 0, 0, 0]])) :=
  shown_fuel 20 _ _ _ _ _ _ _ (by decide +kernel)

theorem shown_ok {v : List (String × ℚ)} {r : Py (PCTMC ℚ)} {x : List String × List (List ℚ)} (h : shown v r = (none, some x)) :
    ∃ M, r = .ok M := by
  cases r with
  | ok M => exact ⟨M, rfl⟩
  | error e => cases h

/-- The composition of three models, on the first call. -/
theorem ex_three : shown [("p", 2), ("q", 5), ("r", 4)] (composeAll id [] [(exA, []), (exD, ["p", "q", "r"]), (exC, ["p", "q", "r", symKey "q"])]).2 =
    (none, some (["a,c,e", "a,d,e", "b,c,e", "b,d,e", "init"],
      [[0, 0, 2, 70, 0], [4, 0, 0, 2, 0], [3, 0, 0, 0, 0], [0, 3, 4, 0, 0], [1, 0, 0, 0, 0]])) :=
  shown_fuel 30 _ _ _ _ _ _ _ (by decide +kernel)

/-- The hypotheses of `compose_three_partial` are met. -/
example : ∃ M st, (composeAll id [] [(exA, []), (exD, ["p", "q", "r"]), (exC, ["p", "q", "r", symKey "q"])]).2 = .ok M ∧ ∀ ρ, ρ "p" = 2 →
    Realises M (((sysOf exA.model ["a", "b"] exA.model.sync ρ).prod (sysOf exD.model ["c", "d"] exD.model.sync ρ)).prod
      (sysOf exC.model ["e"] exC.model.sync ρ)) ρ st := by
  obtain ⟨M, hM⟩ := shown_ok ex_three
  obtain ⟨_, _, st, h⟩ := compose_three_partial id (fun _ => List.Perm.refl _) exA exD exC [] ["p", "q", "r"] ["p", "q", "r", symKey "q"]
    ["a", "b"] ["c", "d"] ["e"]
    (okB_ok (by decide +kernel)) (okB_ok (by decide +kernel)) (okB_ok (by decide +kernel)) rfl (by decide) (by decide) exAD_order
    (by
      intro R ts hR
      have : (compose2 ["p", "q", "r"] exA.model exD.model (exA.syncs []) (exD.syncs []) []).toOption.map (fun q => q.1.names) =
          some ["p", "q", "r", symKey "q"] := by decide +kernel
      rw [hR] at this
      have hn : R.names = ["p", "q", "r", symKey "q"] := by injection this
      refine ⟨by decide, fun p => ?_⟩
      rw [hn]
      simp [exC])
    (by decide) (by decide) (by decide) (by decide) M hM
  refine ⟨M, st, hM, fun ρ hρ => h ρ ?_ ?_ ?_⟩
  · intro p x hp
    have : p = "p" ∧ x = 2 := by
      simp only [exA, List.lookup] at hp
      split at hp
      · rename_i e
        exact ⟨by simpa using e, by injection hp with hp; exact hp.symm⟩
      · cases hp
    rw [this.1, this.2, hρ]
  · intro p x hp
    cases hp
  · intro p x hp
    cases hp

/-- `exA` and `exB` without synchronous transitions, which are not given to the constructor. -/
def exA0 : Comp ℚ := ⟨{ exA.model with sync := [] }, true⟩
def exB0 : Comp ℚ := ⟨{ exB.model with sync := [] }, true⟩
def exD0 : Comp ℚ := ⟨{ exD.model with sync := [] }, true⟩

/-- The hypotheses of `compose_all_partial` are met by three models, the last one with a self-loop. -/
example : ∃ M, composeAll id [] [(exA0, []), (exD0, ["q", "p", "r"]), (exB0, ["r", "p", "q"])] = ([], .ok M) ∧ M.WF := by
  obtain ⟨M, h1, h2, _⟩ := compose_all_partial id (fun _ => List.Perm.refl _) (exA0, []) (exD0, ["q", "p", "r"]) [(exB0, ["r", "p", "q"])]
    (by
      intro m hm
      simp only [List.mem_cons, List.not_mem_nil, or_false] at hm
      rcases hm with rfl | rfl | rfl <;> exact ⟨okB_ok (by decide +kernel), rfl⟩)
    ⟨⟨by decide, by simp [exA0, exD0, exA, exD]; grind⟩, ⟨by decide, by simp [exB0, exB]; grind⟩, trivial⟩
    ⟨by decide, by decide, trivial⟩
    (by
      intro m hm
      simp only [List.dropLast, List.mem_cons, List.not_mem_nil, or_false] at hm
      rcases hm with rfl | rfl <;> decide)
  exact ⟨M, h1, h2⟩

/-! ### Where the composition is wrong -/

/-- C71 is violated: the same call on the same models, a second time in the same program, returns other rates. The transition
from (a,c,e) to (b,d,e) has the rate 70 after the first call. After the second call it has the rate 70 + 70, because the
synchronised transitions of the first call are still in the default argument of the constructor. -/
theorem compose_twice :
    let ms := [(exA, []), (exD, ["p", "q", "r"]), (exC, ["p", "q", "r", symKey "q"])]
    let v := [("p", 2), ("q", 5), ("r", 4)]
    (shown v (composeAll id [] ms).2).2.map (fun x => (x.2.getD 0 []).getD 3 0) = some 70 ∧
    (shown v (composeAll id (composeAll id [] ms).1 ms).2).2.map (fun x => (x.2.getD 0 []).getD 3 0) = some 140 := by
  intro ms v
  have h1 : (composeAll id [] ms).1 = [(0, "x", 3, .mul (.sym "q") (.num 7))] := by
    refine (compose_three_default id exA exD exC [] ["p", "q", "r"] ["p", "q", "r", symKey "q"] ["a", "b"] ["c", "d"]
      (okB_ok (by decide +kernel)) (okB_ok (by decide +kernel)) (by decide) exAD_order (by decide) (by decide)).trans ?_
    decide +kernel
  constructor
  · rw [show shown v (composeAll id [] ms).2 = _ from ex_three]
    decide +kernel
  · rw [h1]
    rw [show shown v (composeAll id [(0, "x", 3, .mul (.sym "q") (.num 7))] ms).2 = (none, some (["a,c,e", "a,d,e", "b,c,e", "b,d,e", "init"],
      [[0, 0, 2, 140, 0], [4, 0, 0, 2, 0], [3, 0, 0, 0, 0], [0, 3, 4, 0, 0], [1, 0, 0, 0, 0]])) from
      shown_fuel 30 _ _ _ _ _ _ _ (by decide +kernel)]
    decide +kernel

/-- `exA` with a value of `q`, and `exD` with a value of `r`. -/
def exAq : Comp ℚ := ⟨{ exA.model with values := [("p", 2), ("q", 5)] }, false⟩
def exDr : Comp ℚ := ⟨{ exD.model with values := [("r", 4)] }, false⟩

/-- What two calls return about the parameters. -/
def params (r : Py (PCTMC ℚ)) : Option (List (String × ℚ) × List String × Bool) :=
  match r with
  | .ok M => some (M.values, M.names, M.isInstantiated)
  | .error _ => none

theorem params_fuel (fuel : ℕ) (dflt : List (Sync ℚ)) (m : Comp ℚ) (o : List String) (m2 : Comp ℚ × List String)
    (rest : List (Comp ℚ × List String)) (x : Option (List (String × ℚ) × List String × Bool))
    (h : (composeFuel fuel dflt m (m2 :: rest)).map (fun r => params r.2) = some x) :
    params (composeAll id dflt ((m, o) :: m2 :: rest)).2 = x := by
  rw [Option.map_eq_some_iff] at h
  obtain ⟨r, hr, rfl⟩ := h
  rw [composeFuel_eq fuel dflt m o m2 rest r hr]

/-- C48 is violated: every parameter of the two components has a value; in the composition the parameter `r` of the second one
has none. The names also contain a `Symbol` object besides the string 'q', so that the composition does not count as instantiated
even when the values of `p`, `q` and `r` are given. -/
theorem compose_values_lost : exAq.model.isInstantiated = true ∧ exDr.model.isInstantiated = true ∧
    params (composeAll id [] [(exAq, []), (exDr, ["p", "q", "r"])]).2 = some ([("p", 2), ("q", 5)], ["p", "q", "r", symKey "q"], false) :=
  ⟨by decide +kernel, by decide +kernel, params_fuel 20 _ _ _ _ _ _ (by decide +kernel)⟩

/-- C48 is violated: a self-loop of the first component is lost at the states where the second component has none: it is
replaced by the rate 0 of the second component. The self-loop of `c` at rate `r` = 4 is kept if the components are swapped. -/
theorem compose_self_loop_lost :
    shown [("p", 2), ("q", 5), ("r", 4)] (composeAll id [] [(exB0, []), (exA0, ["p", "q", "r"])]).2 =
      (none, some (["c,a", "c,b", "d,a", "d,b", "init"],
        [[0, 2, 0, 0, 0], [3, 0, 0, 0, 0], [0, 0, 0, 2, 0], [0, 0, 3, 0, 0], [1, 0, 0, 0, 0]])) ∧
    shown [("p", 2), ("q", 5), ("r", 4)] (composeAll id [] [(exA0, []), (exB0, ["p", "q", "r"])]).2 =
      (none, some (["a,c", "a,d", "b,c", "b,d", "init"],
        [[4, 0, 2, 0, 0], [0, 0, 0, 2, 0], [3, 0, 4, 0, 0], [0, 3, 0, 0, 0], [1, 0, 0, 0, 0]])) :=
  ⟨shown_fuel 20 _ _ _ _ _ _ _ (by decide +kernel), shown_fuel 20 _ _ _ _ _ _ _ (by decide +kernel)⟩

/-- `exA` with the action `x` at rate 5 instead of `q`. -/
def exS : Comp ℚ := ⟨{ exA.model with sync := [(0, "x", 1, .num 5)] }, false⟩

/-- C48 is violated: if a synchronised transition is added to a local one whose rate has a parameter that is in no synchronised
rate then the call raises ValueError. -/
theorem compose_raises : (shown [] (composeAll id [] [(exS, []), (exC, ["p", "q"])]).2).1 = some .valueError := by
  rw [shown_fuel 20 [] [] exS [] (exC, ["p", "q"]) [] (some .valueError, none) (by decide +kernel)]

/-- One state whose initial rate is a parameter without value. -/
def exI : Comp ℚ := ⟨{ exC.model with exprs := [.num 0, .sym "s"], indexes := [[(1, 0)]], names := ["s"] }, false⟩

/-- C48 is violated: if the rate from the initial state has a parameter without value then the call raises TypeError. -/
theorem compose_symbolic_init : (shown [] (composeAll id [] [(exI, []), (exC, ["s"])]).2).1 = some .typeError := by
  rw [shown_fuel 20 [] [] exI [] (exC, ["s"]) [] (some .typeError, none) (by decide +kernel)]

/-- One state `f` with an action `x` to itself at rate 1. -/
def exF : Comp ℚ := ⟨{ exC.model with labelling := ["f", "init"], sync := [(0, "x", 0, .num 1)] }, false⟩

/-- C48 is violated, on the first call: with four components the synchronised transition from (a,c,e,f) to (b,d,e,f) should have
the rate 5 * 7 * 2 * 1 = 70 and has the rate 70 + 35: when the last component is added, the transitions that the first two
components synchronise are still in the list. -/
theorem compose_four :
    shown [("p", 2), ("q", 5), ("r", 4)] (composeAll id []
      [(exA, []), (exD, ["p", "q", "r"]), (exC, ["p", "q", "r", symKey "q"]), (exF, ["p", "q", "r", symKey "q"])]).2 =
    (none, some (["a,c,e,f", "a,d,e,f", "b,c,e,f", "b,d,e,f", "init"],
      [[0, 0, 2, 105, 0], [4, 0, 0, 2, 0], [3, 0, 0, 0, 0], [0, 3, 4, 0, 0], [1, 0, 0, 0, 0]])) ∧
    ((((sysOf exA.model ["a", "b"] exA.model.sync (val [("q", 5)])).prod (sysOf exD.model ["c", "d"] exD.model.sync (val []))).prod
      (sysOf exC.model ["e"] exC.model.sync (val []))).prod (sysOf exF.model ["f"] exF.model.sync (val []))).total (some 0) (some 3) = 70 :=
  ⟨shown_fuel 30 _ _ _ _ _ _ _ (by decide +kernel), by decide +kernel⟩

/-- Two states `g`, `h` and two initial states, with the rates 2 and 1, and 3 and 1, to them. -/
def exJ : Comp ℚ where
  model := {
    matrix := [[0, 0, 0, 0], [0, 0, 0, 0], [2, 1, 0, 0], [3, 1, 0, 0]]
    labelling := ["g", "h", "init", "init"]
    exprs := [.num 0, .num 1, .num 2, .num 3]
    values := []
    indexes := []
    names := []
    initialState := [0, 0, 1/2, 1/2]
    sync := [] }
  shared := false

/-- C48 is violated: with two initial states the rates to the same state are multiplied: the composition starts in `g` with
probability 6/7, and the component does so with probability 17/24. -/
theorem compose_two_inits :
    shown [] (composeAll id [] [(exJ, []), (exC, [])]).2 =
      (none, some (["g,e", "h,e", "init"], [[0, 0, 0], [0, 0, 0], [6, 1, 0]])) ∧
    ((1/2) * (2 / (2 + 1)) + (1/2) * (3 / (3 + 1)) : ℚ) = 17/24 :=
  ⟨shown_fuel 20 _ _ _ _ _ _ _ (by decide +kernel), by norm_num⟩

end Jajapy.PCompose
