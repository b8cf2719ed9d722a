import Verif.Lemmas.AlergiaHeap
import Mathlib.Data.Finset.Card
import Mathlib.Algebra.BigOperators.Ring.Finset
import Mathlib.Algebra.Order.BigOperators.Group.Finset

/-!
The invariant of the merging of states, and its preservation by `fold`, `merge` and the loop.

`A` is the set of the nodes of the graph, `R` the set of the red ones. The nodes that are not red form trees hung under the red
nodes. During a fold, `U` is the set of the nodes of the tree of the merged blue node that wait.
-/

namespace Jajapy.Alergia

open Spec.Alergia Heap

/-! ### Reading the heap -/

theorem kid_congr {h h' : Heap} {x : ℕ} (e : h'.node x = h.node x) (k : ℕ) : h'.Kid x k ↔ h.Kid x k := by
  unfold Kid kids; rw [e]

theorem kids_congr {h h' : Heap} {x : ℕ} (e : h'.node x = h.node x) : h'.kids x = h.kids x := by unfold kids; rw [e]
theorem count_congr {h h' : Heap} {x : ℕ} (e : h'.node x = h.node x) : h'.count x = h.count x := by unfold count; rw [e]
theorem label_congr {h h' : Heap} {x : ℕ} (e : h'.node x = h.node x) : h'.label x = h.label x := by unfold label; rw [e]
theorem parent_congr {h h' : Heap} {x : ℕ} (e : h'.node x = h.node x) : h'.parent x = h.parent x := by unfold parent; rw [e]
theorem leaving_congr {h h' : Heap} {x : ℕ} (e : h'.kids x = h.kids x) : leaving h' x = leaving h x := by unfold leaving; rw [e]
theorem edge_congr {h h' : Heap} {y : ℕ} (e : h'.kids y = h.kids y) (x : ℕ) : edge h' y x = edge h y x := by unfold edge; rw [e]

theorem edge_zero {h : Heap} {y x : ℕ} (hk : ¬ h.Kid y x) : edge h y x = 0 := by
  unfold edge
  have : (h.kids y).filter (fun q => decide (q.1 = x)) = [] := by
    rw [List.filter_eq_nil_iff]
    intro q hq e
    exact hk ((of_decide_eq_true e) ▸ kid_of_mem hq)
  rw [this]; rfl

theorem edge_eq {h : Heap} {y x c : ℕ} (hd : ((h.kids y).map (·.1)).Nodup) (hm : (x, c) ∈ h.kids y) : edge h y x = c := by
  unfold edge
  generalize h.kids y = l at hd hm
  induction l with
  | nil => cases hm
  | cons q l ih =>
    rw [List.map_cons, List.nodup_cons] at hd
    rcases List.mem_cons.1 hm with rfl | hm
    · have : l.filter (fun q => decide (q.1 = x)) = [] := by
        rw [List.filter_eq_nil_iff]
        intro q hq e
        exact hd.1 (List.mem_map.2 ⟨q, hq, of_decide_eq_true e⟩)
      simp [this]
    · have : q.1 ≠ x := fun e => hd.1 (List.mem_map.2 ⟨_, hm, e.symm⟩)
      simp only [List.filter_cons, this, decide_false, Bool.false_eq_true, if_false]
      exact ih hd.2 hm

/-! ### The trees -/

/-- `y` is `x` or below `x`. -/
inductive Below (h : Heap) (x : ℕ) : ℕ → Prop
  | refl : Below h x x
  | step {p y : ℕ} : Below h x p → h.Kid p y → Below h x y

/-- The chain of the parents of `x` reaches `R` after `m` steps. -/
inductive Up (h : Heap) (R : Finset ℕ) : ℕ → ℕ → Prop
  | red {x : ℕ} : x ∈ R → Up h R x 0
  | step {x p m : ℕ} : x ∉ R → h.parent x = some p → Up h R p m → Up h R x (m + 1)

theorem Up.unique {h : Heap} {R : Finset ℕ} {x m m' : ℕ} (a : Up h R x m) (b : Up h R x m') : m = m' := by
  induction a generalizing m' with
  | red hx => cases b with
    | red _ => rfl
    | step hx' _ _ => exact absurd hx hx'
  | step hx hp _ ih => cases b with
    | red hx' => exact absurd hx' hx
    | step _ hp' b =>
      rw [hp] at hp'
      injection hp' with e
      subst e
      rw [ih b]

/-- The graph of the nodes `A` with the red nodes `R`; every transition carries at least `lo` traces. -/
structure WF (h : Heap) (R A : Finset ℕ) (lo : ℕ) : Prop where
  root : 0 ∈ R
  sub : R ⊆ A
  closed : ∀ x ∈ A, ∀ k, h.Kid x k → k ∈ A
  noRed : ∀ x ∈ A, x ∉ R → ∀ k, h.Kid x k → k ∉ R
  par : ∀ x ∈ A, x ∉ R → ∀ y ∈ A, h.Kid y x → h.parent x = some y
  parIn : ∀ x ∈ A, x ∉ R → ∃ p ∈ A, h.parent x = some p ∧ h.Kid p x
  det : ∀ x ∈ A, h.Det x
  up : ∀ x ∈ A, ∃ m, Up h R x m
  edges : ∀ x ∈ A, ∀ q ∈ h.kids x, lo ≤ q.2

/-- The forest of the nodes `U` that wait; `dep` decreases from a node to its kids. -/
structure Forest (h : Heap) (U : Finset ℕ) (dep : ℕ → ℕ) (lo : ℕ) : Prop where
  closed : ∀ x ∈ U, ∀ k, h.Kid x k → k ∈ U
  par : ∀ x ∈ U, ∀ k, h.Kid x k → h.parent k = some x
  det : ∀ x ∈ U, h.Det x
  flow : ∀ x ∈ U, ∀ q ∈ h.kids x, q.2 = h.count q.1 + leaving h q.1
  dep : ∀ x ∈ U, ∀ k, h.Kid x k → dep k < dep x
  edges : ∀ x ∈ U, ∀ q ∈ h.kids x, lo ≤ q.2

/-- The conservation of the traces, up to the debt `d` of the nodes. -/
def Flow (h : Heap) (A : Finset ℕ) (N : ℕ) (d : ℕ → ℕ) : Prop :=
  ∀ x ∈ A, inflow h A x + (if x = 0 then N else 0) = h.count x + leaving h x + d x

theorem Below.trans {h : Heap} {x y z : ℕ} (a : Below h x y) (b : Below h y z) : Below h x z := by
  induction b with
  | refl => exact a
  | step _ k ih => exact .step ih k

/-- A node below `x` is `x`, or is below a kid of `x`. -/
theorem Below.head {h : Heap} {x y : ℕ} (a : Below h x y) : y = x ∨ ∃ k, h.Kid x k ∧ Below h k y := by
  induction a with
  | refl => exact .inl rfl
  | step b k ih =>
    rcases ih with rfl | ⟨k', h1, h2⟩
    · exact .inr ⟨_, k, .refl⟩
    · exact .inr ⟨k', h1, .step h2 k⟩

theorem Below.mem {h : Heap} {U : Finset ℕ} (hc : ∀ x ∈ U, ∀ k, h.Kid x k → k ∈ U) {x y : ℕ} (hx : x ∈ U) (b : Below h x y) : y ∈ U := by
  induction b with
  | refl => exact hx
  | step _ k ih => exact hc _ ih _ k

theorem Below.congr {h h' : Heap} {U : Finset ℕ} (hc : ∀ x ∈ U, ∀ k, h.Kid x k → k ∈ U) (he : ∀ x ∈ U, h'.node x = h.node x)
    {x y : ℕ} (hx : x ∈ U) : Below h' x y ↔ Below h x y := by
  constructor
  · intro b
    have : Below h x y ∧ y ∈ U := by
      induction b with
      | refl => exact ⟨.refl, hx⟩
      | step _ k ih =>
        have k' := (kid_congr (he _ ih.2) _).1 k
        exact ⟨.step ih.1 k', hc _ ih.2 _ k'⟩
    exact this.1
  · intro b
    have : Below h' x y ∧ y ∈ U := by
      induction b with
      | refl => exact ⟨.refl, hx⟩
      | step _ k ih =>
        exact ⟨.step ih.1 ((kid_congr (he _ ih.2) _).2 k), hc _ ih.2 _ k⟩
    exact this.1

/-- Two different tops of a forest have nothing in common below them. -/
theorem Below.disjoint {h : Heap} {U : Finset ℕ} (hc : ∀ x ∈ U, ∀ k, h.Kid x k → k ∈ U)
    (hp : ∀ x ∈ U, ∀ k, h.Kid x k → h.parent k = some x) {a b y : ℕ} (ha : a ∈ U) (hb : b ∈ U)
    (ta : ∀ x ∈ U, ¬ h.Kid x a) (tb : ∀ x ∈ U, ¬ h.Kid x b) (ya : Below h a y) (yb : Below h b y) : a = b := by
  induction ya with
  | refl => cases yb with
    | refl => rfl
    | step c k => exact absurd k (ta _ (c.mem hc hb))
  | @step p y c k ih => cases yb with
    | refl => exact absurd k (tb _ (c.mem hc ha))
    | @step p' _ c' k' =>
      have e1 := hp _ (c.mem hc ha) _ k
      have e2 := hp _ (c'.mem hc hb) _ k'
      rw [e1] at e2
      injection e2 with e
      subst e
      exact ih c'

/-! ### Words -/

theorem follow_append (h : Heap) (x : ℕ) (u v : List String) :
    follow h x (u ++ v) = (follow h x u).bind (fun y => follow h y v) := by
  induction u generalizing x with
  | nil => rfl
  | cons l u ih =>
    rw [List.cons_append]
    simp only [follow]
    cases h.findKid x l with
    | none => rfl
    | some k => exact ih k

/-- Every word that can be read from a node of `A` is still read, to the same node. -/
def Keeps (h h' : Heap) (A : Finset ℕ) : Prop := ∀ x ∈ A, ∀ w y, follow h x w = some y → follow h' x w = some y

theorem keeps_of_kids {h h' : Heap} {A : Finset ℕ} (hc : ∀ x ∈ A, ∀ k, h.Kid x k → k ∈ A) (hd : ∀ x ∈ A, h'.Det x)
    (hl : ∀ x, h'.label x = h.label x) (hk : ∀ x ∈ A, ∀ k, h.Kid x k → h'.Kid x k) : Keeps h h' A := by
  intro x hx w
  induction w generalizing x with
  | nil => intro y e; exact e
  | cons l w ih =>
    intro y e
    unfold follow at e ⊢
    cases hf : h.findKid x l with
    | none => rw [hf] at e; cases e
    | some k =>
      rw [hf] at e
      obtain ⟨h1, h2⟩ := findKid_some hf
      have := (hd x hx).findKid (hk x hx k h1)
      rw [hl, h2] at this
      rw [this]
      exact ih k (hc x hx k h1) y e

theorem Keeps.trans {h h' h'' : Heap} {A A' : Finset ℕ} (a : Keeps h h' A) (b : Keeps h' h'' A') (hs : A ⊆ A') : Keeps h h'' A :=
  fun x hx w y e => b x (hs hx) w y (a x hx w y e)

/-! ### One step of a fold -/

/-- What holds before the kids `l` of the second node are folded into `s1`; `f` bounds their depth. -/
structure Pre (h : Heap) (R A U : Finset ℕ) (dep : ℕ → ℕ) (lo N f : ℕ) (d : ℕ → ℕ) (s1 : ℕ) (l : List (ℕ × ℕ)) : Prop where
  disj : ∀ x ∈ A, x ∉ U
  wf : WF h R A lo
  forest : Forest h U dep lo
  flow : Flow h A N (fun x => d x + if x = s1 then (l.map (·.2)).sum else 0)
  dU : ∀ x ∈ U, d x = 0
  s1 : s1 ∈ A
  mem : ∀ q ∈ l, q.1 ∈ U
  top : ∀ q ∈ l, ∀ x ∈ U, ¬ h.Kid x q.1
  nodup : (l.map (·.1)).Nodup
  val : ∀ q ∈ l, q.2 = h.count q.1 + leaving h q.1
  lo : ∀ q ∈ l, lo ≤ q.2
  depth : ∀ q ∈ l, dep q.1 < f

/-- What holds after. -/
structure Post (h h' : Heap) (R A A' : Finset ℕ) (lo N : ℕ) (d : ℕ → ℕ) (s1 : ℕ) (l : List (ℕ × ℕ)) : Prop where
  wf : WF h' R A' lo
  flow : Flow h' A' N d
  grow : A ⊆ A'
  from_ : ∀ x ∈ A', x ∈ A ∨ ∃ q ∈ l, Below h q.1 x
  frame : ∀ x, x ∉ A → (∀ q ∈ l, ¬ Below h q.1 x) → h'.node x = h.node x
  size : h'.size = h.size
  labels : ∀ x, h'.label x = h.label x
  keeps : Keeps h h' A
  read : ∀ q ∈ l, ∀ w, (follow h q.1 w).isSome → ∃ k, h'.findKid s1 (h.label q.1) = some k ∧ (follow h' k w).isSome

theorem follow_congr {h h' : Heap} {U : Finset ℕ} (hc : ∀ x ∈ U, ∀ k, h.Kid x k → k ∈ U) (he : ∀ x ∈ U, h'.kids x = h.kids x)
    (hl : ∀ x, h'.label x = h.label x) {x : ℕ} (hx : x ∈ U) (w : List String) : follow h' x w = follow h x w := by
  induction w generalizing x with
  | nil => rfl
  | cons l w ih =>
    simp only [follow]
    have e : h'.findKid x l = h.findKid x l := by unfold findKid; rw [he x hx]; simp only [hl]
    rw [e]
    cases hf : h.findKid x l with
    | none => rfl
    | some k => exact ih (hc x hx k (findKid_some hf).1)

open Classical in
/-- The nodes that still wait after the kid `k2` has been treated. -/
noncomputable def rest (h : Heap) (U : Finset ℕ) (k2 : ℕ) : Finset ℕ := U.filter (fun x => ¬ Below h k2 x)

theorem mem_rest {h : Heap} {U : Finset ℕ} {k2 x : ℕ} : x ∈ rest h U k2 ↔ x ∈ U ∧ ¬ Below h k2 x := by
  unfold rest; simp

variable {h h1 h2 : Heap} {R A A1 A2 U : Finset ℕ} {dep d : ℕ → ℕ} {lo N f s1 k2 c : ℕ} {l : List (ℕ × ℕ)}

/-- A node that waits and is not below `k2` has no kid below `k2`. -/
theorem Pre.kid_rest (P : Pre h R A U dep lo N f d s1 ((k2, c) :: l)) {x k : ℕ} (hx : x ∈ rest h U k2) (hk : h.Kid x k) :
    k ∈ rest h U k2 := by
  obtain ⟨hxU, hxb⟩ := mem_rest.1 hx
  refine mem_rest.2 ⟨P.forest.closed x hxU k hk, fun b => ?_⟩
  cases b with
  | refl => exact P.top (k2, c) (by simp) x hxU hk
  | @step p _ b k' =>
    have hpU := b.mem P.forest.closed (P.mem (k2, c) (by simp))
    have e1 := P.forest.par x hxU k hk
    have e2 := P.forest.par p hpU k k'
    rw [e1] at e2
    injection e2 with e
    subst e
    exact hxb b

theorem Pre.tail (P : Pre h R A U dep lo N f d s1 ((k2, c) :: l))
    (Q : Post h h1 R A A1 lo N (fun x => d x + if x = s1 then (l.map (·.2)).sum else 0) s1 [(k2, c)]) :
    Pre h1 R A1 (rest h U k2) dep lo N f d s1 l := by
  have hfr : ∀ x ∈ rest h U k2, h1.node x = h.node x := by
    intro x hx
    obtain ⟨hxU, hxb⟩ := mem_rest.1 hx
    exact Q.frame x (fun hA => P.disj x hA hxU) (by simpa using hxb)
  have hnd := P.nodup
  rw [List.map_cons, List.nodup_cons] at hnd
  have hmem : ∀ q ∈ l, q.1 ∈ rest h U k2 := by
    intro q hq
    refine mem_rest.2 ⟨P.mem q (by simp [hq]), fun b => ?_⟩
    have := Below.disjoint P.forest.closed P.forest.par (P.mem (k2, c) (by simp)) (P.mem q (by simp [hq]))
      (P.top (k2, c) (by simp)) (P.top q (by simp [hq])) b .refl
    exact hnd.1 (List.mem_map.2 ⟨q, hq, this.symm⟩)
  refine ⟨?_, Q.wf, ⟨?_, ?_, ?_, ?_, ?_, ?_⟩, Q.flow, ?_, Q.grow P.s1, hmem, ?_, hnd.2, ?_, ?_, ?_⟩
  · intro x hx hr
    obtain ⟨hxU, hxb⟩ := mem_rest.1 hr
    rcases Q.from_ x hx with hA | ⟨q, hq, hb⟩
    · exact P.disj x hA hxU
    · rw [List.mem_singleton] at hq; subst hq; exact hxb hb
  · intro x hx k hk
    exact P.kid_rest hx ((kid_congr (hfr x hx) k).1 hk)
  · intro x hx k hk
    have hk' := (kid_congr (hfr x hx) k).1 hk
    rw [parent_congr (hfr k (P.kid_rest hx hk'))]
    exact P.forest.par x (mem_rest.1 hx).1 k hk'
  · intro x hx
    have := P.forest.det x (mem_rest.1 hx).1
    unfold Det at this ⊢
    rw [kids_congr (hfr x hx)]
    simpa only [Q.labels] using this
  · intro x hx q hq
    rw [kids_congr (hfr x hx)] at hq
    have hr := P.kid_rest hx (kid_of_mem hq)
    rw [count_congr (hfr _ hr), leaving_congr (kids_congr (hfr _ hr))]
    exact P.forest.flow x (mem_rest.1 hx).1 q hq
  · intro x hx k hk
    exact P.forest.dep x (mem_rest.1 hx).1 k ((kid_congr (hfr x hx) k).1 hk)
  · intro x hx q hq
    rw [kids_congr (hfr x hx)] at hq
    exact P.forest.edges x (mem_rest.1 hx).1 q hq
  · intro x hx; exact P.dU x (mem_rest.1 hx).1
  · intro q hq x hx hk
    exact P.top q (by simp [hq]) x (mem_rest.1 hx).1 ((kid_congr (hfr x hx) _).1 hk)
  · intro q hq
    rw [count_congr (hfr _ (hmem q hq)), leaving_congr (kids_congr (hfr _ (hmem q hq)))]
    exact P.val q (by simp [hq])
  · intro q hq; exact P.lo q (by simp [hq])
  · intro q hq; exact P.depth q (by simp [hq])

theorem Post.cons {d1 : ℕ → ℕ} (P : Pre h R A U dep lo N f d s1 ((k2, c) :: l)) (Q : Post h h1 R A A1 lo N d1 s1 [(k2, c)])
    (P1 : Pre h1 R A1 (rest h U k2) dep lo N f d s1 l)
    (Q' : Post h1 h2 R A1 A2 lo N d s1 l) : Post h h2 R A A2 lo N d s1 ((k2, c) :: l) := by
  have hfr : ∀ x ∈ rest h U k2, h1.node x = h.node x := by
    intro x hx
    obtain ⟨hxU, hxb⟩ := mem_rest.1 hx
    exact Q.frame x (fun hA => P.disj x hA hxU) (by simpa using hxb)
  have hbel : ∀ q ∈ l, ∀ x, Below h1 q.1 x ↔ Below h q.1 x := fun q hq x =>
    Below.congr (fun x hx k hk => P.kid_rest hx hk) hfr (P1.mem q hq)
  refine ⟨Q'.wf, Q'.flow, fun x hx => Q'.grow (Q.grow hx), ?_, ?_, Q'.size.trans Q.size, fun x => (Q'.labels x).trans (Q.labels x),
    Q.keeps.trans Q'.keeps Q.grow, ?_⟩
  · intro x hx
    rcases Q'.from_ x hx with h1 | ⟨q, hq, hb⟩
    · rcases Q.from_ x h1 with h2 | ⟨q, hq, hb⟩
      · exact .inl h2
      · rw [List.mem_singleton] at hq; exact .inr ⟨q, by simp [hq], hb⟩
    · exact .inr ⟨q, by simp [hq], (hbel q hq x).1 hb⟩
  · intro x hx hb
    rw [Q'.frame x ?_ ?_, Q.frame x hx ?_]
    · intro q hq; rw [List.mem_singleton] at hq; exact hb q (by simp [hq])
    · intro hA
      rcases Q.from_ x hA with h2 | ⟨q, hq, hb'⟩
      · exact hx h2
      · rw [List.mem_singleton] at hq; exact hb q (by simp [hq]) hb'
    · intro q hq hb'
      exact hb q (by simp [hq]) ((hbel q hq x).1 hb')
  · intro q hq w hw
    rcases List.mem_cons.1 hq with rfl | hq
    · obtain ⟨k, e1, e2⟩ := Q.read (k2, c) (by simp) w hw
      obtain ⟨y, e2⟩ := Option.isSome_iff_exists.1 e2
      have hkA : k ∈ A1 := Q.wf.closed s1 (Q.grow P.s1) k (findKid_some e1).1
      refine ⟨k, ?_, by rw [Q'.keeps k hkA w y e2]; rfl⟩
      have := Q'.keeps s1 (Q.grow P.s1) [h.label k2] k (by simp only [follow]; rw [e1])
      simp only [follow] at this
      cases hf : h2.findKid s1 (h.label k2) with
      | none => rw [hf] at this; cases this
      | some k' => rw [hf] at this; exact this
    · have := Q'.read q hq w (by
        rw [follow_congr (U := rest h U k2) (fun x hx k hk => P.kid_rest hx hk) (fun x hx => kids_congr (hfr x hx)) Q.labels (P1.mem q hq)]
        exact hw)
      rwa [Q.labels] at this

end Jajapy.Alergia
