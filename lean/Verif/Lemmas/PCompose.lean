import Verif.Spec.PCompose
import Verif.Lemmas.Compose
import Verif.Props.Compose

/-!
Lemmas on the composition of parametric CTMCs.
-/

set_option linter.unusedSectionVars false

namespace Jajapy.PCompose

open PCTMC Spec
open Compose (pair_lt pair_inj dec_cases)

variable {K : Type} [Field K] [LinearOrder K]

/-! ### Expressions -/

theorem mem_addExpr (es : List (Expr K)) (e : Expr K) : e ∈ addExpr es e := by
  unfold addExpr
  split
  · assumption
  · simp

theorem addExpr_mem {es : List (Expr K)} {e x : Expr K} (h : x ∈ addExpr es e) : x ∈ es ∨ x = e := by
  unfold addExpr at h
  split at h
  · exact Or.inl h
  · simpa using h

theorem addExpr_length (es : List (Expr K)) (e : Expr K) : es.length ≤ (addExpr es e).length ∧ (addExpr es e).length ≤ es.length + 1 := by
  unfold addExpr
  split <;> simp

theorem addExpr_old (es : List (Expr K)) (e : Expr K) {t : ℕ} (h : t < es.length) : (addExpr es e)[t]? = es[t]? := by
  unfold addExpr
  split
  · rfl
  · rw [List.getElem?_append_left h]

theorem addExpr_idx (es : List (Expr K)) (e : Expr K) : (addExpr es e)[(addExpr es e).idxOf e]? = some e := by
  have h := List.idxOf_lt_length_of_mem (mem_addExpr es e)
  rw [List.getElem?_eq_getElem h, List.getElem_idxOf]

theorem addExpr_idx_zero {es : List (Expr K)} (hz : es[0]? = some (.num 0)) : (addExpr es (.num 0)).idxOf (.num 0) = 0 := by
  have hm : (Expr.num 0 : Expr K) ∈ es := List.mem_of_getElem? hz
  unfold addExpr
  rw [if_pos hm]
  cases es with
  | nil => simp at hz
  | cons a es =>
    have : a = .num 0 := by simpa using hz
    rw [this, List.idxOf_cons_self]

/-! ### The build -/

/-- The expression of a cell. -/
def cellE (B : Build K) (x y : ℕ) : Expr K := B.exprs.getD (B.matrix x y) (.num 0)

structure BInv (N : ℕ) (names : List String) (B : Build K) : Prop where
  mat : ∀ x y, B.matrix x y < B.exprs.length
  decl : ∀ e ∈ B.exprs, ∀ p, e.Occurs p → p ∈ names
  len : B.indexes.length = names.length
  inR : ∀ l ∈ B.indexes, ∀ q ∈ l, q.1 < N ∧ q.2 < N
  zero : B.exprs[0]? = some (.num 0)
  nz : ∀ x y, cellE B x y = .num 0 → B.matrix x y = 0

/-- One step of the construction: the cells get the expression `e`. -/
structure Step (N : ℕ) (names : List String) (B B' : Build K) (e : Expr K) (cells : List (ℕ × ℕ)) : Prop where
  inv : BInv N names B'
  grow : B'.exprs.length ≤ B.exprs.length + 1
  cell : ∀ x y, cellE B' x y = if (x, y) ∈ cells then e else cellE B x y

theorem foldl_setEntry (cells : List (ℕ × ℕ)) (m : ℕ → ℕ → ℕ) (t x y : ℕ) :
    (cells.foldl (fun m q => setEntry m q.1 q.2 t) m) x y = if (x, y) ∈ cells then t % 65536 else m x y := by
  induction cells generalizing m with
  | nil => simp
  | cons q qs ih =>
    rw [List.foldl_cons, ih]
    by_cases h : (x, y) ∈ qs
    · rw [if_pos h, if_pos (List.mem_cons_of_mem _ h)]
    · rw [if_neg h]
      unfold setEntry
      by_cases h2 : x = q.1 ∧ y = q.2
      · rw [if_pos h2, if_pos (by rw [h2.1, h2.2]; simp)]
      · rw [if_neg h2, if_neg]
        intro hm
        rcases List.mem_cons.1 hm with h3 | h3
        · exact h2 ⟨congrArg Prod.fst h3, congrArg Prod.snd h3⟩
        · exact h h3

/-- What a write of the index `t` of the expression `e` does. -/
theorem step_of {N : ℕ} {names : List String} {B B' : Build K} (hI : BInv N names B) {e : Expr K} {cells : List (ℕ × ℕ)} {t : ℕ}
    (hm : ∀ x y, B'.matrix x y = if (x, y) ∈ cells then t % 65536 else B.matrix x y)
    (ht : B'.exprs[t]? = some e) (hold : ∀ s < B.exprs.length, B'.exprs[s]? = B.exprs[s]?)
    (hle : B'.exprs.length ≤ B.exprs.length + 1) (hsmall : B.exprs.length < 65536)
    (hmem : ∀ x ∈ B'.exprs, x ∈ B.exprs ∨ x = e) (hd : ∀ p, e.Occurs p → p ∈ names)
    (hlen : B'.indexes.length = names.length) (hin : ∀ l ∈ B'.indexes, ∀ q ∈ l, q.1 < N ∧ q.2 < N)
    (h0 : e = .num 0 → t = 0) : Step N names B B' e cells := by
  have htl : t < B'.exprs.length := (List.getElem?_eq_some_iff.1 ht).1
  have hmod : t % 65536 = t := Nat.mod_eq_of_lt (by omega)
  have hgrow : B.exprs.length ≤ B'.exprs.length := by
    by_contra hc
    have h1 := hold B'.exprs.length (by omega)
    rw [List.getElem?_eq_none le_rfl, List.getElem?_eq_getElem (by omega)] at h1
    exact absurd h1 (by simp)
  have hcell : ∀ x y, cellE B' x y = if (x, y) ∈ cells then e else cellE B x y := by
    intro x y
    unfold cellE
    rw [hm]
    by_cases h : (x, y) ∈ cells
    · rw [if_pos h, if_pos h, hmod, List.getD_eq_getElem?_getD, ht]
      rfl
    · rw [if_neg h, if_neg h, List.getD_eq_getElem?_getD, hold _ (hI.mat x y), List.getD_eq_getElem?_getD]
  refine ⟨⟨?_, ?_, hlen, hin, ?_, ?_⟩, hle, hcell⟩
  · intro x y
    rw [hm]
    split
    · omega
    · have := hI.mat x y
      omega
  · intro x hx p hp
    rcases hmem x hx with h | rfl
    · exact hI.decl x h p hp
    · exact hd p hp
  · have hz := hI.zero
    rw [hold 0 (List.getElem?_eq_some_iff.1 hz).1, hz]
  · intro x y hxy
    rw [hcell] at hxy
    rw [hm]
    by_cases h : (x, y) ∈ cells
    · rw [if_pos h] at hxy ⊢
      rw [hmod, h0 hxy]
    · rw [if_neg h] at hxy ⊢
      exact hI.nz x y hxy

theorem foldl_modify {names : List String} (ps : List String) (cells : List (ℕ × ℕ)) (ix : List (List (ℕ × ℕ))) :
    (ps.foldl (fun ix p => ix.modify (names.idxOf p) (fun l => l ++ cells)) ix).length = ix.length ∧
    ∀ l ∈ ps.foldl (fun ix p => ix.modify (names.idxOf p) (fun l => l ++ cells)) ix, ∀ q ∈ l, (∃ l' ∈ ix, q ∈ l') ∨ q ∈ cells := by
  induction ps generalizing ix with
  | nil => exact ⟨rfl, fun l hl q hq => Or.inl ⟨l, hl, hq⟩⟩
  | cons p ps ih =>
    rw [List.foldl_cons]
    obtain ⟨h1, h2⟩ := ih (ix.modify (names.idxOf p) (fun l => l ++ cells))
    refine ⟨by rw [h1, List.length_modify], fun l hl q hq => ?_⟩
    rcases h2 l hl q hq with ⟨l', hl', hq'⟩ | h
    · obtain ⟨k, hk, he⟩ := List.getElem_of_mem hl'
      rw [List.getElem_modify] at he
      split at he
      · rw [← he, List.mem_append] at hq'
        rcases hq' with hq' | hq'
        · exact Or.inl ⟨_, List.getElem_mem _, hq'⟩
        · exact Or.inr hq'
      · rw [← he] at hq'
        exact Or.inl ⟨_, List.getElem_mem _, hq'⟩
    · exact Or.inr h

theorem addTransition_step {N : ℕ} {names : List String} {B : Build K} (hI : BInv N names B) {e : Expr K} {cells : List (ℕ × ℕ)}
    (hd : ∀ p, e.Occurs p → p ∈ names) (hc : ∀ q ∈ cells, q.1 < N ∧ q.2 < N) (hsmall : B.exprs.length < 65536) :
    ∃ B', addTransition names B e cells = .ok B' ∧ Step N names B B' e cells := by
  unfold addTransition
  rw [if_neg]
  swap
  · rw [List.any_eq_true]
    rintro ⟨p, hp, hn⟩
    exact (by simpa using hn : p ∉ names) (hd p ((Expr.mem_free e p).1 hp))
  obtain ⟨f1, f2⟩ := foldl_modify (names := names) e.free cells B.indexes
  refine ⟨_, rfl, step_of hI (t := (addExpr B.exprs e).idxOf e) (fun x y => foldl_setEntry _ _ _ x y) (addExpr_idx _ _)
    (fun s hs => addExpr_old _ _ hs) (addExpr_length _ _).2 hsmall (fun x hx => addExpr_mem hx) hd (f1.trans hI.len) ?_ ?_⟩
  · intro l hl q hq
    rcases f2 l hl q hq with ⟨l', hl', hq'⟩ | h
    · exact hI.inR l' hl' q hq'
    · exact hc q h
  · rintro rfl
    exact addExpr_idx_zero hI.zero

theorem foldlM_steps {α : Type} {N : ℕ} {names : List String} (f : Build K → α → Py (Build K)) (E : α → Expr K)
    (C : α → List (ℕ × ℕ)) (l : List α)
    (h : ∀ B, BInv N names B → B.exprs.length < 65536 → ∀ a ∈ l, ∃ B', f B a = .ok B' ∧ Step N names B B' (E a) (C a))
    (B : Build K) (hI : BInv N names B) (hl : B.exprs.length + l.length ≤ 65536) :
    ∃ B', l.foldlM f B = .ok B' ∧ BInv N names B' ∧ B'.exprs.length ≤ B.exprs.length + l.length ∧
      ∀ x y, cellE B' x y = l.foldl (fun v a => if (x, y) ∈ C a then E a else v) (cellE B x y) := by
  induction l generalizing B with
  | nil => exact ⟨B, rfl, hI, by simp, fun x y => rfl⟩
  | cons a l ih =>
    rw [List.length_cons] at hl
    obtain ⟨B1, e1, s1⟩ := h B hI (by omega) a (by simp)
    have hg := s1.grow
    obtain ⟨B2, e2, i2, g2, c2⟩ := ih (fun B hB hs b hb => h B hB hs b (by simp [hb])) B1 s1.inv (by omega)
    refine ⟨B2, ?_, i2, by rw [List.length_cons]; omega, fun x y => ?_⟩
    · rw [Compose.foldlM_cons_ok e1, e2]
    · rw [c2, s1.cell, List.foldl_cons]

theorem foldl_const {α β : Type} (l : List α) (cond : α → Prop) [DecidablePred cond] (t : α → β) (v w : β)
    (hw : ∀ a ∈ l, cond a → t a = w) :
    l.foldl (fun v a => if cond a then t a else v) v = if ∃ a ∈ l, cond a then w else v := by
  classical
  induction l generalizing v with
  | nil => simp
  | cons a l ih =>
    rw [List.foldl_cons, ih _ (fun b hb => hw b (by simp [hb]))]
    by_cases h : ∃ b ∈ l, cond b
    · rw [if_pos h, if_pos]
      obtain ⟨b, hb, hc⟩ := h
      exact ⟨b, by simp [hb], hc⟩
    · rw [if_neg h]
      by_cases ha : cond a
      · rw [if_pos ha, if_pos ⟨a, by simp, ha⟩]
        exact hw a (by simp) ha
      · rw [if_neg ha, if_neg]
        rintro ⟨b, hb, hc⟩
        rcases List.mem_cons.1 hb with rfl | hb
        · exact ha hc
        · exact h ⟨b, hb, hc⟩

theorem mem_pairs {n m : ℕ} (p : ℕ × ℕ) : p ∈ pairs (List.range n) (List.range m) ↔ p.1 < n ∧ p.2 < m := by
  obtain ⟨i, j⟩ := p
  simp [pairs]

theorem pairs_length (n m : ℕ) : (pairs (List.range n) (List.range m)).length = n * m := by
  unfold pairs
  rw [Compose.flatMap_len]

theorem ready {m1 m2 : PCTMC K} {l1 l2 : List String} {s1 s2 : List (Sync K)} (h1 : Ok m1 l1 s1) (h2 : Ok m2 l2 s2)
    (hsize : l2.length ≤ l1.length + 1) : Compose.Ready (ctx m1 m2) l1 l2 :=
  ⟨⟨h1.lab, h1.noinit⟩, ⟨h2.lab, h2.noinit⟩, hsize⟩

theorem Ok.nb {M : PCTMC K} {l : List String} {S : List (Sync K)} (h : Ok M l S) : M.nb = l.length + 1 := by
  have := h.wf.labels
  rw [h.lab] at this
  simpa [PCTMC.nb] using this.symm

theorem Ok.rate_entry_zero {M : PCTMC K} {l : List String} {S : List (Sync K)} (h : Ok M l S) {i j : ℕ} (h0 : entry M i j = 0) :
    M.rateExpr i j = .num 0 := by
  unfold rateExpr
  unfold entry at h0
  rw [h0, List.getD_eq_getElem?_getD, h.zero]
  rfl

/-- The cells of the transitions of the two components. -/
theorem locals_spec {m1 m2 : PCTMC K} {l1 l2 : List String} {s1 s2 : List (Sync K)} (h1 : Ok m1 l1 s1) (h2 : Ok m2 l2 s2)
    (hsize : l2.length ≤ l1.length + 1) {order : List String} (ho : IsOrder m1 m2 order)
    (hsmall : 1 + l1.length * l1.length + l2.length * l2.length + l1.length * l2.length ≤ 65536) :
    ∃ B, locals m1 m2 order = .ok B ∧ BInv (l1.length * l2.length + 1) order B ∧
      B.exprs.length ≤ 1 + l1.length * l1.length + l2.length * l2.length + l1.length * l2.length ∧
      (∀ i j i' j', i < l1.length → j < l2.length → i' < l1.length → j' < l2.length →
        cellE B (i * l2.length + j) (i' * l2.length + j') =
          if i = i' ∧ j = j' ∧ entry m1 i i ≠ 0 ∧ entry m2 j j ≠ 0 then .add (m1.rateExpr i i) (m2.rateExpr j j)
          else if i = i' then m2.rateExpr j j'
          else if j = j' then m1.rateExpr i i' else .num 0) ∧
      (∀ x y, l1.length * l2.length ≤ x ∨ l1.length * l2.length ≤ y → cellE B x y = .num 0) := by
  have h := ready h1 h2 hsize
  have hn1 := h1.nb
  have hn2 := h2.nb
  have hI0 : BInv (l1.length * l2.length + 1) order (Build.empty order : Build K) :=
    { mat := fun x y => by simp [Build.empty]
      decl := by
        intro e he p hp
        simp only [Build.empty, List.mem_singleton] at he
        subst he
        cases hp
      len := by simp [Build.empty]
      inR := by
        intro l hl q hq
        simp only [Build.empty, List.mem_map] at hl
        obtain ⟨_, _, rfl⟩ := hl
        simp at hq
      zero := by simp [Build.empty]
      nz := fun x y _ => rfl }
  unfold locals
  rw [h.sids1, h.sids2]
  obtain ⟨B1, a1, a2, a3, a4⟩ := foldlM_steps (step1 m1 m2 order) (fun p => m1.rateExpr p.1 p.2)
    (fun p => (List.range l2.length).map (fun k => (p.1 * l2.length + k, p.2 * l2.length + k)))
    (pairs (List.range l1.length) (List.range l1.length))
    (by
      intro B hB hs p hp
      obtain ⟨hp1, hp2⟩ := (mem_pairs p).1 hp
      unfold step1
      rw [m1.transitionExpression_eq h1.wf (by omega) (by omega), h.sids2]
      have e : (List.range l2.length).map (fun k => ((ctx m1 m2).idx p.1 k, (ctx m1 m2).idx p.2 k)) =
          (List.range l2.length).map (fun k => (p.1 * l2.length + k, p.2 * l2.length + k)) :=
        List.map_congr_left (fun k hk => by rw [h.idx hp1 (List.mem_range.1 hk), h.idx hp2 (List.mem_range.1 hk)])
      rw [e]
      refine addTransition_step hB (fun q hq => (ho.2 q).2 (Or.inl (h1.wf.declared _ (m1.rateExpr_mem h1.wf (by omega) (by omega)) q hq))) ?_ hs
      intro q hq
      obtain ⟨k, hk, rfl⟩ := List.mem_map.1 hq
      have := pair_lt hp1 (List.mem_range.1 hk)
      have := pair_lt hp2 (List.mem_range.1 hk)
      exact ⟨by omega, by omega⟩)
    (Build.empty order) hI0 (by rw [pairs_length]; simp [Build.empty]; omega)
  rw [pairs_length] at a3
  have hle : (Build.empty order : Build K).exprs.length = 1 := rfl
  obtain ⟨B2, b1, b2, b3, b4⟩ := foldlM_steps (step2 m1 m2 order) (fun p => m2.rateExpr p.1 p.2)
    (fun p => (List.range l1.length).map (fun k => (k * l2.length + p.1, k * l2.length + p.2)))
    (pairs (List.range l2.length) (List.range l2.length))
    (by
      intro B hB hs p hp
      obtain ⟨hp1, hp2⟩ := (mem_pairs p).1 hp
      unfold step2
      rw [m2.transitionExpression_eq h2.wf (by omega) (by omega), h.sids1]
      have e : (List.range l1.length).map (fun k => ((ctx m1 m2).idx k p.1, (ctx m1 m2).idx k p.2)) =
          (List.range l1.length).map (fun k => (k * l2.length + p.1, k * l2.length + p.2)) :=
        List.map_congr_left (fun k hk => by rw [h.idx (List.mem_range.1 hk) hp1, h.idx (List.mem_range.1 hk) hp2])
      rw [e]
      refine addTransition_step hB (fun q hq => (ho.2 q).2 (Or.inr (h2.wf.declared _ (m2.rateExpr_mem h2.wf (by omega) (by omega)) q hq))) ?_ hs
      intro q hq
      obtain ⟨k, hk, rfl⟩ := List.mem_map.1 hq
      have := pair_lt (List.mem_range.1 hk) hp1
      have := pair_lt (List.mem_range.1 hk) hp2
      exact ⟨by omega, by omega⟩)
    B1 a2 (by rw [pairs_length]; omega)
  rw [pairs_length] at b3
  obtain ⟨B3, d1, d2, d3, d4⟩ := foldlM_steps (N := l1.length * l2.length + 1) (names := order) (loopStep m1 m2)
    (fun p => .add (m1.rateExpr p.1 p.1) (m2.rateExpr p.2 p.2))
    (fun p => if entry m1 p.1 p.1 ≠ 0 ∧ entry m2 p.2 p.2 ≠ 0 then [(p.1 * l2.length + p.2, p.1 * l2.length + p.2)] else [])
    (pairs (List.range l1.length) (List.range l2.length))
    (by
      intro B hB hs p hp
      obtain ⟨hp1, hp2⟩ := (mem_pairs p).1 hp
      unfold loopStep
      by_cases hc : entry m1 p.1 p.1 ≠ 0 ∧ entry m2 p.2 p.2 ≠ 0
      · simp only [if_pos hc]
        rw [m1.transitionExpression_eq h1.wf (by omega) (by omega), m2.transitionExpression_eq h2.wf (by omega) (by omega), h.idx hp1 hp2]
        refine ⟨_, rfl, step_of hB (t := (addExpr B.exprs (.add (m1.rateExpr p.1 p.1) (m2.rateExpr p.2 p.2))).idxOf (.add (m1.rateExpr p.1 p.1) (m2.rateExpr p.2 p.2)))
          ?_ (addExpr_idx _ _) (fun s hs => addExpr_old _ _ hs) (addExpr_length _ _).2 hs (fun x hx => addExpr_mem hx) ?_ hB.len hB.inR (by intro h; cases h)⟩
        · intro x y
          simp [setEntry]
        · intro q hq
          cases hq with
          | addL _ _ hq => exact (ho.2 q).2 (Or.inl (h1.wf.declared _ (m1.rateExpr_mem h1.wf (by omega) (by omega)) q hq))
          | addR _ _ hq => exact (ho.2 q).2 (Or.inr (h2.wf.declared _ (m2.rateExpr_mem h2.wf (by omega) (by omega)) q hq))
      · simp only [if_neg hc]
        exact ⟨B, rfl, hB, by omega, fun x y => by simp⟩)
    B2 b2 (by rw [pairs_length]; omega)
  rw [pairs_length] at d3
  refine ⟨B3, ?_, d2, by omega, ?_, ?_⟩
  · simp only [a1, b1, bind, Except.bind]
    exact d1
  · intro i j i' j' hi hj hi' hj'
    rw [d4, foldl_const _ _ _ _ (.add (m1.rateExpr i i) (m2.rateExpr j j))]
    swap
    · intro p hp hc
      obtain ⟨hp1, hp2⟩ := (mem_pairs p).1 hp
      split at hc
      · simp only [List.mem_singleton, Prod.mk.injEq] at hc
        obtain ⟨e1, e2⟩ := pair_inj hj hp2 hc.1
        rw [e1, e2]
      · simp at hc
    have hc : (∃ a ∈ pairs (List.range l1.length) (List.range l2.length), (i * l2.length + j, i' * l2.length + j') ∈
        (if entry m1 a.1 a.1 ≠ 0 ∧ entry m2 a.2 a.2 ≠ 0 then [(a.1 * l2.length + a.2, a.1 * l2.length + a.2)] else [])) ↔
        (i = i' ∧ j = j' ∧ entry m1 i i ≠ 0 ∧ entry m2 j j ≠ 0) := by
      constructor
      · rintro ⟨p, hp, hc⟩
        obtain ⟨hp1, hp2⟩ := (mem_pairs p).1 hp
        split at hc
        · rename_i hd
          simp only [List.mem_singleton, Prod.mk.injEq] at hc
          obtain ⟨e1, e2⟩ := pair_inj hj hp2 hc.1
          obtain ⟨e3, e4⟩ := pair_inj hj' hp2 hc.2
          rw [e1, e2, e3, e4]
          exact ⟨rfl, rfl, hd⟩
        · simp at hc
      · rintro ⟨rfl, rfl, hd⟩
        refine ⟨(i, j), (mem_pairs _).2 ⟨hi, hj⟩, ?_⟩
        simp only [if_pos hd]
        simp
    simp only [hc]
    congr 1
    rw [b4, foldl_const _ _ _ _ (m2.rateExpr j j')]
    swap
    · intro p hp hc
      obtain ⟨hp1, hp2⟩ := (mem_pairs p).1 hp
      obtain ⟨k, hk, he⟩ := List.mem_map.1 hc
      simp only [Prod.mk.injEq] at he
      obtain ⟨_, e2⟩ := pair_inj hp1 hj he.1
      obtain ⟨_, e4⟩ := pair_inj hp2 hj' he.2
      rw [e2, e4]
    have hc2 : (∃ a ∈ pairs (List.range l2.length) (List.range l2.length), (i * l2.length + j, i' * l2.length + j') ∈
        ((List.range l1.length).map (fun k => (k * l2.length + a.1, k * l2.length + a.2)))) ↔ i = i' := by
      constructor
      · rintro ⟨p, hp, hc⟩
        obtain ⟨hp1, hp2⟩ := (mem_pairs p).1 hp
        obtain ⟨k, hk, he⟩ := List.mem_map.1 hc
        simp only [Prod.mk.injEq] at he
        rw [← (pair_inj hp1 hj he.1).1, ← (pair_inj hp2 hj' he.2).1]
      · rintro rfl
        exact ⟨(j, j'), (mem_pairs _).2 ⟨hj, hj'⟩, List.mem_map.2 ⟨i, List.mem_range.2 hi, rfl⟩⟩
    simp only [hc2]
    congr 1
    rw [a4, foldl_const _ _ _ _ (m1.rateExpr i i')]
    swap
    · intro p hp hc
      obtain ⟨hp1, hp2⟩ := (mem_pairs p).1 hp
      obtain ⟨k, hk, he⟩ := List.mem_map.1 hc
      simp only [Prod.mk.injEq] at he
      rw [(pair_inj (List.mem_range.1 hk) hj he.1).1, (pair_inj (List.mem_range.1 hk) hj' he.2).1]
    have hc3 : (∃ a ∈ pairs (List.range l1.length) (List.range l1.length), (i * l2.length + j, i' * l2.length + j') ∈
        ((List.range l2.length).map (fun k => (a.1 * l2.length + k, a.2 * l2.length + k)))) ↔ j = j' := by
      constructor
      · rintro ⟨p, hp, hc⟩
        obtain ⟨hp1, hp2⟩ := (mem_pairs p).1 hp
        obtain ⟨k, hk, he⟩ := List.mem_map.1 hc
        simp only [Prod.mk.injEq] at he
        rw [← (pair_inj (List.mem_range.1 hk) hj he.1).2, ← (pair_inj (List.mem_range.1 hk) hj' he.2).2]
      · rintro rfl
        exact ⟨(i, i'), (mem_pairs _).2 ⟨hi, hi'⟩, List.mem_map.2 ⟨j, List.mem_range.2 hj, rfl⟩⟩
    simp only [hc3]
    rfl
  · intro x y hxy
    rw [d4, foldl_const _ _ _ _ (.num 0), if_neg, b4, foldl_const _ _ _ _ (.num 0), if_neg, a4, foldl_const _ _ _ _ (.num 0), if_neg]
    · rfl
    all_goals first
      | (rintro ⟨p, hp, hc⟩
         obtain ⟨hp1, hp2⟩ := (mem_pairs p).1 hp
         first
           | (obtain ⟨k, hk, he⟩ := List.mem_map.1 hc
              simp only [Prod.mk.injEq] at he
              first
                | (have := pair_lt hp1 (List.mem_range.1 hk)
                   have := pair_lt hp2 (List.mem_range.1 hk)
                   omega)
                | (have := pair_lt (List.mem_range.1 hk) hp1
                   have := pair_lt (List.mem_range.1 hk) hp2
                   omega))
           | (split at hc
              · simp only [List.mem_singleton, Prod.mk.injEq] at hc
                have := pair_lt hp1 hp2
                omega
              · simp at hc))
      | (intro p hp hc
         exfalso
         obtain ⟨hp1, hp2⟩ := (mem_pairs p).1 hp
         first
           | (obtain ⟨k, hk, he⟩ := List.mem_map.1 hc
              simp only [Prod.mk.injEq] at he
              first
                | (have := pair_lt hp1 (List.mem_range.1 hk)
                   have := pair_lt hp2 (List.mem_range.1 hk)
                   omega)
                | (have := pair_lt (List.mem_range.1 hk) hp1
                   have := pair_lt (List.mem_range.1 hk) hp2
                   omega))
           | (split at hc
              · simp only [List.mem_singleton, Prod.mk.injEq] at hc
                have := pair_lt hp1 hp2
                omega
              · simp at hc))

/-! ### The row of the initial state -/

theorem Ok.initVal {M : PCTMC K} {l : List String} {S : List (Sync K)} (h : Ok M l S) {ρ : String → K} (hρ : Extends ρ M.values) {j : ℕ}
    (hj : j < l.length) : (M.rateExpr l.length j).eval M.values = some ((M.rateExpr l.length j).den ρ) :=
  Expr.eval_some _ _ (h.initKnown j hj) ρ hρ

theorem initValues_eq {M : PCTMC K} {l : List String} {S : List (Sync K)} (h : Ok M l S) {ρ : String → K} (hρ : Extends ρ M.values) :
    initValues M [l.length] (List.range l.length) = .ok ((List.range l.length).map (fun j => (M.rateExpr l.length j).den ρ)) := by
  have hn := h.nb
  unfold initValues
  rw [List.foldlM_cons]
  have e : (List.range l.length).mapM (fun j => M.evaluate l.length j) =
      .ok ((List.range l.length).map (fun j => some ((M.rateExpr l.length j).den ρ))) := by
    refine mapM_range _ _ (fun j hj => ?_)
    rw [M.evaluate_eq h.wf (by omega) (by omega), h.initVal hρ hj]
  simp only [e, bind, Except.bind]
  rw [if_neg (by simp [List.any_map])]
  simp only [List.foldlM_nil, pure, Except.pure]
  congr 1
  apply List.ext_getElem
  · simp
  · intro i h1 h2
    simp

theorem addInit_spec {m1 m2 : PCTMC K} {l1 l2 : List String} {s1 s2 : List (Sync K)} (h1 : Ok m1 l1 s1) (h2 : Ok m2 l2 s2)
    (hsize : l2.length ≤ l1.length + 1) {order : List String} {B : Build K} (hI : BInv (l1.length * l2.length + 1) order B)
    (hsmall : B.exprs.length + l1.length * l2.length ≤ 65536) :
    ∃ B', addInit m1 m2 B = .ok B' ∧ BInv (l1.length * l2.length + 1) order B' ∧
      B'.exprs.length ≤ B.exprs.length + l1.length * l2.length ∧ B'.indexes.length = B.indexes.length ∧
      (∀ i j, i < l1.length → j < l2.length → ∃ v, cellE B' (l1.length * l2.length) (i * l2.length + j) = .num v ∧
        ∀ ρ, Extends ρ m1.values → Extends ρ m2.values → v = (m1.rateExpr l1.length i).den ρ * (m2.rateExpr l2.length j).den ρ) ∧
      (∀ x y, ¬ (x = l1.length * l2.length ∧ y < l1.length * l2.length) → cellE B' x y = cellE B x y) := by
  have h := ready h1 h2 hsize
  unfold addInit
  rw [h1.lab, h2.lab, Compose.inits_eq h1.noinit, Compose.inits_eq h2.noinit, h.sids1, h.sids2, initValues_eq h1 (valOf_extends _),
    initValues_eq h2 (valOf_extends _)]
  simp only [bind, Except.bind]
  set f1 := fun j => (m1.rateExpr l1.length j).den (valOf m1.values) with hf1
  set f2 := fun j => (m2.rateExpr l2.length j).den (valOf m2.values) with hf2
  have hz : ∀ (n : ℕ) (f : ℕ → K) x i, (x, i) ∈ ((List.range n).map f).zipIdx ↔ i < n ∧ x = f i := by
    intro n f x i
    rw [List.mk_mem_zipIdx_iff_getElem?, List.getElem?_map]
    by_cases hi : i < n
    · rw [List.getElem?_eq_getElem (by simpa using hi)]
      simp [hi, eq_comm]
    · rw [List.getElem?_eq_none (by simpa using hi)]
      simp [hi]
  have hmem : ∀ p, p ∈ ((List.range l1.length).map f1).zipIdx.flatMap (fun a => ((List.range l2.length).map f2).zipIdx.map (fun b => (a, b))) ↔
      (p.1.2 < l1.length ∧ p.1.1 = f1 p.1.2) ∧ p.2.2 < l2.length ∧ p.2.1 = f2 p.2.2 := by
    rintro ⟨⟨x, i⟩, ⟨y, j⟩⟩
    simp only [List.mem_flatMap, List.mem_map]
    constructor
    · rintro ⟨a, ha, b, hb, he⟩
      injection he with g1 g2
      subst g1; subst g2
      exact ⟨(hz _ _ x i).1 ha, (hz _ _ y j).1 hb⟩
    · rintro ⟨g1, g2⟩
      exact ⟨_, (hz _ _ x i).2 g1, _, (hz _ _ y j).2 g2, rfl⟩
  have hlen : (((List.range l1.length).map f1).zipIdx.flatMap (fun a => ((List.range l2.length).map f2).zipIdx.map (fun b => (a, b)))).length =
      l1.length * l2.length := by
    simp [List.length_flatMap, List.map_const']
  obtain ⟨B', e, i', g, c⟩ := foldlM_steps (N := l1.length * l2.length + 1) (names := order) (initStep m1 m2)
    (fun p => .num (p.1.1 * p.2.1)) (fun p => [(l1.length * l2.length, p.1.2 * l2.length + p.2.2)])
    (((List.range l1.length).map f1).zipIdx.flatMap (fun a => ((List.range l2.length).map f2).zipIdx.map (fun b => (a, b))))
    (by
      intro B hB hs p hp
      obtain ⟨⟨p1, _⟩, p2, _⟩ := (hmem p).1 hp
      unfold initStep
      rw [h.stateIndex p1 p2, h.nb]
      simp only [bind, Except.bind]
      by_cases h0 : p.1.1 * p.2.1 = 0
      · rw [if_pos h0, h0]
        refine ⟨_, rfl, step_of hB (t := 0) ?_ hB.zero (fun s _ => rfl) (by simp) hs (fun x hx => Or.inl hx) ?_ hB.len hB.inR (fun _ => rfl)⟩
        · intro x y
          simp [setEntry]
        · intro q hq
          cases hq
      · rw [if_neg h0]
        refine ⟨_, rfl, step_of hB (t := B.exprs.length) ?_ (by simp) ?_ (by simp) hs ?_ ?_ hB.len hB.inR ?_⟩
        · intro x y
          simp [setEntry]
        · intro s hs
          exact List.getElem?_append_left hs
        · intro x hx
          simpa using hx
        · intro q hq
          cases hq
        · intro he
          injection he with he
          exact absurd he h0)
    B hI (by rw [hlen]; exact hsmall)
  rw [hlen] at g
  refine ⟨B', e, i', g, by rw [i'.len, hI.len], ?_, ?_⟩
  · intro i j hi hj
    refine ⟨f1 i * f2 j, ?_, ?_⟩
    · rw [c, foldl_const _ _ _ _ (.num (f1 i * f2 j)), if_pos]
      · exact ⟨((f1 i, i), (f2 j, j)), (hmem _).2 ⟨⟨hi, rfl⟩, hj, rfl⟩, by simp⟩
      · intro p hp hc
        obtain ⟨⟨p1, q1⟩, p2, q2⟩ := (hmem p).1 hp
        simp only [List.mem_singleton, Prod.mk.injEq, true_and] at hc
        obtain ⟨e1, e2⟩ := pair_inj hj p2 hc
        rw [q1, q2, e1, e2]
    · intro ρ hρ1 hρ2
      have a1 := h1.initVal hρ1 hi
      rw [h1.initVal (valOf_extends _) hi] at a1
      have a2 := h2.initVal hρ2 hj
      rw [h2.initVal (valOf_extends _) hj] at a2
      rw [← Option.some.inj a1, ← Option.some.inj a2]
  · intro x y hxy
    rw [c, foldl_const _ _ _ _ (.num 0), if_neg]
    · rintro ⟨p, hp, hc⟩
      obtain ⟨⟨p1, q1⟩, p2, q2⟩ := (hmem p).1 hp
      simp only [List.mem_singleton, Prod.mk.injEq] at hc
      have := pair_lt p1 p2
      exact hxy ⟨hc.1, by omega⟩
    · intro p hp hc
      exfalso
      obtain ⟨⟨p1, q1⟩, p2, q2⟩ := (hmem p).1 hp
      simp only [List.mem_singleton, Prod.mk.injEq] at hc
      have := pair_lt p1 p2
      exact hxy ⟨hc.1, by omega⟩

/-! ### The synchronised transitions -/

theorem syncPairs_mem {s1 s2 : List (Sync K)} {p : Sync K × Sync K} :
    p ∈ syncPairs s1 s2 ↔ p.1 ∈ s1 ∧ p.2 ∈ s2 ∧ p.1.2.1 = p.2.2.1 := by
  obtain ⟨t, u⟩ := p
  unfold syncPairs
  simp only [List.mem_filter, List.mem_flatMap, List.mem_map, Prod.mk.injEq, decide_eq_true_eq]
  constructor
  · rintro ⟨⟨a, ha, b, hb, rfl, rfl⟩, h⟩
    exact ⟨ha, hb, h⟩
  · rintro ⟨ha, hb, h⟩
    exact ⟨⟨t, ha, u, hb, rfl, rfl⟩, h⟩

/-- The synchronised transition of a pair, when the second component has `n` states. -/
def joined (n : ℕ) (p : Sync K × Sync K) : Sync K :=
  (p.1.1 * n + p.2.1, p.1.2.1, p.1.2.2.1 * n + p.2.2.2.1, .mul p.1.2.2.2 p.2.2.2.2)

theorem syncs_eq {m1 m2 : PCTMC K} {l1 l2 : List String} {s1 s2 : List (Sync K)} (h1 : Ok m1 l1 s1) (h2 : Ok m2 l2 s2)
    (hsize : l2.length ≤ l1.length + 1) :
    (syncPairs s1 s2).mapM (syncOf m1 m2) = .ok ((syncPairs s1 s2).map (joined l2.length)) := by
  have h := ready h1 h2 hsize
  refine List.mapM_ok _ _ _ (fun p hp => ?_)
  obtain ⟨a1, a2, _⟩ := syncPairs_mem.1 hp
  unfold syncOf
  rw [h.stateIndex (h1.sync _ a1).1 (h2.sync _ a2).1, h.stateIndex (h1.sync _ a1).2 (h2.sync _ a2).2]
  rfl

theorem joined_den (l2 : List String) (s1 s2 : List (Sync K)) (ρ : String → K) (A B : Sys K)
    (hA : A.sync = s1.map (fun t => (t.1, t.2.1, t.2.2.1, t.2.2.2.den ρ)))
    (hB : B.sync = s2.map (fun t => (t.1, t.2.1, t.2.2.1, t.2.2.2.den ρ))) (hl : B.labels = l2) :
    ((syncPairs s1 s2).map (joined l2.length)).map (fun t => (t.1, t.2.1, t.2.2.1, t.2.2.2.den ρ)) = (A.prod B).sync := by
  subst hl
  unfold Sys.prod syncPairs
  simp only [hA, hB]
  clear hA hB
  induction s1 with
  | nil => rfl
  | cons t s1 ih =>
    rw [List.flatMap_cons, List.filter_append, List.map_append, List.map_append, ih, List.map_cons, List.flatMap_cons]
    congr 1
    clear ih
    induction s2 with
    | nil => rfl
    | cons u s2 ih =>
      rw [List.map_cons, List.map_cons, List.filterMap_cons, List.filter_cons]
      by_cases h : t.2.1 = u.2.1
      · rw [if_pos (by simpa using h), List.map_cons, List.map_cons, ih]
        simp only [if_pos h]
        rfl
      · simp only [h, decide_false, if_false, ← ih]
        rfl

theorem addSymbols_spec (names : List String) (e : Expr K) :
    (∀ n ∈ names, n ∈ addSymbols names e) ∧ (∀ p, e.Occurs p → symKey p ∈ addSymbols names e) ∧ names.length ≤ (addSymbols names e).length := by
  have : ∀ (ps : List String) (ns : List String),
      (∀ n ∈ ns, n ∈ ps.foldl (fun ns p => if symKey p ∈ ns then ns else ns ++ [symKey p]) ns) ∧
      (∀ p ∈ ps, symKey p ∈ ps.foldl (fun ns p => if symKey p ∈ ns then ns else ns ++ [symKey p]) ns) ∧
      ns.length ≤ (ps.foldl (fun ns p => if symKey p ∈ ns then ns else ns ++ [symKey p]) ns).length := by
    intro ps
    induction ps with
    | nil => intro ns; exact ⟨fun n h => h, by simp, by simp⟩
    | cons p ps ih =>
      intro ns
      rw [List.foldl_cons]
      obtain ⟨i1, i2, i3⟩ := ih (if symKey p ∈ ns then ns else ns ++ [symKey p])
      have hsub : ∀ n ∈ ns, n ∈ (if symKey p ∈ ns then ns else ns ++ [symKey p]) := by
        intro n hn
        split
        · exact hn
        · exact List.mem_append_left _ hn
      have hp : symKey p ∈ (if symKey p ∈ ns then ns else ns ++ [symKey p]) := by
        split
        · assumption
        · simp
      refine ⟨fun n hn => i1 n (hsub n hn), ?_, le_trans ?_ i3⟩
      · intro q hq
        rcases List.mem_cons.1 hq with rfl | hq
        · exact i1 _ hp
        · exact i2 q hq
      · split <;> simp
  obtain ⟨t1, t2, t3⟩ := this e.free names
  exact ⟨t1, fun p hp => t2 p ((Expr.mem_free e p).2 hp), t3⟩

theorem addSymbols_fold (ts : List (Sync K)) (names : List String) :
    (∀ n ∈ names, n ∈ ts.foldl (fun ns t => addSymbols ns t.2.2.2) names) ∧
    (∀ t ∈ ts, ∀ p, t.2.2.2.Occurs p → symKey p ∈ ts.foldl (fun ns t => addSymbols ns t.2.2.2) names) ∧
    names.length ≤ (ts.foldl (fun ns t => addSymbols ns t.2.2.2) names).length := by
  induction ts generalizing names with
  | nil => exact ⟨fun n h => h, by simp, by simp⟩
  | cons t ts ih =>
    rw [List.foldl_cons]
    obtain ⟨i1, i2, i3⟩ := ih (addSymbols names t.2.2.2)
    obtain ⟨a1, a2, a3⟩ := addSymbols_spec names t.2.2.2
    refine ⟨fun n hn => i1 n (a1 n hn), ?_, a3.trans i3⟩
    intro u hu p hp
    rcases List.mem_cons.1 hu with rfl | hu
    · exact i1 _ (a2 p hp)
    · exact i2 u hu p hp

/-! ### The composition of two models -/

/-- The systems have the same labels and synchronous transitions, and the same rates between their states. -/
structure Same (A B : Sys K) : Prop where
  labels : A.labels = B.labels
  rate : ∀ x y, x < A.labels.length → y < A.labels.length → A.rate x y = B.rate x y
  init : ∀ y < A.labels.length, A.init y = B.init y
  sync : A.sync = B.sync

theorem prod_labels_length (A B : Sys K) : (A.prod B).labels.length = A.labels.length * B.labels.length := by
  simp [Sys.prod, List.length_flatMap, List.map_const']

theorem Same.prod {A A' B B' : Sys K} (h : Same A A') (h' : Same B B') : Same (A.prod B) (A'.prod B') where
  labels := by simp only [Sys.prod, h.labels, h'.labels]
  rate := by
    intro x y hx hy
    rw [prod_labels_length] at hx hy
    have hp : 0 < B.labels.length := Nat.pos_of_mul_pos_left (by omega : 0 < A.labels.length * B.labels.length)
    simp only [Sys.prod]
    rw [← h'.labels, h.rate _ _ ((Nat.div_lt_iff_lt_mul hp).2 hx) ((Nat.div_lt_iff_lt_mul hp).2 hy),
      h'.rate _ _ (Nat.mod_lt _ hp) (Nat.mod_lt _ hp)]
  init := by
    intro y hy
    rw [prod_labels_length] at hy
    have hp : 0 < B.labels.length := Nat.pos_of_mul_pos_left (by omega : 0 < A.labels.length * B.labels.length)
    simp only [Sys.prod]
    rw [← h'.labels, h.init _ ((Nat.div_lt_iff_lt_mul hp).2 hy), h'.init _ (Nat.mod_lt _ hp)]
  sync := by simp only [Sys.prod, h.sync, h'.sync, h'.labels]

theorem Same.refl (A : Sys K) : Same A A := ⟨rfl, fun _ _ _ _ => rfl, fun _ _ => rfl, rfl⟩

theorem Same.trans {A B C : Sys K} (h : Same A B) (h' : Same B C) : Same A C :=
  ⟨h.labels.trans h'.labels, fun x y hx hy => (h.rate x y hx hy).trans (h'.rate x y (h.labels ▸ hx) (h.labels ▸ hy)),
    fun y hy => (h.init y hy).trans (h'.init y (h.labels ▸ hy)), h.sync.trans h'.sync⟩

/-- The labels of the composition. -/
def labs (l1 l2 : List String) : List String := l1.flatMap (fun a => l2.map (fun b => a ++ "," ++ b))

theorem labs_length (l1 l2 : List String) : (labs l1 l2).length = l1.length * l2.length := by
  simp [labs, List.length_flatMap, List.map_const']

theorem labs_noinit (l1 l2 : List String) : "init" ∉ labs l1 l2 := by
  intro h
  simp only [labs, List.mem_flatMap, List.mem_map] at h
  obtain ⟨a, _, b, _, he⟩ := h
  have h2 := congrArg (fun t : String => ',' ∈ t.toList) he
  simp [String.toList_append] at h2

theorem range_flatMap_getD {β : Type} (l l' : List String) (f : String → List β) :
    (List.range l.length).flatMap (fun i => f ((l ++ l').getD i "")) = l.flatMap f := by
  have e : (List.range l.length).map (fun i => (l ++ l').getD i "") = l := by
    apply List.ext_getElem
    · simp
    · intro i h1 h2
      rw [List.getElem_map, List.getElem_range, List.getD_eq_getElem?_getD, List.getElem?_append_left (by simpa using h2),
        List.getElem?_eq_getElem h2]
      rfl
  conv_rhs => rw [← e]
  rw [List.flatMap_map]

theorem range_map_getD {β : Type} (l l' : List String) (f : String → β) :
    (List.range l.length).map (fun i => f ((l ++ l').getD i "")) = l.map f := by
  have := range_flatMap_getD l l' (fun s => [f s])
  rw [List.map_eq_flatMap, this, ← List.map_eq_flatMap]

theorem labels_eq {m1 m2 : PCTMC K} {l1 l2 : List String} {s1 s2 : List (Sync K)} (h1 : Ok m1 l1 s1) (h2 : Ok m2 l2 s2)
    (hsize : l2.length ≤ l1.length + 1) : Compose.labels (ctx m1 m2) = labs l1 l2 ++ ["init"] := by
  have h := ready h1 h2 hsize
  unfold Compose.labels
  rw [h.sids1, h.sids2]
  congr 1
  show (List.range l1.length).flatMap (fun a => (List.range l2.length).map (fun b => m1.labelling.getD a "" ++ "," ++ m2.labelling.getD b "")) = _
  rw [h1.lab, h2.lab]
  have : ∀ a : String, (List.range l2.length).map (fun b => a ++ "," ++ (l2 ++ ["init"]).getD b "") = l2.map (fun b => a ++ "," ++ b) :=
    fun a => range_map_getD l2 ["init"] (fun b => a ++ "," ++ b)
  simp only [this]
  exact range_flatMap_getD l1 ["init"] (fun a => l2.map (fun b => a ++ "," ++ b))

variable [IsStrictOrderedRing K] [FloorRing K]

/-- What is needed of the composition of two models. -/
structure Composed (m1 m2 : PCTMC K) (l1 l2 : List String) (s1 s2 : List (Sync K)) (order : List String) (R : PCTMC K)
    (ts : List (Sync K)) : Prop where
  ok : Ok R (labs l1 l2) ts
  inR : R.IndexesInRange
  len : R.indexes.length = R.names.length
  values : R.values = m1.values
  small : R.exprs.length ≤ 1 + l1.length * l1.length + l2.length * l2.length + l1.length * l2.length + l1.length * l2.length
  isTs : ts = (syncPairs s1 s2).map (joined l2.length)
  keys : ∀ t ∈ ts, ∀ p, t.2.2.2.Occurs p → symKey p ∈ R.names
  names : ∀ p, p ∈ m1.names ∨ p ∈ m2.names → p ∈ R.names
  namesEq : R.names = ts.foldl (fun ns t => addSymbols ns t.2.2.2) order
  toInit : ∀ x, entry R x (l1.length * l2.length) = 0
  start : R.initialState = R.labelling.map (fun i => if i = "init" then 1 else 0)
  same : ∀ ρ, Extends ρ m1.values → Extends ρ m2.values →
    Same (sysOf R (labs l1 l2) ts ρ) ((sysOf m1 l1 s1 ρ).prod (sysOf m2 l2 s2 ρ))
  noLoop : (∀ j < l2.length, entry m2 j j = 0) → ∀ x < l1.length * l2.length, entry R x x = 0
  cell : ∀ i j i' j', i < l1.length → j < l2.length → i' < l1.length → j' < l2.length → ∀ p,
    (R.rateExpr (i * l2.length + j) (i' * l2.length + j')).Occurs p →
      (j = j' ∧ (m1.rateExpr i i').Occurs p) ∨ (i = i' ∧ (m2.rateExpr j j').Occurs p)

theorem compose2_spec {m1 m2 : PCTMC K} {l1 l2 : List String} {s1 s2 : List (Sync K)} (h1 : Ok m1 l1 s1) (h2 : Ok m2 l2 s2)
    (hsize : l2.length ≤ l1.length + 1) {order : List String} (ho : IsOrder m1 m2 order)
    (hsmall : 1 + l1.length * l1.length + l2.length * l2.length + l1.length * l2.length + l1.length * l2.length ≤ 65536)
    (hloop : ∀ i < l1.length, entry m1 i i ≠ 0 → ∀ j < l2.length, entry m2 j j ≠ 0) (dflt : List (Sync K)) :
    ∃ R ts, compose2 order m1 m2 s1 s2 dflt = .ok (R, ts) ∧ Composed m1 m2 l1 l2 s1 s2 order R ts := by
  have h := ready h1 h2 hsize
  obtain ⟨B1, a1, a2, a3, a4, a5⟩ := locals_spec h1 h2 hsize ho (by omega)
  obtain ⟨B, b1, b2, b3, b4, b5, b6⟩ := addInit_spec h1 h2 hsize a2 (by omega)
  obtain ⟨n1, n2, n3⟩ := addSymbols_fold ((syncPairs s1 s2).map (joined l2.length)) order
  set names := ((syncPairs s1 s2).map (joined l2.length)).foldl (fun ns t => addSymbols ns t.2.2.2) order with hnames
  set N := l1.length * l2.length + 1 with hN
  set mat := (List.range N).map (fun x => (List.range N).map (fun y => B.matrix x y)) with hmat
  have hent : ∀ x y, x < N → y < N → (mat.getD x []).getD y 0 = B.matrix x y := by
    intro x y hx hy
    simp [hmat, List.getD_eq_getElem?_getD, hx, hy]
  have hmlen : mat.length = N := by simp [hmat]
  have hsq : ∀ row ∈ mat, row.length = mat.length := by
    intro row hrow
    obtain ⟨x, _, rfl⟩ := List.mem_map.1 hrow
    simp [hmat]
  have hlablen : (labs l1 l2 ++ ["init"]).length = mat.length := by
    rw [hmlen, List.length_append, labs_length, hN]
    rfl
  have hidx : (B.indexes ++ List.replicate (names.length - order.length) []).length = names.length := by
    rw [List.length_append, List.length_replicate, b2.len]
    omega
  have hvals : (m1.values.map (fun q => (q.1, some q.2))).filterMap (fun p => p.2.map (fun x => (p.1, x))) = m1.values := by
    rw [List.filterMap_map]
    simp
  have hcount : (labs l1 l2 ++ ["init"]).count "init" = 1 := by
    rw [List.count_append, List.count_eq_zero.2 (labs_noinit l1 l2)]
    rfl
  have hok := (mkPCTMC_ok_iff mat (labs l1 l2 ++ ["init"]) B.exprs (m1.values.map (fun q => (q.1, some q.2)))
    (B.indexes ++ List.replicate (names.length - order.length) []) names dflt hsq
    (PCTMC.mk mat (labs l1 l2 ++ ["init"]) B.exprs m1.values (B.indexes ++ List.replicate (names.length - order.length) []) names
      ((labs l1 l2 ++ ["init"]).map (fun i => if i = "init" then 1 / ((labs l1 l2 ++ ["init"]).count "init" : K) else 0)) dflt)).2
    ⟨⟨by simp, hidx, ?_, hlablen⟩, rfl, rfl, rfl, rfl, rfl, rfl, hvals.symm, rfl⟩
  swap
  · intro row hrow t ht
    obtain ⟨x, _, rfl⟩ := List.mem_map.1 hrow
    obtain ⟨y, _, rfl⟩ := List.mem_map.1 ht
    exact b2.mat x y
  have hwf := mkPCTMC_wf _ _ _ _ _ _ _ hsq (fun x hx p hp => n1 p (b2.decl x hx p hp)) _ hok
  set R : PCTMC K := PCTMC.mk mat (labs l1 l2 ++ ["init"]) B.exprs m1.values (B.indexes ++ List.replicate (names.length - order.length) []) names
      ((labs l1 l2 ++ ["init"]).map (fun i => if i = "init" then 1 / ((labs l1 l2 ++ ["init"]).count "init" : K) else 0)) dflt with hR
  have hrate : ∀ x y, x < N → y < N → R.rateExpr x y = cellE B x y := by
    intro x y hx hy
    unfold rateExpr cellE
    rw [show R.matrix = mat from rfl, hent x y hx hy]
  have hentR : ∀ x y, x < N → y < N → entry R x y = B.matrix x y := fun x y hx hy => hent x y hx hy
  have hcell : ∀ i j i' j', i < l1.length → j < l2.length → i' < l1.length → j' < l2.length →
      R.rateExpr (i * l2.length + j) (i' * l2.length + j') =
        if i = i' ∧ j = j' ∧ entry m1 i i ≠ 0 ∧ entry m2 j j ≠ 0 then .add (m1.rateExpr i i) (m2.rateExpr j j)
          else if i = i' then m2.rateExpr j j'
          else if j = j' then m1.rateExpr i i' else .num 0 := by
    intro i j i' j' hi hj hi' hj'
    have := pair_lt hi hj
    have := pair_lt hi' hj'
    rw [hrate _ _ (by omega) (by omega), b6 _ _ (by omega), a4 i j i' j' hi hj hi' hj']
  have hinitE : ∀ i j, i < l1.length → j < l2.length → ∃ v, R.rateExpr (l1.length * l2.length) (i * l2.length + j) = .num v ∧
        ∀ ρ, Extends ρ m1.values → Extends ρ m2.values → v = (m1.rateExpr l1.length i).den ρ * (m2.rateExpr l2.length j).den ρ := by
    intro i j hi hj
    have := pair_lt hi hj
    rw [hrate _ _ (by omega) (by omega)]
    exact b5 i j hi hj
  have hsplit : ∀ x < l1.length * l2.length, x / l2.length < l1.length ∧ x % l2.length < l2.length ∧ x = x / l2.length * l2.length + x % l2.length := by
    intro x hx
    have hp : 0 < l2.length := Nat.pos_of_mul_pos_left (by omega : 0 < l1.length * l2.length)
    exact ⟨(Nat.div_lt_iff_lt_mul hp).2 hx, Nat.mod_lt _ hp, (Nat.div_add_mod' x l2.length).symm⟩
  have hsyncs : ∀ t ∈ (syncPairs s1 s2).map (joined l2.length), (t.1 < (labs l1 l2).length ∧ t.2.2.1 < (labs l1 l2).length) ∧
      ∀ p, t.2.2.2.Occurs p → p ∈ m1.names ∨ p ∈ m2.names := by
    intro t ht
    obtain ⟨q, hq, rfl⟩ := List.mem_map.1 ht
    obtain ⟨q1, q2, _⟩ := syncPairs_mem.1 hq
    rw [labs_length]
    refine ⟨⟨pair_lt (h1.sync _ q1).1 (h2.sync _ q2).1, pair_lt (h1.sync _ q1).2 (h2.sync _ q2).2⟩, ?_⟩
    intro p hp
    cases hp with
    | mulL _ _ hp => exact Or.inl (h1.syncDecl _ q1 p hp)
    | mulR _ _ hp => exact Or.inr (h2.syncDecl _ q2 p hp)
  refine ⟨R, (syncPairs s1 s2).map (joined l2.length), ?_, ?_⟩
  · unfold compose2
    rw [a1, syncs_eq h1 h2 hsize, h.nb, labels_eq h1 h2 hsize]
    simp only [bind, Except.bind, b1]
    rw [hok]
    rfl
  · exact {
      ok := {
        wf := hwf
        lab := rfl
        noinit := labs_noinit l1 l2
        zero := b2.zero
        initKnown := by
          intro y hy p hp
          rw [labs_length] at hy hp
          obtain ⟨e1, e2, e3⟩ := hsplit y hy
          obtain ⟨v, hv, _⟩ := hinitE _ _ e1 e2
          rw [e3, hv] at hp
          cases hp
        sync := fun t ht => (hsyncs t ht).1
        syncDecl := fun t ht p hp => n1 p ((ho.2 p).2 ((hsyncs t ht).2 p hp)) }
      inR := by
        intro l hl q hq
        rw [show R.indexes = B.indexes ++ List.replicate (names.length - order.length) [] from rfl] at hl
        rcases List.mem_append.1 hl with hl | hl
        · rw [show R.matrix.length = N from hmlen]
          exact b2.inR l hl q hq
        · rw [(List.mem_replicate.1 hl).2] at hq
          simp at hq
      len := hidx
      values := rfl
      small := by
        show B.exprs.length ≤ _
        omega
      isTs := rfl
      keys := n2
      names := fun p hp => n1 p ((ho.2 p).2 hp)
      namesEq := rfl
      toInit := by
        intro x
        by_cases hx : x < N
        · rw [hentR x _ hx (by omega)]
          refine b2.nz _ _ ?_
          rw [b6 _ _ (by omega)]
          exact a5 _ _ (Or.inr le_rfl)
        · unfold entry
          rw [List.getD_eq_getElem?_getD (l := R.matrix), List.getElem?_eq_none (by rw [show R.matrix.length = N from hmlen]; omega)]
          rfl
      start := by
        show (labs l1 l2 ++ ["init"]).map _ = (labs l1 l2 ++ ["init"]).map _
        rw [hcount]
        simp
      same := by
        intro ρ hρ1 hρ2
        refine ⟨rfl, ?_, ?_, ?_⟩
        · intro x y hx hy
          have hx : x < l1.length * l2.length := by rw [← labs_length]; exact hx
          have hy : y < l1.length * l2.length := by rw [← labs_length]; exact hy
          obtain ⟨x1, x2, x3⟩ := hsplit x hx
          obtain ⟨y1, y2, y3⟩ := hsplit y hy
          show (R.rateExpr x y).den ρ = (if x % l2.length = y % l2.length then (m1.rateExpr (x / l2.length) (y / l2.length)).den ρ else 0) +
            (if x / l2.length = y / l2.length then (m2.rateExpr (x % l2.length) (y % l2.length)).den ρ else 0)
          generalize x / l2.length = i at *
          generalize x % l2.length = j at *
          generalize y / l2.length = i' at *
          generalize y % l2.length = j' at *
          rw [x3, y3, hcell i j i' j' x1 x2 y1 y2]
          by_cases hii : i = i'
          · subst hii
            by_cases hjj : j = j'
            · subst hjj
              by_cases hl1 : entry m1 i i ≠ 0
              · rw [if_pos ⟨rfl, rfl, hl1, hloop i x1 hl1 j x2⟩, if_pos rfl, if_pos rfl]
                rfl
              · rw [if_neg (fun hc => hl1 hc.2.2.1), if_pos rfl, if_pos rfl, if_pos rfl, h1.rate_entry_zero (not_not.1 hl1), Expr.den, zero_add]
            · rw [if_neg (fun hc => hjj hc.2.1), if_pos rfl, if_neg hjj, if_pos rfl, zero_add]
          · rw [if_neg (fun hc => hii hc.1), if_neg hii, if_neg hii, add_zero]
            by_cases hjj : j = j'
            · rw [if_pos hjj, if_pos hjj]
            · rw [if_neg hjj, if_neg hjj]
              rfl
        · intro y hy
          have hy : y < l1.length * l2.length := by rw [← labs_length]; exact hy
          obtain ⟨y1, y2, y3⟩ := hsplit y hy
          show (R.rateExpr (labs l1 l2).length y).den ρ = (m1.rateExpr l1.length (y / l2.length)).den ρ * (m2.rateExpr l2.length (y % l2.length)).den ρ
          obtain ⟨v, hv, hv2⟩ := hinitE _ _ y1 y2
          rw [← hv2 ρ hρ1 hρ2, labs_length]
          conv_lhs => rw [y3]
          rw [hv]
          rfl
        · exact joined_den l2 s1 s2 ρ (sysOf m1 l1 s1 ρ) (sysOf m2 l2 s2 ρ) rfl rfl rfl
      noLoop := by
        intro hl x hx
        obtain ⟨x1, x2, x3⟩ := hsplit x hx
        rw [hentR x x (by omega) (by omega)]
        refine b2.nz _ _ ?_
        rw [b6 _ _ (by omega), x3, a4 _ _ _ _ x1 x2 x1 x2, if_neg (fun hc => hc.2.2.2 (hl _ x2)), if_pos rfl, h2.rate_entry_zero (hl _ x2)]
      cell := by
        intro i j i' j' hi hj hi' hj' p hp
        rw [hcell i j i' j' hi hj hi' hj'] at hp
        split at hp
        · rename_i hc
          obtain ⟨rfl, rfl, _⟩ := hc
          cases hp with
          | addL _ _ hp => exact Or.inl ⟨rfl, hp⟩
          | addR _ _ hp => exact Or.inr ⟨rfl, hp⟩
        · split at hp
          · rename_i hc
            subst hc
            exact Or.inr ⟨rfl, hp⟩
          · split at hp
            · rename_i hc
              subst hc
              exact Or.inl ⟨rfl, hp⟩
            · cases hp }

end Jajapy.PCompose
