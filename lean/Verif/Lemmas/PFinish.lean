import Verif.Lemmas.PCompose
import Verif.Props.PReduce

/-!
Lemmas on the last part of the composition of parametric CTMCs: the synchronised transitions and the removals.
-/

set_option linter.unusedSectionVars false

namespace Jajapy.PCompose

open PCTMC Spec
open Compose (pair_lt pair_inj)

variable {K : Type} [Field K] [LinearOrder K]

/-- A model to which the synchronised transitions are added. -/
structure FInv (l : List String) (M : PCTMC K) : Prop where
  wf : M.WF
  lab : M.labelling = l ++ ["init"]
  inR : M.IndexesInRange
  zero : M.exprs[0]? = some (.num 0)
  toInit : ∀ x, entry M x l.length = 0

theorem FInv.nb {l : List String} {M : PCTMC K} (h : FInv l M) : M.matrix.length = l.length + 1 := by
  have := h.wf.labels
  rw [h.lab] at this
  simpa using this.symm

theorem FInv.entry_zero {l : List String} {M : PCTMC K} (h : FInv l M) {i j : ℕ} (h0 : entry M i j = 0) : M.rateExpr i j = .num 0 := by
  unfold rateExpr
  unfold entry at h0
  rw [h0, List.getD_eq_getElem?_getD, h.zero]
  rfl

theorem recordAll_spec (names : List String) (cell : ℕ × ℕ) (ps : List String) (ix : List (List (ℕ × ℕ))) :
    (∀ ix', recordAll names cell ix ps = .ok ix' →
      ix'.length = ix.length ∧ (∀ l ∈ ix', ∀ q ∈ l, (∃ l' ∈ ix, q ∈ l') ∨ q = cell) ∧ ∀ p ∈ ps, symKey p ∈ names) ∧
    ((∀ p ∈ ps, symKey p ∈ names) → ∃ ix', recordAll names cell ix ps = .ok ix') ∧
    ((∃ p ∈ ps, symKey p ∉ names) → recordAll names cell ix ps = .error .valueError) := by
  unfold recordAll
  induction ps generalizing ix with
  | nil =>
    refine ⟨?_, fun _ => ⟨ix, rfl⟩, by simp⟩
    intro ix' h
    injection h with h
    subst h
    exact ⟨rfl, fun l hl q hq => Or.inl ⟨l, hl, hq⟩, by simp⟩
  | cons p ps ih =>
    rw [List.foldlM_cons]
    by_cases hp : symKey p ∈ names
    · rw [if_neg (not_not.2 hp)]
      simp only [bind, Except.bind]
      obtain ⟨i1, i2, i3⟩ := ih (ix.modify (names.idxOf (symKey p)) (fun l => l ++ [cell]))
      refine ⟨?_, fun h => i2 (fun q hq => h q (by simp [hq])), ?_⟩
      · intro ix' h
        obtain ⟨j1, j2, j3⟩ := i1 ix' h
        refine ⟨by rw [j1, List.length_modify], ?_, ?_⟩
        · intro l hl q hq
          rcases j2 l hl q hq with ⟨l', hl', hq'⟩ | h
          · obtain ⟨k, hk, he⟩ := List.getElem_of_mem hl'
            rw [List.getElem_modify] at he
            split at he
            · rw [← he, List.mem_append] at hq'
              rcases hq' with hq' | hq'
              · exact Or.inl ⟨_, List.getElem_mem _, hq'⟩
              · exact Or.inr (by simpa using hq')
            · rw [← he] at hq'
              exact Or.inl ⟨_, List.getElem_mem _, hq'⟩
          · exact Or.inr h
        · intro q hq
          rcases List.mem_cons.1 hq with rfl | hq
          · exact hp
          · exact j3 q hq
      · rintro ⟨q, hq, hn⟩
        rcases List.mem_cons.1 hq with rfl | hq
        · exact absurd hp hn
        · exact i3 ⟨q, hq, hn⟩
    · rw [if_pos hp]
      refine ⟨?_, fun h => absurd (h p (by simp)) hp, fun _ => rfl⟩
      intro ix' h
      cases h

theorem set_entry (m : List (List ℕ)) {i d : ℕ} (t : ℕ) (hi : i < m.length) (hd : d < (m.getD i []).length) (x y : ℕ) :
    ((m.set i ((m.getD i []).set d t)).getD x []).getD y 0 = if x = i ∧ y = d then t else (m.getD x []).getD y 0 := by
  by_cases hx : x = i
  · subst hx
    rw [List.getD_eq_getElem?_getD (l := m.set _ _), List.getElem?_set_self hi, Option.getD_some]
    by_cases hy : y = d
    · subst hy
      rw [if_pos ⟨rfl, rfl⟩, List.getD_eq_getElem?_getD, List.getElem?_set_self hd, Option.getD_some]
    · rw [if_neg (fun h => hy h.2), List.getD_eq_getElem?_getD, List.getElem?_set_ne (Ne.symm hy), ← List.getD_eq_getElem?_getD]
  · rw [if_neg (fun h => hx h.1), List.getD_eq_getElem?_getD (l := m.set _ _), List.getElem?_set_ne (Ne.symm hx), ← List.getD_eq_getElem?_getD]

/-- One synchronised transition. -/
theorem addSync_spec {l : List String} {M : PCTMC K} (h : FInv l M) {t : Sync K} (ht : t.1 < l.length ∧ t.2.2.1 < l.length)
    (hd : ∀ p, t.2.2.2.Occurs p → p ∈ M.names) (hs : M.exprs.length < 65536) :
    (∀ M', addSync M t = .ok M' → FInv l M' ∧ M'.names = M.names ∧ M'.values = M.values ∧ M'.initialState = M.initialState ∧
      M'.exprs.length ≤ M.exprs.length + 1 ∧
      (∀ x y ρ, (M'.rateExpr x y).den ρ = (M.rateExpr x y).den ρ + if t.1 = x ∧ t.2.2.1 = y then t.2.2.2.den ρ else 0) ∧
      (∀ x y p, (M'.rateExpr x y).Occurs p → (M.rateExpr x y).Occurs p ∨ (t.1 = x ∧ t.2.2.1 = y ∧ t.2.2.2.Occurs p))) ∧
    ((∀ p, (M.rateExpr t.1 t.2.2.1).Occurs p → symKey p ∈ M.names) → (∀ p, t.2.2.2.Occurs p → symKey p ∈ M.names) →
      ∃ M', addSync M t = .ok M') := by
  have hn := h.nb
  have ht1 : t.1 < M.nb := by rw [PCTMC.nb, hn]; omega
  have ht2 : t.2.2.1 < M.nb := by rw [PCTMC.nb, hn]; omega
  have hmem := M.rateExpr_mem h.wf ht1 ht2
  obtain ⟨e, he, heden, heocc, he0⟩ : ∃ e, syncExpr M t = .ok e ∧ (∀ ρ, e.den ρ = (M.rateExpr t.1 t.2.2.1).den ρ + t.2.2.2.den ρ) ∧
      (∀ p, e.Occurs p → (M.rateExpr t.1 t.2.2.1).Occurs p ∨ t.2.2.2.Occurs p) ∧ True := by
    unfold syncExpr
    by_cases h0 : entry M t.1 t.2.2.1 ≠ 0
    · rw [if_pos h0, M.transitionExpression_eq h.wf ht1 ht2]
      refine ⟨_, rfl, fun ρ => ?_, ?_, trivial⟩
      · rw [Expr.den, add_comm]
      · intro p hp
        cases hp with
        | addL _ _ hp => exact Or.inr hp
        | addR _ _ hp => exact Or.inl hp
    · rw [if_neg h0]
      refine ⟨_, rfl, fun ρ => ?_, fun p hp => Or.inr hp, trivial⟩
      rw [h.entry_zero (not_not.1 h0), Expr.den, zero_add]
  obtain ⟨r1, r2, r3⟩ := recordAll_spec M.names (t.1, t.2.2.1) e.free M.indexes
  unfold addSync
  rw [he]
  simp only [bind, Except.bind]
  constructor
  · intro M' hM'
    cases hr : recordAll M.names (t.1, t.2.2.1) M.indexes e.free with
    | error er => rw [hr] at hM'; simp at hM'
    | ok ix =>
      rw [hr] at hM'
      simp only [pure, Except.pure, Except.ok.injEq] at hM'
      obtain ⟨q1, q2, q3⟩ := r1 ix hr
      have hmod : (addExpr M.exprs e).idxOf e % 65536 = (addExpr M.exprs e).idxOf e := by
        apply Nat.mod_eq_of_lt
        have := List.idxOf_lt_length_of_mem (mem_addExpr M.exprs e)
        have := (addExpr_length M.exprs e).2
        omega
      rw [hmod] at hM'
      have hrow : (M.matrix.getD t.1 []).length = M.matrix.length := by
        rw [List.getD_eq_getElem?_getD, List.getElem?_eq_getElem ht1]
        exact h.wf.square _ (List.getElem_mem _)
      have hent : ∀ x y, entry M' x y = if x = t.1 ∧ y = t.2.2.1 then (addExpr M.exprs e).idxOf e else entry M x y := by
        intro x y
        rw [← hM']
        exact set_entry M.matrix _ ht1 (by rw [hrow]; exact ht2) x y
      have hlen : M'.matrix.length = M.matrix.length := by rw [← hM']; simp
      have hsq : ∀ row ∈ M'.matrix, row.length = M'.matrix.length := by
        intro row hrow'
        rw [hlen]
        rw [← hM'] at hrow'
        rcases List.mem_or_eq_of_mem_set hrow' with h2 | rfl
        · exact h.wf.square _ h2
        · rw [List.length_set]; exact hrow
      have hex : M'.exprs = addExpr M.exprs e := by rw [← hM']
      have hlt : ∀ x y, entry M x y < M.exprs.length := by
        intro x y
        have hz : 0 < M.exprs.length := (List.getElem?_eq_some_iff.1 h.zero).1
        unfold entry
        rw [List.getD_eq_getElem?_getD]
        cases hy : (M.matrix.getD x [])[y]? with
        | none => simpa using hz
        | some v =>
          rw [Option.getD_some]
          rw [List.getD_eq_getElem?_getD] at hy
          cases hx : M.matrix[x]? with
          | none => rw [hx] at hy; simp at hy
          | some r =>
            rw [hx, Option.getD_some] at hy
            exact h.wf.bound r (List.mem_of_getElem? hx) v (List.mem_of_getElem? hy)
      have hrate : ∀ x y, M'.rateExpr x y = if x = t.1 ∧ y = t.2.2.1 then e else M.rateExpr x y := by
        intro x y
        have h3 := hent x y
        unfold entry at h3
        unfold rateExpr
        rw [h3, hex]
        split
        · rw [List.getD_eq_getElem?_getD, addExpr_idx]
          rfl
        · rw [List.getD_eq_getElem?_getD]
          show (addExpr M.exprs e)[entry M x y]?.getD _ = _
          rw [addExpr_old _ _ (hlt x y), ← List.getD_eq_getElem?_getD]
          rfl
      refine ⟨⟨⟨hsq, ?_, ?_, ?_, ?_⟩, ?_, ?_, ?_, ?_⟩, by rw [← hM'], by rw [← hM'], by rw [← hM'], by rw [hex]; exact (addExpr_length _ _).2, ?_, ?_⟩
      · rw [hlen, ← hM']; exact h.wf.labels
      · rw [hlen, ← hM']; exact h.wf.init
      · intro row hrow' v hv
        obtain ⟨x, hx, rfl⟩ := List.getElem_of_mem hrow'
        obtain ⟨y, hy, rfl⟩ := List.getElem_of_mem hv
        have h3 : M'.matrix[x][y] = entry M' x y := by
          unfold entry
          rw [List.getD_eq_getElem?_getD (l := M'.matrix), List.getElem?_eq_getElem hx, Option.getD_some, List.getD_eq_getElem?_getD,
            List.getElem?_eq_getElem hy]
          rfl
        rw [h3, hent, hex]
        split
        · exact List.idxOf_lt_length_of_mem (mem_addExpr _ _)
        · exact lt_of_lt_of_le (hlt x y) (addExpr_length _ _).1
      · intro x hx p hp
        rw [hex] at hx
        rw [← hM']
        rcases addExpr_mem hx with hx | rfl
        · exact h.wf.declared x hx p hp
        · rcases heocc p hp with hp | hp
          · exact h.wf.declared _ hmem p hp
          · exact hd p hp
      · rw [← hM']; exact h.lab
      · intro l' hl' q hq
        rw [hlen]
        rw [show M'.indexes = ix by rw [← hM']] at hl'
        rcases q2 l' hl' q hq with ⟨l2, hl2, hq2⟩ | rfl
        · exact h.inR l2 hl2 q hq2
        · exact ⟨ht1, ht2⟩
      · rw [hex, addExpr_old _ _ (List.getElem?_eq_some_iff.1 h.zero).1, h.zero]
      · intro x
        rw [hent, if_neg (by omega), h.toInit]
      · intro x y ρ
        rw [hrate]
        by_cases hc : x = t.1 ∧ y = t.2.2.1
        · rw [if_pos hc, if_pos ⟨hc.1.symm, hc.2.symm⟩, heden, hc.1, hc.2]
        · rw [if_neg hc, if_neg (fun h => hc ⟨h.1.symm, h.2.symm⟩), add_zero]
      · intro x y p hp
        rw [hrate] at hp
        by_cases hc : x = t.1 ∧ y = t.2.2.1
        · rw [if_pos hc] at hp
          rw [hc.1, hc.2]
          rcases heocc p hp with hp | hp
          · exact Or.inl hp
          · exact Or.inr ⟨rfl, rfl, hp⟩
        · rw [if_neg hc] at hp
          exact Or.inl hp
  · intro h1 h2
    obtain ⟨ix, hix⟩ := r2 (fun p hp => by
      rcases heocc p ((Expr.mem_free e p).1 hp) with hp | hp
      · exact h1 p hp
      · exact h2 p hp)
    rw [hix]
    exact ⟨_, rfl⟩

/-- All the synchronised transitions. -/
theorem addSyncs_spec {l : List String} (ts : List (Sync K)) {M : PCTMC K} (h : FInv l M)
    (ht : ∀ t ∈ ts, t.1 < l.length ∧ t.2.2.1 < l.length) (hd : ∀ t ∈ ts, ∀ p, t.2.2.2.Occurs p → p ∈ M.names)
    (hs : M.exprs.length + ts.length ≤ 65536) :
    (∀ M', ts.foldlM addSync M = .ok M' → FInv l M' ∧ M'.names = M.names ∧ M'.values = M.values ∧ M'.initialState = M.initialState ∧
      (∀ x y ρ, (M'.rateExpr x y).den ρ = (M.rateExpr x y).den ρ + (ts.map (fun t => if t.1 = x ∧ t.2.2.1 = y then t.2.2.2.den ρ else 0)).sum)) ∧
    ((∀ t ∈ ts, ∀ p, (M.rateExpr t.1 t.2.2.1).Occurs p → symKey p ∈ M.names) → (∀ t ∈ ts, ∀ p, t.2.2.2.Occurs p → symKey p ∈ M.names) →
      ∃ M', ts.foldlM addSync M = .ok M') := by
  induction ts generalizing M with
  | nil =>
    refine ⟨?_, fun _ _ => ⟨M, rfl⟩⟩
    intro M' hM'
    injection hM' with hM'
    subst hM'
    exact ⟨h, rfl, rfl, rfl, fun x y ρ => by simp⟩
  | cons t ts ih =>
    rw [List.length_cons] at hs
    obtain ⟨a1, a2⟩ := addSync_spec h (ht t (by simp)) (hd t (by simp)) (by omega)
    constructor
    · intro M' hM'
      rw [List.foldlM_cons] at hM'
      cases hM1 : addSync M t with
      | error e => rw [hM1] at hM'; cases hM'
      | ok M1 =>
        rw [hM1] at hM'
        obtain ⟨b1, b2, b3, b4, b5, b6, _⟩ := a1 M1 hM1
        obtain ⟨i1, _⟩ := ih b1 (fun u hu => ht u (by simp [hu])) (fun u hu p hp => by rw [b2]; exact hd u (by simp [hu]) p hp) (by omega)
        obtain ⟨c1, c2, c3, c4, c5⟩ := i1 M' hM'
        refine ⟨c1, c2.trans b2, c3.trans b3, c4.trans b4, fun x y ρ => ?_⟩
        rw [c5, b6, List.map_cons, List.sum_cons, add_assoc]
    · intro k1 k2
      obtain ⟨M1, hM1⟩ := a2 (k1 t (by simp)) (k2 t (by simp))
      obtain ⟨b1, b2, b3, b4, b5, b6, b7⟩ := a1 M1 hM1
      obtain ⟨_, i2⟩ := ih b1 (fun u hu => ht u (by simp [hu])) (fun u hu p hp => by rw [b2]; exact hd u (by simp [hu]) p hp) (by omega)
      rw [Compose.foldlM_cons_ok hM1]
      refine i2 ?_ ?_
      · intro u hu p hp
        rw [b2]
        rcases b7 _ _ p hp with hp | ⟨_, _, hp⟩
        · exact k1 u (by simp [hu]) p hp
        · exact k2 t (by simp) p hp
      · intro u hu p hp
        rw [b2]
        exact k2 u (by simp [hu]) p hp

/-- After the removal of expressions that are not used, the indexes are still those of expressions. -/
theorem dropAll_bound (order : List ℕ) (M : PCTMC K) (hb : ∀ row ∈ M.matrix, ∀ t ∈ row, t < M.exprs.length)
    (hlt : ∀ t ∈ order, t < M.exprs.length) (hu : ∀ row ∈ M.matrix, ∀ x ∈ row, x ∉ order) (hn : order.Nodup) :
    ∀ row ∈ (dropAll order M).matrix, ∀ t ∈ row, t < (dropAll order M).exprs.length := by
  induction hl : order.length generalizing order M with
  | zero =>
    rw [List.length_eq_zero_iff] at hl
    subst hl
    rw [dropAll]
    exact hb
  | succ m ih =>
    cases order with
    | nil => simp at hl
    | cons i order =>
      rw [dropAll]
      have hio : i ∉ order := (List.nodup_cons.1 hn).1
      have hil := hlt i (by simp)
      have hlen : (M.dropExpr i).exprs.length = M.exprs.length - 1 := by
        simp only [dropExpr, List.length_eraseIdx, if_pos hil]
      refine ih _ _ ?_ ?_ ?_ ?_ (by simpa using hl)
      · intro row hrow t ht
        obtain ⟨r, hr, rfl⟩ := List.mem_map.1 hrow
        obtain ⟨x, hx, rfl⟩ := List.mem_map.1 ht
        have h1 := hb r hr x hx
        have h2 : x ≠ i := fun e => hu r hr x hx (by simp [e])
        rw [hlen]
        split_ifs <;> omega
      · intro t ht
        obtain ⟨x, hx, rfl⟩ := List.mem_map.1 ht
        have h1 := hlt x (by simp [hx])
        have h2 : x ≠ i := fun e => hio (e ▸ hx)
        rw [hlen]
        split_ifs <;> omega
      · intro row hrow t ht hc
        obtain ⟨r, hr, rfl⟩ := List.mem_map.1 hrow
        obtain ⟨x, hx, rfl⟩ := List.mem_map.1 ht
        obtain ⟨y, hy, he⟩ := List.mem_map.1 hc
        have h2 : x ≠ i := fun e => hu r hr x hx (by simp [e])
        have h3 : y ≠ i := fun e => hio (e ▸ hy)
        have h4 : y = x := by
          split_ifs at he <;> omega
        exact hu r hr x hx (by simp [← h4, hy])
      · refine List.Nodup.map_on (fun x hx y hy he => ?_) (List.nodup_cons.1 hn).2
        have h2 : x ≠ i := fun e => hio (e ▸ hx)
        have h3 : y ≠ i := fun e => hio (e ▸ hy)
        split_ifs at he <;> omega

/-- The state number `x` of a composition with `n` states. -/
def dec (n x : ℕ) : Option ℕ := if x < n then some x else none

variable [IsStrictOrderedRing K]

/-- The last part of the composition. -/
theorem finish_spec {l : List String} {ts : List (Sync K)} {R : PCTMC K} (h : Ok R l ts) (hI : R.IndexesInRange)
    (hto : ∀ x, entry R x l.length = 0) (hstart : R.initialState = R.labelling.map (fun i => if i = "init" then 1 else 0))
    (hs : R.exprs.length + ts.length ≤ 65536) (perm : List ℕ → List ℕ) (hperm : ∀ k, (perm k).Perm k) :
    (∀ M, finish perm R ts = .ok M → M.WF ∧ M.values = R.values ∧ M.names = R.names ∧
      ∃ st, ∀ ρ, Realises M (sysOf R l ts ρ) ρ st) ∧
    ((∀ t ∈ ts, ∀ p, (R.rateExpr t.1 t.2.2.1).Occurs p → symKey p ∈ R.names) → (∀ t ∈ ts, ∀ p, t.2.2.2.Occurs p → symKey p ∈ R.names) →
      ∃ M, finish perm R ts = .ok M) := by
  have hF : FInv l R := ⟨h.wf, h.lab, hI, h.zero, hto⟩
  obtain ⟨a1, a2⟩ := addSyncs_spec ts hF h.sync h.syncDecl hs
  constructor
  swap
  · intro k1 k2
    obtain ⟨M1, hM1⟩ := a2 k1 k2
    unfold finish
    rw [hM1]
    exact ⟨_, rfl⟩
  intro M hM
  unfold finish at hM
  cases hM1 : ts.foldlM addSync R with
  | error e => rw [hM1] at hM; cases hM
  | ok M1 =>
  rw [hM1] at hM
  simp only [bind, Except.bind, pure, Except.pure, Except.ok.injEq] at hM
  obtain ⟨b1, b2, b3, b4, b5⟩ := a1 M1 hM1
  have hn := b1.nb
  obtain ⟨keep, k1, k2, k3⟩ := removeUnreachable_spec M1 b1.wf b1.inR
  obtain ⟨e1, e2⟩ := Compose.removeLoop_bound (fun M i => M.matrix.all (fun row => row.getD i 0 == 0) && decide (M.labelling.getD i "" ≠ "init")) M1 0 _ b1.wf.bound
  have e1 : M1.removeUnreachable.exprs = M1.exprs := e1
  have e2 : ∀ row ∈ M1.removeUnreachable.matrix, ∀ t ∈ row, t < M1.exprs.length := e2
  set M2 := M1.removeUnreachable with hM2
  have hwf2 : M2.WF := ⟨k1.square, by rw [k1.labels, List.length_map, k1.size], by rw [k1.init, List.length_map, k1.size],
    by rw [e1]; exact e2, by rw [e1, k1.names]; exact b1.wf.declared⟩
  have huses := M2.uses_iff hwf2.square
  obtain ⟨d1, d2, d3⟩ := removeUnusedTrans_spec M2 hwf2 (perm (unused M2))
    ((hperm _).nodup_iff.2 (List.nodup_range.filter _))
    (by
      intro t
      rw [(hperm _).mem_iff, unused, List.mem_filter, List.mem_range]
      have := huses t
      constructor
      · rintro ⟨h1, h2⟩
        refine ⟨h1, fun h3 => ?_⟩
        rw [this.2 h3] at h2
        simp at h2
      · rintro ⟨h1, h2⟩
        refine ⟨h1, ?_⟩
        rw [Bool.not_eq_true', ← Bool.not_eq_true]
        exact fun h3 => h2 (this.1 h3))
  rw [hM] at d1
  have hsame : ∀ {α : Type} (f : PCTMC K → α), (∀ M : PCTMC K, f { M with matrix := M2.matrix, exprs := M2.exprs } = f M) → f M = f M2 := by
    intro α f hf
    rw [← hf M, d1.rest]
  have hlab : M.labelling = M2.labelling := hsame (fun M => M.labelling) (fun _ => rfl)
  have hinit : M.initialState = M2.initialState := hsame (fun M => M.initialState) (fun _ => rfl)
  have hval : M.values = M2.values := hsame (fun M => M.values) (fun _ => rfl)
  have hnam : M.names = M2.names := hsame (fun M => M.names) (fun _ => rfl)
  have hkr : ∀ k ∈ keep, k < l.length + 1 := fun k hk => by rw [← hn]; exact k1.inRange k hk
  have hreachinit : M1.Reachable l.length := by
    refine ⟨l.length, by omega, ?_, Relation.ReflTransGen.refl⟩
    rw [b1.lab, List.getD_eq_getElem?_getD]
    simp
  have hkeep := k2 _ hreachinit
  have hnd : (keep.map (dec l.length)).Nodup := by
    rw [List.Nodup, List.pairwise_map]
    refine k1.sorted.imp_of_mem (fun {a b} ha hb hab he => ?_)
    have := hkr a ha
    have := hkr b hb
    unfold dec at he
    split at he <;> split at he
    · injection he with he
      omega
    · simp at he
    · simp at he
    · omega
  have hlabelk : ∀ (A : Sys K), A.labels = l → ∀ k < l.length + 1, (l ++ ["init"]).getD k "" = A.label (dec l.length k) := by
    intro A hA k hk
    by_cases hk2 : k < l.length
    · rw [dec, if_pos hk2, List.getD_eq_getElem?_getD, List.getElem?_append_left hk2, ← List.getD_eq_getElem?_getD, ← hA]
      rfl
    · rw [dec, if_neg hk2, show k = l.length by omega, List.getD_eq_getElem?_getD]
      simp [Sys.label]
  have hbound : ∀ row ∈ M.matrix, ∀ t ∈ row, t < M.exprs.length := by
    intro row hrow t ht
    have hmem : ∀ t, t ∈ perm (unused M2) → t < M2.exprs.length ∧ M2.uses t = false := by
      intro t ht
      have h3 := (hperm _).mem_iff.1 ht
      rw [unused, List.mem_filter, List.mem_range] at h3
      exact ⟨h3.1, by simpa using h3.2⟩
    have hz := dropAll_bound (perm (unused M2)) M2 hwf2.bound (fun t ht => (hmem t ht).1) (by
      intro row hrow x hx hc
      have h3 := (hmem x hc).2
      have : M2.uses x = true := by
        unfold uses
        exact List.any_eq_true.2 ⟨row, hrow, List.any_eq_true.2 ⟨x, hx, by simp⟩⟩
      rw [h3] at this
      cases this) ((hperm _).nodup_iff.2 (List.nodup_range.filter _))
    rw [hM] at hz
    exact hz _ hrow _ ht
  refine ⟨⟨d1.square, by rw [hlab, hwf2.labels, d1.size], by rw [hinit, hwf2.init, d1.size], hbound, ?_⟩, by rw [hval, k1.values, b3], by rw [hnam, k1.names, b2], keep.map (dec l.length), fun ρ => ?_⟩
  · intro x hx p hp
    rw [hnam]
    exact hwf2.declared x (d1.sub.subset hx) p hp
  have hrates : ∀ x y, x < l.length + 1 → y < l.length + 1 → (M1.rateExpr x y).den ρ = (sysOf R l ts ρ).total (dec l.length x) (dec l.length y) := by
    intro x y hx hy
    rw [b5]
    by_cases hy2 : y < l.length
    · rw [dec, dec, if_pos hy2]
      by_cases hx2 : x < l.length
      · rw [if_pos hx2]
        simp only [Sys.total, sysOf, List.map_map]
        rfl
      · rw [if_neg hx2, show x = l.length by omega]
        have : (ts.map (fun t => if t.1 = l.length ∧ t.2.2.1 = y then t.2.2.2.den ρ else 0)) = ts.map (fun _ => (0 : K)) :=
          List.map_congr_left (fun t ht => if_neg (fun hc => by have := (h.sync t ht).1; omega))
        rw [this]
        simp [Sys.total, sysOf]
    · have hy3 : y = l.length := by omega
      have : (ts.map (fun t => if t.1 = x ∧ t.2.2.1 = y then t.2.2.2.den ρ else 0)) = ts.map (fun _ => (0 : K)) :=
        List.map_congr_left (fun t ht => if_neg (fun hc => by have := (h.sync t ht).2; omega))
      rw [this, hy3, hF.entry_zero (hto x), dec, dec, if_neg (lt_irrefl _)]
      simp only [Expr.den, List.map_const', List.sum_replicate, smul_zero, add_zero]
      cases (if x < l.length then some x else none : Option ℕ) <;> rfl
  exact {
    size := by rw [d1.size, List.length_map]; exact k1.size
    nodup := hnd
    states := by
      intro s hs x hx
      obtain ⟨k, hk, rfl⟩ := List.mem_map.1 hs
      unfold dec at hx
      split at hx
      · injection hx with hx
        rw [← hx]
        assumption
      · simp at hx
    init := List.mem_map.2 ⟨_, hkeep, by rw [dec, if_neg (lt_irrefl _)]⟩
    rates := by
      intro a b ha hb
      rw [List.length_map] at ha hb
      have ha2 : a < M2.matrix.length := by rw [k1.size]; exact ha
      have hb2 : b < M2.matrix.length := by rw [k1.size]; exact hb
      rw [List.getElem_map, List.getElem_map, d1.rate a b ha2 hb2, k1.rate a b ha hb]
      exact hrates _ _ (hkr _ (List.getElem_mem ha)) (hkr _ (List.getElem_mem hb))
    labels := by
      rw [hlab, k1.labels, List.map_map, b1.lab]
      exact List.map_congr_left (fun k hk => hlabelk (sysOf R l ts ρ) rfl k (hkr k hk))
    starts := by
      rw [hinit, k1.init, b4, hstart, h.lab, List.map_map]
      refine List.map_congr_left (fun k hk => ?_)
      have := hkr k hk
      by_cases hk2 : k < l.length
      · have hne : l[k] ≠ "init" := fun hc => h.noinit (hc ▸ List.getElem_mem hk2)
        simp [dec, hk2, List.getElem?_append_left, hne]
      · rw [show k = l.length by omega]
        simp [dec]
    complete := by
      have key : ∀ s, Relation.ReflTransGen (fun a b => (sysOf R l ts ρ).IsState a ∧ (sysOf R l ts ρ).IsState b ∧ (sysOf R l ts ρ).total a b ≠ 0) none s →
          ∃ k < l.length + 1, dec l.length k = s ∧ M1.Reachable k := by
        intro s hs
        induction hs with
        | refl => exact ⟨l.length, by omega, by rw [dec, if_neg (lt_irrefl _)], hreachinit⟩
        | @tail b d _ hst ih =>
          obtain ⟨k, hk, e, hr⟩ := ih
          obtain ⟨_, hd, hne⟩ := hst
          have hk' : ∃ k' < l.length + 1, dec l.length k' = d := by
            cases d with
            | none => exact ⟨l.length, by omega, by rw [dec, if_neg (lt_irrefl _)]⟩
            | some x =>
              have hx : x < l.length := hd x rfl
              exact ⟨x, by omega, by rw [dec, if_pos hx]⟩
          obtain ⟨k', hk', e'⟩ := hk'
          refine ⟨k', hk', e', ?_⟩
          obtain ⟨i, hi1, hi2, hi3⟩ := hr
          refine ⟨i, hi1, hi2, hi3.tail ⟨by omega, by omega, ?_⟩⟩
          intro h0
          apply hne
          rw [← e, ← e', ← hrates k k' hk hk', b1.entry_zero h0]
          rfl
      intro s hs
      obtain ⟨k, _, e, hr⟩ := key s hs
      exact List.mem_map.2 ⟨k, k2 k hr, e⟩ }

/-- The specification only depends on the rates between the states. -/
theorem Realises.congr {M : PCTMC K} {A A' : Sys K} {ρ : String → K} {st : List (Option ℕ)} (h : Realises M A ρ st) (hs : Same A A') :
    Realises M A' ρ st := by
  have hst : ∀ s, A'.IsState s ↔ A.IsState s := by
    intro s
    unfold Sys.IsState
    rw [hs.labels]
  have hlabel : ∀ s, A.label s = A'.label s := by
    intro s
    cases s <;> simp [Sys.label, hs.labels]
  have htot : ∀ a b, A.IsState a → A.IsState b → A.total a b = A'.total a b := by
    intro a b ha hb
    cases b with
    | none => cases a <;> rfl
    | some y =>
      cases a with
      | none => exact hs.init y (hb y rfl)
      | some x =>
        simp only [Sys.total]
        rw [hs.rate x y (ha x rfl) (hb y rfl), hs.sync]
  refine ⟨h.size, h.nodup, fun s hm => (hst s).2 (h.states s hm), h.init, ?_, ?_, h.starts, ?_⟩
  · intro a b ha hb
    rw [h.rates a b ha hb]
    exact htot _ _ (h.states _ (List.getElem_mem ha)) (h.states _ (List.getElem_mem hb))
  · rw [h.labels]
    exact List.map_congr_left (fun s _ => hlabel s)
  · intro s hr
    refine h.complete s (Relation.ReflTransGen.mono ?_ _ _ hr)
    rintro a b ⟨ha, hb, hne⟩
    exact ⟨(hst a).1 ha, (hst b).1 hb, by rw [htot a b ((hst a).1 ha) ((hst b).1 hb)]; exact hne⟩

end Jajapy.PCompose
