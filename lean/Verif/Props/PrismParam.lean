import Verif.Spec.PrismParam
import Verif.Props.PrismRound
import Verif.Props.PrismPCTMC

/-!
C77, PCTMCs: saving a PCTMC to a Prism file and loading this file.
-/

set_option autoImplicit false

namespace Jajapy

/-- The expression with numbers in place of the parameters that have a value. -/
def Expr.fill {K : Type} (vals : Valuation K) : Expr K → Expr K
  | .num c => .num c
  | .sym p => match vals.lookup p with | some v => .num v | none => .sym p
  | .add a b => .add (a.fill vals) (b.fill vals)
  | .mul a b => .mul (a.fill vals) (b.fill vals)
  | .pow a k => .pow (a.fill vals) k

theorem Expr.at_fill {K : Type} [Field K] (vals : Valuation K) (ρ : String → K) (x : Expr K) (h : ∀ p ∈ x.free, ∀ v, vals.lookup p = some v → ρ p = v) :
    (x.fill vals).at ρ = x.at ρ := by
  induction x with
  | num c => rfl
  | sym p =>
    simp only [Expr.fill]
    cases hp : vals.lookup p with
    | none => rfl
    | some v => exact (h p (by simp [Expr.free]) v hp).symm
  | add a b iha ihb =>
    simp only [Expr.fill, Expr.at]
    rw [iha (fun p hp => h p (by simp [Expr.free, hp])), ihb (fun p hp => h p (by simp [Expr.free, hp]))]
  | mul a b iha ihb =>
    simp only [Expr.fill, Expr.at]
    rw [iha (fun p hp => h p (by simp [Expr.free, hp])), ihb (fun p hp => h p (by simp [Expr.free, hp]))]
  | pow a k iha =>
    simp only [Expr.fill, Expr.at]
    rw [iha (fun p hp => h p (by simpa [Expr.free] using hp))]

theorem Expr.free_fill {K : Type} (vals : Valuation K) (x : Expr K) (p : String) (h : p ∈ (x.fill vals).free) : p ∈ x.free ∧ vals.lookup p = none := by
  induction x with
  | num c => simp [Expr.fill, Expr.free] at h
  | sym q =>
    simp only [Expr.fill] at h
    cases hq : vals.lookup q with
    | none =>
      rw [hq] at h
      simp only [Expr.free, List.mem_singleton] at h
      subst h
      exact ⟨by simp [Expr.free], hq⟩
    | some v => rw [hq] at h; simp [Expr.free] at h
  | add a b iha ihb =>
    simp only [Expr.fill, Expr.free, List.mem_union_iff] at h ⊢
    rcases h with h | h
    · exact ⟨Or.inl (iha h).1, (iha h).2⟩
    · exact ⟨Or.inr (ihb h).1, (ihb h).2⟩
  | mul a b iha ihb =>
    simp only [Expr.fill, Expr.free, List.mem_union_iff] at h ⊢
    rcases h with h | h
    · exact ⟨Or.inl (iha h).1, (iha h).2⟩
    · exact ⟨Or.inr (ihb h).1, (ihb h).2⟩
  | pow a k iha =>
    simp only [Expr.fill, Expr.free] at h ⊢
    exact iha h

namespace Prism

open Spec.Prism Spec.Storm Files

set_option linter.unusedSectionVars false

variable {K : Type} [Field K] {n : ℕ}

section
variable {P : Program K (Expr K)} {consts : List (List Char × Option K)} {start : Fin n} {rate : Fin n → Fin n → Option (Expr K)} {label : Fin n → String}

theorem rateAt_ne_zero {ρ : String → K} {s j : ℕ} (h : rateAt P ρ s j ≠ 0) : ∃ c ∈ enabled P s, ∃ u ∈ c.updates, u.2 = j := by
  by_contra hn
  push Not at hn
  apply h
  unfold rateAt
  apply List.sum_eq_zero
  intro x hx
  obtain ⟨c, hc, rfl⟩ := List.mem_map.1 hx
  rw [List.filter_eq_nil_iff.2 (by intro u hu; simpa using hn c hc u hu)]
  rfl

theorem reachableP_lt (hD : DescribesP P consts start rate label) {s : ℕ} (h : ReachableP P s) : s < n := by
  induction h with
  | init => rw [hD.init]; exact start.2
  | step ρ hs hρ hj ih =>
    obtain ⟨c, hc, u, hu, rfl⟩ := rateAt_ne_zero hj
    exact (hD.range c (List.mem_of_mem_filter hc)).2.1 u hu

theorem enabledP_none (hD : DescribesP P consts start rate label) (s : Fin n) : enabled P s = [] ↔ ∀ j, rate s j = none := by
  constructor
  · intro h j
    rw [Option.eq_none_iff_forall_ne_some]
    intro x hx
    obtain ⟨c, hc, _⟩ := (hD.rates s j x).2 hx
    rw [h] at hc
    cases hc
  · intro h
    by_contra hne
    obtain ⟨c, hc⟩ := List.exists_mem_of_ne_nil _ hne
    have hc' := List.mem_of_mem_filter hc
    obtain ⟨u, hu⟩ := List.exists_mem_of_ne_nil _ (hD.nonempty c hc')
    have := (hD.rates s ⟨u.2, (hD.range c hc').2.1 u hu⟩ u.1).1 ⟨c, hc, hu⟩
    rw [h] at this
    cases this

theorem filter_of_nodup {V : Type} {l : List (V × ℕ)} (h : (l.map (·.2)).Nodup) {j : ℕ} {v : V} (hv : (v, j) ∈ l) : l.filter (fun u => u.2 = j) = [(v, j)] := by
  induction l with
  | nil => cases hv
  | cons a l ih =>
    rw [List.map_cons, List.nodup_cons] at h
    rw [List.filter_cons]
    rcases List.mem_cons.1 hv with rfl | hv
    · rw [if_pos (by simp), List.filter_eq_nil_iff.2]
      intro u hu hj
      exact h.1 (List.mem_map.2 ⟨u, hu, of_decide_eq_true hj⟩)
    · rw [if_neg, ih h.2 hv]
      intro ha
      exact h.1 (List.mem_map.2 ⟨_, hv, (of_decide_eq_true ha).symm⟩)

/-- The rate of the program is the expression of the transition. -/
theorem rateAt_eq (hD : DescribesP P consts start rate label) (ρ : String → K) (s j : Fin n) :
    rateAt P ρ s j = ((rate s j).map (Expr.at ρ)).getD 0 := by
  cases hr : rate s j with
  | none =>
    by_contra h
    obtain ⟨c, hc, u, hu, hj⟩ := rateAt_ne_zero h
    have := (hD.rates s j u.1).1 ⟨c, hc, by rw [← hj]; exact hu⟩
    rw [hr] at this
    cases this
  | some x =>
    obtain ⟨c, hc, hx⟩ := (hD.rates s j x).2 hr
    have h1 : enabled P s = [c] := by
      have := hD.one s
      match hl : enabled P s with
      | [] => rw [hl] at hc; cases hc
      | [d] => rw [hl] at hc; rw [List.mem_singleton.1 hc]
      | _ :: _ :: _ => rw [hl] at this; simp at this
    unfold rateAt
    rw [h1]
    have := filter_of_nodup (hD.range c (List.mem_of_mem_filter hc)).2.2 hx
    simp [this]

theorem builtAt_eq (hD : DescribesP P consts start rate label) (ρ : String → K) (s j : Fin n) :
    builtAt P ρ s j = if ∀ j, rate s j = none then (if s = j then 1 else 0) else ((rate s j).map (Expr.at ρ)).getD 0 := by
  unfold builtAt
  by_cases h : ∀ j, rate s j = none
  · rw [if_pos ((enabledP_none hD s).2 h), if_pos h]
    simp only [Fin.ext_iff]
  · rw [if_neg (fun h' => h ((enabledP_none hD s).1 h')), if_neg h, rateAt_eq hD]

/-- The states of the sparse model. -/
theorem builtP_states (hD : DescribesP P consts start rate label) (hi : ∀ s, label s = "init" ↔ s = start)
    (hd : ∀ s, label s ≠ "deadlock") {S : Storm.Sparse (Expr K)} {e : Fin S.states.length → ℕ} (hB : BuiltP P S e) :
    ∃ (f : Fin S.states.length → Fin n) (k : Fin S.states.length), (∀ i, (f i).val = e i) ∧ Function.Injective f ∧ f k = start ∧ OnlyInit S k ∧
      ¬ Named (labels S k) ∧ ∀ i : Fin S.states.length, name (labels S i) = label (f i) := by
  have hlt : ∀ i, e i < n := fun i => reachableP_lt hD ((hB.range _).2 ⟨i, rfl⟩)
  obtain ⟨k, hk⟩ := (hB.range P.init).1 .init
  have hstart : ∀ i, e i = P.init ↔ i = k := by
    intro i
    rw [← hk]
    exact hB.inj.eq_iff
  have hnodup : ∀ i : Fin S.states.length, (labels S i).Nodup := by
    intro i
    have : labels S i = (S.states[i]).labels := by
      unfold labels
      rw [List.getElem?_eq_getElem i.2]
      rfl
    rw [this]
    exact hB.valid.labels _ (List.getElem_mem i.2)
  have hmem : ∀ (i : Fin S.states.length) (l : String), l ≠ "deadlock" → (l ∈ labels S i ↔ l = label ⟨e i, hlt i⟩) := by
    intro i l hl
    rw [hB.labels, hD.labels]
    constructor
    · rintro (⟨rfl, h⟩ | ⟨h, _⟩ | ⟨_, _, h⟩)
      · exact ((hi _).2 (Fin.ext (h.trans hD.init))).symm
      · exact absurd h hl
      · exact (String.toList_inj.1 h).symm
    · rintro rfl
      by_cases h : label ⟨e i, hlt i⟩ = "init"
      · exact Or.inl ⟨h, (congrArg Fin.val ((hi _).1 h)).trans hD.init.symm⟩
      · exact Or.inr (Or.inr ⟨hlt i, h, rfl⟩)
  refine ⟨fun i => ⟨e i, hlt i⟩, k, fun _ => rfl, ?_, ?_, ⟨k.2, ?_⟩, ?_, ?_⟩
  · intro i j h
    exact hB.inj (congrArg Fin.val h)
  · exact Fin.ext (hk.trans hD.init)
  · intro i h
    rw [hmem ⟨i, h⟩ "init" (by decide), eq_comm, hi, ← hstart ⟨i, h⟩ |>.trans (Fin.ext_iff), hD.init, Fin.ext_iff]
  · rintro ⟨l, h1, h2, h3⟩
    rw [hmem k l h2] at h1
    exact h3 (h1.trans ((hi _).2 (Fin.ext (hk.trans hD.init))))
  · intro i
    by_cases h : label ⟨e i, hlt i⟩ = "init"
    · have : (labels S i).filter (fun x => x ≠ "deadlock" ∧ x ≠ "init") = [] := by
        rw [List.filter_eq_nil_iff]
        intro x hx
        simp only [decide_eq_true_eq, not_and, not_not]
        intro h'
        rw [hmem i x h'] at hx
        exact hx.trans h
      unfold name
      dsimp only
      rw [this, if_pos rfl, if_pos ((hmem i "init" (by decide)).2 h.symm), h]
    · exact name_of (hnodup i) ⟨h, hd _⟩ (hmem i)

theorem agrees_of {names : List String} {vals : Valuation K} (hD : DescribesP P (names.map (fun p => (p.toList, vals.lookup p))) start rate label)
    {ρ : String → K} (hρ : ∀ p v, vals.lookup p = some v → ρ p = v) : Agrees P ρ := by
  intro c hc v hv
  have : (c.name, c.value) ∈ P.consts.map (fun c => (c.name, c.value)) := List.mem_map.2 ⟨c, hc, rfl⟩
  rw [hD.consts] at this
  obtain ⟨p, _, h⟩ := List.mem_map.1 this
  simp only [Prod.mk.injEq] at h
  rw [← h.1, String.ofList_toList]
  exact hρ p v (h.2.trans hv)

theorem of_agrees {names : List String} {vals : Valuation K} (hD : DescribesP P (names.map (fun p => (p.toList, vals.lookup p))) start rate label)
    {ρ : String → K} (hρ : Agrees P ρ) (p : String) (hp : p ∈ names) (v : K) (hv : vals.lookup p = some v) : ρ p = v := by
  have : (p.toList, vals.lookup p) ∈ P.consts.map (fun c => (c.name, c.value)) := by
    rw [hD.consts]
    exact List.mem_map.2 ⟨p, hp, rfl⟩
  obtain ⟨c, hc, h⟩ := List.mem_map.1 this
  simp only [Prod.mk.injEq] at h
  have := hρ c hc v (h.2.trans hv)
  rwa [h.1, String.ofList_toList] at this

/-- Storm can build a sparse model of the program of any parametric CTMC. -/
theorem builtP_exists {names : List String} {vals : Valuation K} (hD : DescribesP P (names.map (fun p => (p.toList, vals.lookup p))) start rate label)
    (hfree : ∀ s j x, rate s j = some x → ∀ p ∈ x.free, p ∈ names) : ∃ (S : Storm.Sparse (Expr K)) (e : Fin S.states.length → ℕ), BuiltP P S e := by
  classical
  let R := {s : Fin n // ReachableP P s.val}
  let N := Fintype.card R
  let g : Fin N ≃ R := (Fintype.equivFin R).symm
  let labs : Fin N → List String := fun i => ((if (g i).1 = start then ["init"] else []) ++ (if enabled P (g i).1 = [] then ["deadlock"] else []) ++
    (if label (g i).1 ≠ "init" then [label (g i).1] else [])).dedup
  let row : Fin N → List (ℕ × Expr K) := fun i => if enabled P (g i).1 = [] then [(i.val, .num 1)] else
    (List.finRange N).filterMap (fun j => (rate (g i).1 (g j).1).map (fun x => (j.val, x.fill vals)))
  let S : Storm.Sparse (Expr K) := ⟨List.ofFn (fun i => ⟨labs i, [row i]⟩), [], []⟩
  have hlen : S.states.length = N := by simp [S]
  have hget : ∀ i : Fin S.states.length, S.states[i.val]? = some ⟨labs (i.cast hlen), [row (i.cast hlen)]⟩ := by
    intro i
    simp only [S]
    rw [List.getElem?_ofFn, dif_pos (by have := i.2; omega)]
    rfl
  have hrow : ∀ (i : Fin N) (q : ℕ × Expr K), q ∈ row i ↔ (enabled P (g i).1 = [] ∧ q = (i.val, .num 1)) ∨
      (enabled P (g i).1 ≠ [] ∧ ∃ j : Fin N, ∃ x, rate (g i).1 (g j).1 = some x ∧ q = (j.val, x.fill vals)) := by
    intro i q
    simp only [row]
    split_ifs with h
    · simp [h]
    · simp only [List.mem_filterMap, List.mem_finRange, true_and, Option.map_eq_some_iff, h, false_and, false_or, ne_eq, not_false_eq_true]
      constructor
      · rintro ⟨j, x, h1, rfl⟩; exact ⟨j, x, h1, rfl⟩
      · rintro ⟨j, x, h1, rfl⟩; exact ⟨j, x, h1, rfl⟩
  have hcol : ∀ i, ((row i).map (·.1)).Nodup := by
    intro i
    simp only [row]
    split_ifs with h
    · simp
    · have : ∀ l : List (Fin N), l.Nodup → ((l.filterMap (fun j => (rate (g i).1 (g j).1).map (fun x => (j.val, x.fill vals)))).map (·.1)).Nodup := by
        intro l hl
        have hsub : ((l.filterMap (fun j => (rate (g i).1 (g j).1).map (fun x => (j.val, x.fill vals)))).map (·.1)).Sublist (l.map Fin.val) := by
          clear hl
          induction l with
          | nil => exact List.Sublist.slnil
          | cons a l ih =>
            rw [List.filterMap_cons, List.map_cons]
            cases hr : rate (g i).1 (g a).1 with
            | none => exact ih.cons _
            | some x => exact ih.cons_cons _
        exact hsub.nodup (hl.map Fin.val_injective)
      exact this _ (List.nodup_finRange N)
  have hentry : ∀ (i : Fin S.states.length) (j : ℕ) (x : Expr K), Entry S i 0 j x ↔ (j, x) ∈ row (i.cast hlen) := by
    intro i j x
    unfold Entry
    rw [hget]
    constructor
    · rintro ⟨s, r, h1, h2, h3⟩
      simp only [Option.some.injEq] at h1
      subst h1
      simp only [List.getElem?_cons_zero, Option.some.injEq] at h2
      rw [h2]
      exact h3
    · intro h
      exact ⟨_, _, rfl, rfl, h⟩
  have hagree : ∀ (s j : Fin n) x, rate s j = some x → ∀ ρ, Agrees P ρ → (x.fill vals).at ρ = x.at ρ := by
    intro s j x hx ρ hρ
    exact Expr.at_fill _ _ _ (fun p hp v hv => of_agrees hD hρ p (hfree s j x hx p hp) v hv)
  refine ⟨S, fun i => (g (i.cast hlen)).1.val, ⟨⟨?_, ?_, ?_⟩, ?_, ?_, ?_, ?_, ?_, ?_, ?_⟩⟩
  · intro s hs
    obtain ⟨i, rfl⟩ := (List.mem_ofFn' _ _).1 hs
    exact List.nodup_dedup _
  · intro s hs r hr
    obtain ⟨i, rfl⟩ := (List.mem_ofFn' _ _).1 hs
    rw [List.mem_singleton.1 hr]
    exact hcol i
  · intro s hs r hr q hq
    obtain ⟨i, rfl⟩ := (List.mem_ofFn' _ _).1 hs
    rw [List.mem_singleton.1 hr] at hq
    rw [hlen]
    rcases (hrow i q).1 hq with ⟨_, rfl⟩ | ⟨_, j, x, _, rfl⟩
    · exact i.2
    · exact j.2
  · intro s hs
    obtain ⟨i, rfl⟩ := (List.mem_ofFn' _ _).1 hs
    exact ⟨_, rfl⟩
  · intro i j h
    have := g.injective (Subtype.ext (Fin.ext h))
    simpa using this
  · intro s
    constructor
    · intro h
      refine ⟨(g.symm ⟨⟨s, reachableP_lt hD h⟩, h⟩).cast hlen.symm, ?_⟩
      simp
    · rintro ⟨i, rfl⟩
      exact (g _).2
  · intro i l
    unfold labels
    rw [hget]
    simp only [Option.map_some, Option.getD_some, labs, List.mem_dedup, List.mem_append, hD.labels]
    have e1 : ((g (i.cast hlen)).1.val = P.init) ↔ (g (i.cast hlen)).1 = start := by rw [hD.init, Fin.ext_iff]
    rw [e1]
    have e2 : (∃ h : (g (i.cast hlen)).1.val < n, label ⟨(g (i.cast hlen)).1.val, h⟩ ≠ "init" ∧ (label ⟨(g (i.cast hlen)).1.val, h⟩).toList = l.toList) ↔
        (label (g (i.cast hlen)).1 ≠ "init" ∧ l = label (g (i.cast hlen)).1) := by
      constructor
      · rintro ⟨_, h1, h2⟩
        exact ⟨h1, (String.toList_inj.1 h2).symm⟩
      · rintro ⟨h1, h2⟩
        exact ⟨(g (i.cast hlen)).1.2, h1, by rw [h2]⟩
    rw [e2]
    split_ifs <;> (simp_all; try tauto)
  · intro i j x hx p hp
    have hi : i < S.states.length := by
      obtain ⟨s, _, h, _⟩ := hx
      exact (List.getElem?_eq_some_iff.1 h).1
    rcases (hrow _ _).1 ((hentry ⟨i, hi⟩ j x).1 hx) with ⟨_, h⟩ | ⟨_, j', x', hr, h⟩
    · simp only [Prod.mk.injEq] at h
      rw [h.2] at hp
      simp [Expr.free] at hp
    · simp only [Prod.mk.injEq] at h
      rw [h.2] at hp
      obtain ⟨h1, h2⟩ := Expr.free_fill vals x' p hp
      have : (p.toList, vals.lookup p) ∈ P.consts.map (fun c => (c.name, c.value)) := by
        rw [hD.consts]
        exact List.mem_map.2 ⟨p, hfree _ _ _ hr p h1, rfl⟩
      obtain ⟨c, hc, h3⟩ := List.mem_map.1 this
      simp only [Prod.mk.injEq] at h3
      exact ⟨c, hc, h3.2.trans h2, by rw [h3.1, String.ofList_toList]⟩
  · intro i j x hx ρ hρ
    rcases (hrow _ _).1 ((hentry i j x).1 hx) with ⟨h0, h⟩ | ⟨h0, j', x', hr, h⟩
    · simp only [Prod.mk.injEq] at h
      unfold builtAt
      rw [if_pos h0, h.2, if_pos]
      · rfl
      · have : i.cast hlen = j.cast hlen := Fin.ext h.1.symm
        rw [this]
    · simp only [Prod.mk.injEq] at h
      have hj : j.cast hlen = j' := Fin.ext h.1
      unfold builtAt
      rw [if_neg h0, hj, rateAt_eq hD, hr, h.2, hagree _ _ _ hr ρ hρ]
      rfl
  · intro i j hx ρ hρ
    unfold builtAt
    by_cases h0 : enabled P (g (i.cast hlen)).1 = []
    · rw [if_pos h0, if_neg]
      intro h
      have : i = j := by
        have := g.injective (Subtype.ext (Fin.ext h))
        simpa using this
      subst this
      exact hx (.num 1) ((hentry _ _ _).2 ((hrow _ _).2 (Or.inl ⟨h0, rfl⟩)))
    · rw [if_neg h0, rateAt_eq hD]
      cases hr : rate (g (i.cast hlen)).1 (g (j.cast hlen)).1 with
      | none => rfl
      | some x => exact absurd ((hentry _ _ _).2 ((hrow _ _).2 (Or.inr ⟨h0, j.cast hlen, x, hr, rfl⟩))) (hx (x.fill vals))

end

theorem transitions_le {S : Storm.Sparse (Expr K)} (hS : Valid S) (h1 : OneAction S) : (Storm.transitions S).length ≤ S.states.length * S.states.length := by
  unfold Storm.transitions
  rw [List.length_flatMap]
  refine le_trans (List.sum_le_card_nsmul _ S.states.length ?_) ?_
  · intro k hk
    obtain ⟨p, hp, rfl⟩ := List.mem_map.1 hk
    have hs := List.fst_mem_of_mem_zipIdx hp
    obtain ⟨r, hr⟩ := h1 _ hs
    have hn := hS.columns _ hs r (by rw [hr]; simp)
    have hlt := hS.range _ hs r (by rw [hr]; simp)
    rw [List.length_map, hr]
    simp only [List.flatten_cons, List.flatten_nil, List.append_nil]
    have := (List.subperm_of_subset hn (l₂ := List.range S.states.length) (by
      intro x hx
      obtain ⟨q, hq, rfl⟩ := List.mem_map.1 hx
      exact List.mem_range.2 (hlt q hq))).length_le
    simpa using this
  · simp

variable [LinearOrder K] [IsStrictOrderedRing K] [FloorRing K] (IO : FloatIO K) (EIO : ExprIO K)

/-- C77, PCTMC. Saving a parametric CTMC to a Prism file and loading the file gives the part of the model that can be reached; the parameters that had a
value are replaced by it. A state that is never left gets a loop of rate 1. (Missing: synchronous transitions, see `savePCTMC_sync`; several initial states,
names that are not Prism names, a state labelled 'deadlock'; 65535 transitions or more; if all the parameters have values, see
`pctmc_prism_instance_partial`.) -/
theorem pctmc_prism_round_trip_partial {expr : List Tok → Option (Expr K)} (M : PCTMC K) {name : List Char} (hname : IsName name)
    {m : Fin n → Fin n → ℕ} (hM : M.matrix = List.ofFn (fun i => List.ofFn (m i))) (hidx : ∀ i j, m i j < M.exprs.length) (hn : n * n + 1 < 65536)
    {label : Fin n → String} (hlab : M.labelling = List.ofFn label) (hl : ∀ s, label s ≠ "init" → IsName (label s).toList)
    {start : Fin n} (hinit : M.initialState = List.ofFn (fun s => if s = start then 1 else 0)) (hi : ∀ s, label s = "init" ↔ s = start)
    (hd : ∀ s, label s ≠ "deadlock")
    (hp : ∀ p ∈ M.names, IsName p.toList) (hpn : M.names.Nodup) (hps : "s" ∉ M.names) (hfree : ∀ x ∈ M.exprs, ∀ p ∈ x.free, p ∈ M.names)
    (hv : ∀ p ∈ M.names, ∀ v, M.values.lookup p = some v → IO.dom v ∧ Decimal (IO.repr v))
    (he : ∀ i j, m i j ≠ 0 → ∀ e, M.exprs[m i j]? = some e → ∃ t, Powers (EIO.str e).toList t ∧ TextOf expr t e) :
    ∃ text P, savePCTMC IO EIO M name = .ok text ∧ readPrism IO.parse expr text = some P ∧
      P.consts.map (fun c => (c.name, c.value)) = M.names.map (fun p => (p.toList, M.values.lookup p)) ∧ (∃ S e, BuiltP P S e) ∧
      ∀ S e, BuiltP P S e → ∃ M' f, Storm.toPCTMC S = .ok M' ∧
        PartP M' f M.values (fun s j => if m s j = 0 then none else M.exprs[m s j]?) label (fun s => if s = start then 1 else 0) := by
  obtain ⟨text, P, start', h1, h2, _, h3, hD⟩ := savePCTMC_describes_partial IO EIO (expr := expr) M hname hM hidx hlab hl hinit ⟨start, if_pos rfl⟩ hp hpn hps hv he
  have : start' = start := by
    by_contra h
    rw [if_neg h] at h3
    exact zero_ne_one h3
  subst this
  have hfree' : ∀ s j x, (if m s j = 0 then none else M.exprs[m s j]?) = some x → ∀ p ∈ x.free, p ∈ M.names := by
    intro s j x hx
    split_ifs at hx
    exact hfree x (List.mem_of_getElem? hx)
  refine ⟨text, P, h1, h2, hD.consts, builtP_exists hD hfree', fun S e hB => ?_⟩
  obtain ⟨f, k, hf, hinj, hk, honly, hplain, hnames⟩ := builtP_states hD hi hd hB
  have hle : S.states.length ≤ n := by simpa using Fintype.card_le_of_injective f hinj
  obtain ⟨M', m1, m2, _, m3, m4, _, m5, _, m6, _, _, m7⟩ := Storm.toPCTMC_spec_partial hB.valid hB.one honly
    (by have := transitions_le hB.valid hB.one; have := Nat.mul_le_mul hle hle; omega)
  obtain ⟨s1, s2, s3⟩ := m7 hplain
  have hN : M'.matrix.length = S.states.length := m2.trans s1
  have hrange : ∀ {β : Type} (g : Fin n → β), List.ofFn (fun i : Fin S.states.length => g (f i)) =
      (List.range M'.matrix.length).map (fun i => g (if h : i < S.states.length then f ⟨i, h⟩ else start')) := by
    intro β g
    apply List.ext_getElem
    · simp [hN]
    · intro i h1 h2
      simp only [List.getElem_ofFn, List.getElem_map, List.getElem_range]
      rw [dif_pos (by simpa using h1)]
  refine ⟨M', fun i => if h : i < S.states.length then f ⟨i, h⟩ else start', m1, ⟨?_, ?_, ?_, ?_, ?_, ?_, ?_, m6⟩⟩
  · intro i j h1 h2 h
    rw [hN] at h1 h2
    simp only [dif_pos h1, dif_pos h2] at h
    exact congrArg Fin.val (hinj h)
  · intro s h
    split_ifs at h with h'
    · refine ⟨k, by rw [hN]; exact k.2, ?_⟩
      rw [dif_pos k.2]
      exact hk.trans h'.symm
    · exact absurd rfl h
  · intro i hi' s x ρ hx hρ hne
    rw [hN] at hi'
    simp only [dif_pos hi'] at hx
    have hr : ReachableP P s.val := by
      refine .step ρ ((hB.range _).2 ⟨⟨i, hi'⟩, rfl⟩) (agrees_of hD hρ) ?_
      rw [← hf, rateAt_eq hD, hx]
      exact hne
    obtain ⟨j, hj⟩ := (hB.range _).1 hr
    refine ⟨j, by rw [hN]; exact j.2, ?_⟩
    rw [dif_pos j.2]
    exact Fin.ext ((hf j).trans hj)
  · rw [s2, ← hrange label]
    simp only [hnames]
  · rw [s3, ← hrange (fun s => if s = start' then (1 : K) else 0), ← hk]
    simp only [← Fin.ext_iff, hinj.eq_iff]
  · intro i j hi' hj
    rw [hN] at hi' hj
    have hb : ∀ ρ : String → K, (∀ p v, M.values.lookup p = some v → ρ p = v) → builtAt P ρ (e ⟨i, hi'⟩) (e ⟨j, hj⟩) =
        if ∀ s, (if m (f ⟨i, hi'⟩) s = 0 then none else M.exprs[m (f ⟨i, hi'⟩) s]?) = none then (if i = j then 1 else 0) else
          (((if m (f ⟨i, hi'⟩) (f ⟨j, hj⟩) = 0 then none else M.exprs[m (f ⟨i, hi'⟩) (f ⟨j, hj⟩)]?)).map (Expr.at ρ)).getD 0 := by
      intro ρ hρ
      rw [← hf, ← hf, builtAt_eq hD]
      simp only [hinj.eq_iff, Fin.mk.injEq]
    simp only [dif_pos hi', dif_pos hj]
    by_cases hx : ∃ x, Entry S i 0 j x
    · obtain ⟨x, hx⟩ := hx
      refine ⟨x, m3 i j x hx, fun ρ hρ => ?_⟩
      rw [← hb ρ hρ]
      exact hB.entry ⟨i, hi'⟩ ⟨j, hj⟩ x hx ρ (agrees_of hD hρ)
    · push Not at hx
      refine ⟨.num 0, m4 ⟨i, hi'⟩ ⟨j, hj⟩ hx, fun ρ hρ => ?_⟩
      rw [← hb ρ hρ]
      exact (hB.missing ⟨i, hi'⟩ ⟨j, hj⟩ hx ρ (agrees_of hD hρ)).symm
  · intro p hp'
    obtain ⟨i, j, x, hx, hpx⟩ := (m5 p).1 hp'
    obtain ⟨c, hc, hcv, hcn⟩ := hB.free i j x hx p hpx
    have : (c.name, c.value) ∈ P.consts.map (fun c => (c.name, c.value)) := List.mem_map.2 ⟨c, hc, rfl⟩
    rw [hD.consts] at this
    obtain ⟨q, _, h⟩ := List.mem_map.1 this
    simp only [Prod.mk.injEq] at h
    rw [← hcn, ← h.1, String.ofList_toList, h.2, hcv]

/-- The rates when the parameters have the values `ρ`. -/
def ratesAt (rate : Fin n → Fin n → Option (Expr K)) (ρ : String → K) (s j : Fin n) : K := ((rate s j).map (Expr.at ρ)).getD 0

theorem enabled_evaluated (P : Program K (Expr K)) (ρ : String → K) (hi s : ℕ) : enabled { evaluated P ρ with hi := hi } s =
    (enabled P s).map (fun c => ⟨c.action, c.guard, c.updates.map (fun u => (u.1.at ρ, u.2))⟩) := by
  unfold enabled evaluated
  rw [List.filter_map]
  rfl

theorem describes_evaluated {P : Program K (Expr K)} {consts : List (List Char × Option K)} {start : Fin n} {rate : Fin n → Fin n → Option (Expr K)}
    {label : Fin n → String} (hD : DescribesP P consts start rate label) (ρ : String → K) (hne : ∀ s j x, rate s j = some x → x.at ρ ≠ 0) :
    Describes { evaluated P ρ with hi := n - 1 } .ctmc start (chainChoices (ratesAt rate ρ)) label := by
  refine ⟨hD.kind, rfl, hD.lo, ?_, hD.init, ?_, ?_, hD.labels, hD.distinct⟩
  · have := start.2
    show n - 1 + 1 = n
    omega
  · intro s
    rw [enabled_evaluated]
    have hz : (∃ j, ratesAt rate ρ s j ≠ 0) ↔ enabled P s ≠ [] := by
      rw [ne_eq, enabledP_none hD, not_forall]
      apply exists_congr
      intro j
      unfold ratesAt
      cases hr : rate s j with
      | none => simp
      | some x => simpa using hne s j x hr
    unfold chainChoices
    by_cases h : enabled P s = []
    · rw [if_neg (fun h' => (hz.1 h') h), h]
      exact .nil
    · rw [if_pos (hz.2 h)]
      have hone := hD.one s
      match hl : enabled P s with
      | [] => exact absurd hl h
      | _ :: _ :: _ => rw [hl] at hone; simp at hone
      | [c] =>
        have hc : c ∈ P.commands := List.mem_of_mem_filter (p := fun c => decide (c.guard = s.val)) (by show c ∈ enabled P s; rw [hl]; simp)
        refine .cons ⟨hD.actions c hc, ?_, fun j => ?_⟩ .nil
        · intro u hu
          obtain ⟨u', hu', rfl⟩ := List.mem_map.1 hu
          exact (hD.range c hc).2.1 u' hu'
        · have := rateAt_eq hD ρ s j
          unfold rateAt at this
          rw [hl] at this
          simp only [List.map_cons, List.map_nil, List.sum_cons, List.sum_nil, add_zero] at this
          refine Eq.trans ?_ this
          unfold Command.to
          dsimp only
          rw [List.filter_map, List.map_map]
          rfl
  · intro c hc
    obtain ⟨c', hc', rfl⟩ := List.mem_map.1 hc
    exact (hD.range c' hc').1

theorem reachable_hi (P : Program K K) (hi s : ℕ) : Reachable { P with hi := hi } s ↔ Reachable P s := by
  constructor
  · intro h
    induction h with
    | init => exact .init
    | step c _ hc hj ih => exact .step c ih hc hj
  · intro h
    induction h with
    | init => exact .init
    | step c _ hc hj ih => exact .step c ih hc hj

theorem built_hi {P : Program K K} (hi : ℕ) {S : Storm.Sparse K} {e : Fin S.states.length → ℕ} : Built { P with hi := hi } S e ↔ Built P S e :=
  ⟨fun h => ⟨⟨h.valid, h.inj, fun s => by rw [← reachable_hi P hi]; exact h.range s, h.labels⟩, h.one, h.value⟩,
   fun h => ⟨⟨h.valid, h.inj, fun s => by rw [reachable_hi P hi]; exact h.range s, h.labels⟩, h.one, h.value⟩⟩

/-- C77, PCTMC all of whose parameters have a value (`ρ`; no rate is 0). Saving it to a Prism file and loading the file gives a CTMC without parameters:
the part that can be reached of the CTMC with these values. A state that is never left gets a loop of rate 1. (Missing: as in `pctmc_prism_round_trip_partial`;
rates that are 0 for these values.) -/
theorem pctmc_prism_instance_partial {expr : List Tok → Option (Expr K)} (M : PCTMC K) {name : List Char} (hname : IsName name)
    {m : Fin n → Fin n → ℕ} (hM : M.matrix = List.ofFn (fun i => List.ofFn (m i))) (hidx : ∀ i j, m i j < M.exprs.length)
    {label : Fin n → String} (hlab : M.labelling = List.ofFn label) (hl : ∀ s, label s ≠ "init" → IsName (label s).toList)
    {start : Fin n} (hinit : M.initialState = List.ofFn (fun s => if s = start then 1 else 0)) (hi : ∀ s, label s = "init" ↔ s = start)
    (hd : ∀ s, label s ≠ "deadlock")
    (hp : ∀ p ∈ M.names, IsName p.toList) (hpn : M.names.Nodup) (hps : "s" ∉ M.names)
    (hv : ∀ p ∈ M.names, ∀ v, M.values.lookup p = some v → IO.dom v ∧ Decimal (IO.repr v))
    (he : ∀ i j, m i j ≠ 0 → ∀ e, M.exprs[m i j]? = some e → ∃ t, Powers (EIO.str e).toList t ∧ TextOf expr t e)
    {ρ : String → K} (hρ : ∀ p ∈ M.names, M.values.lookup p = some (ρ p)) (hne : ∀ i j, m i j ≠ 0 → ∀ x, M.exprs[m i j]? = some x → x.at ρ ≠ 0) :
    ∃ text P, savePCTMC IO EIO M name = .ok text ∧ readPrism IO.parse expr text = some P ∧ (∀ c ∈ P.consts, c.value = some (ρ (String.ofList c.name))) ∧
      (∃ S e, Built (evaluated P ρ) S e) ∧
      ∀ S e, Built (evaluated P ρ) S e → ∀ exits, ∃ n', ∃ M' : CTMC K String n', ∃ f : Fin n' → Fin n,
        Storm.toCTMC ⟨S.states.map (fun s => ⟨s.labels, s.actions.map (fun r => r.map (fun q => (q.1, some q.2)))⟩), exits, []⟩ true = .ok (some ⟨n', M'⟩) ∧
        Part f M'.matrix M'.labelling M'.initialState (fun s j => if m s j = 0 then 0 else ((M.exprs[m s j]?).map (Expr.at ρ)).getD 0) label
          (fun s => if s = start then 1 else 0) := by
  obtain ⟨text, P, start', h1, h2, _, h3, hDP⟩ := savePCTMC_describes_partial IO EIO (expr := expr) M hname hM hidx hlab hl hinit ⟨start, if_pos rfl⟩ hp hpn hps hv he
  have : start' = start := by
    by_contra h
    rw [if_neg h] at h3
    exact zero_ne_one h3
  subst this
  have hD := describes_evaluated hDP ρ (by
    intro s j x hx
    split_ifs at hx with h
    exact hne s j h x hx)
  have hm : ratesAt (fun s j => if m s j = 0 then none else M.exprs[m s j]?) ρ = fun s j => if m s j = 0 then 0 else ((M.exprs[m s j]?).map (Expr.at ρ)).getD 0 := by
    funext s j
    unfold ratesAt
    dsimp only
    split_ifs <;> rfl
  rw [hm] at hD
  refine ⟨text, P, h1, h2, ?_, ?_, fun S e hB exits => ?_⟩
  · intro c hc
    have : (c.name, c.value) ∈ P.consts.map (fun c => (c.name, c.value)) := List.mem_map.2 ⟨c, hc, rfl⟩
    rw [hDP.consts] at this
    obtain ⟨p, hp', h⟩ := List.mem_map.1 this
    simp only [Prod.mk.injEq] at h
    rw [← h.1, String.ofList_toList, ← h.2]
    exact hρ p hp'
  · obtain ⟨S, e, hB⟩ := built_exists hD
    exact ⟨S, e, (built_hi _).1 hB⟩
  · obtain ⟨f, k, hR⟩ := built_restricts hD hi hd ((built_hi (n - 1)).2 hB)
    obtain ⟨n', M', hM', _, h⟩ := Storm.toCTMC_spec hB.valid hB.one hR.only exits
    obtain ⟨rfl, ha, hb, hc⟩ := h hR.plain
    refine ⟨_, M', f, hM', ⟨hR.inj, ?_, hR.closed, fun i => (ha i).trans (hR.names i), ?_, fun i j => (hb i j).trans (hR.value i j)⟩⟩
    · intro s h
      split_ifs at h with h'
      · exact ⟨k, hR.start.trans h'.symm⟩
      · exact absurd rfl h
    · intro i
      rw [hc, ← hR.start]
      simp only [← Fin.ext_iff, hR.inj.eq_iff]

/-! ### Examples -/

theorem poly_values : ∀ p ∈ polyPCTMC.names, ∀ v, polyPCTMC.values.lookup p = some v → decIO.dom v ∧ Decimal (decIO.repr v) := by
  intro p hp v hv
  have : v = 1/2 := by
    rcases List.mem_cons.1 hp with rfl | hp
    · exact (Option.some.inj hv).symm
    · rcases List.mem_cons.1 hp with rfl | hp
      · cases hv
      · cases hp
  subst this
  exact ⟨⟨1, by decide +kernel⟩, dec_decimal _ ⟨1, by decide +kernel⟩ (by norm_num)⟩

def polyIndex (s j : Fin 2) : ℕ := if s = 0 then (if j = 0 then 0 else 1) else if j = 0 then 2 else 0

theorem poly_exprs {exprs : List (Expr ℚ)} (h : exprs = [.num 0, .mul (.num 2) (.pow (.sym "p") 3), .sym "q"]) (i j : Fin 2) (hij : polyIndex i j ≠ 0) (e : Expr ℚ)
    (he : exprs[polyIndex i j]? = some e) : e = .sym "q" ∨ e = .mul (.num 2) (.pow (.sym "p") 3) := by
  subst h
  revert hij he
  fin_cases i <;> fin_cases j
  · intro h; exact absurd rfl h
  · intro _ h; exact Or.inr (Option.some.inj h).symm
  · intro _ h; exact Or.inl (Option.some.inj h).symm
  · intro h; exact absurd rfl h

theorem poly_text {e : Expr ℚ} (hh : e = .sym "q" ∨ e = .mul (.num 2) (.pow (.sym "p") 3)) : ∃ t, Powers (polyIO.str e).toList t ∧ TextOf polyExpr t e := by
  rcases hh with rfl | rfl
  · exact ⟨_, .char (by decide) .nil, textOf_q⟩
  · exact ⟨_, .char (by decide) (.times (by decide) (.char (by decide) (.power (by decide) (.char (by decide) .nil)))), textOf_p⟩

/-- Hypotheses of `pctmc_prism_round_trip_partial`: two parameters, the first one with a value. -/
theorem poly_round_trip : ∃ text P, savePCTMC decIO polyIO polyPCTMC "m".toList = .ok text ∧ readPrism decIO.parse polyExpr text = some P ∧
      P.consts.map (fun c => (c.name, c.value)) = [(['p'], some (1/2)), (['q'], none)] ∧ (∃ S e, BuiltP P S e) ∧
      ∀ S e, BuiltP P S e → ∃ M' f, Storm.toPCTMC S = .ok M' ∧
        PartP M' f polyPCTMC.values (fun s j => if polyIndex s j = 0 then none else polyPCTMC.exprs[polyIndex s j]?) (fun s => if s = 0 then "init" else "a")
          (fun s => if s = 0 then 1 else 0) :=
  pctmc_prism_round_trip_partial decIO polyIO polyPCTMC (name := "m".toList) (by decide) (m := polyIndex) (by decide) (by decide) (by decide)
    (label := fun s => if s = 0 then "init" else "a") (by decide) (by decide +kernel) (start := 0) (by decide +kernel) (by decide) (by decide)
    (by decide +kernel) (by decide) (by decide) (by decide +kernel) poly_values (fun i j hij e he => poly_text (poly_exprs rfl i j hij e he))

/-- C77, violation: a parameter with a value is no longer a parameter of the loaded model: the model above has the parameters `p` and `q`, the loaded one `q` only. -/
theorem pctmc_prism_value_lost : ∃ text P, savePCTMC decIO polyIO polyPCTMC "m".toList = .ok text ∧ readPrism decIO.parse polyExpr text = some P ∧ (∃ S e, BuiltP P S e) ∧
    "p" ∈ polyPCTMC.names ∧ ∀ S e, BuiltP P S e → ∃ M', Storm.toPCTMC S = .ok M' ∧ "p" ∉ M'.names ∧ M'.values = [] := by
  obtain ⟨text, P, h1, h2, _, h3, h4⟩ := poly_round_trip
  refine ⟨text, P, h1, h2, h3, by decide, fun S e hB => ?_⟩
  obtain ⟨M', f, h5, h6⟩ := h4 S e hB
  refine ⟨M', h5, fun h => ?_, h6.values⟩
  have := h6.params "p" h
  revert this
  decide +kernel

/-- The model with values for both parameters. -/
def polyBoth : PCTMC ℚ := { polyPCTMC with values := [("p", 1/2), ("q", 1/2)] }

/-- Hypotheses of `pctmc_prism_instance_partial`: a CTMC with the rates 1/4 and 1/2 is loaded. -/
theorem poly_instance : ∃ text P, savePCTMC decIO polyIO polyBoth "m".toList = .ok text ∧ readPrism decIO.parse polyExpr text = some P ∧
      (∀ c ∈ P.consts, c.value = some (1/2)) ∧ (∃ S e, Built (evaluated P (fun _ => 1/2)) S e) ∧
      ∀ S e, Built (evaluated P (fun _ => 1/2)) S e → ∀ exits, ∃ n', ∃ M' : CTMC ℚ String n', ∃ f : Fin n' → Fin 2,
        Storm.toCTMC ⟨S.states.map (fun s => ⟨s.labels, s.actions.map (fun r => r.map (fun q => (q.1, some q.2)))⟩), exits, []⟩ true = .ok (some ⟨n', M'⟩) ∧
        Part f M'.matrix M'.labelling M'.initialState (fun s j => if s = j then 0 else if s = 0 then 1/4 else 1/2) (fun s => if s = 0 then "init" else "a")
          (fun s => if s = 0 then 1 else 0) := by
  have h := pctmc_prism_instance_partial decIO polyIO polyBoth (name := "m".toList) (by decide) (m := polyIndex) (by decide) (by decide)
    (label := fun s => if s = 0 then "init" else "a") (by decide) (by decide +kernel) (start := 0) (by decide +kernel) (by decide) (by decide)
    (by decide +kernel) (by decide) (by decide) (by
      intro p hp v hv
      have : v = 1/2 := by
        rcases List.mem_cons.1 hp with rfl | hp
        · exact (Option.some.inj hv).symm
        · rcases List.mem_cons.1 hp with rfl | hp
          · exact (Option.some.inj hv).symm
          · cases hp
      subst this
      exact ⟨⟨1, by decide +kernel⟩, dec_decimal _ ⟨1, by decide +kernel⟩ (by norm_num)⟩)
    (fun i j hij e he => poly_text (poly_exprs rfl i j hij e he)) (ρ := fun _ => 1/2) (by decide +kernel) (by
      intro i j hij x hx
      rcases poly_exprs rfl i j hij x hx with rfl | rfl <;> simp [Expr.at])
  have e : (fun s j : Fin 2 => if polyIndex s j = 0 then (0 : ℚ) else ((polyBoth.exprs[polyIndex s j]?).map (Expr.at (fun _ => 1/2))).getD 0) =
      fun s j => if s = j then 0 else if s = 0 then 1/4 else 1/2 := by
    funext s j
    fin_cases s <;> fin_cases j <;> decide +kernel
  rw [e] at h
  exact h

end Prism
end Jajapy
