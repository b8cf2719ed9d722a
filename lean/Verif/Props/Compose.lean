import Verif.Lemmas.Compose
import Verif.Props.PReduce

/-!
C48: the synchronous composition of two CTMCs.
-/

namespace Jajapy.Compose

open PCTMC Spec

variable {K : Type} [Field K] [LinearOrder K] [IsStrictOrderedRing K]

/-- The state number `x` of the composition. -/
def dec (n1 n2 x : ℕ) : Option (ℕ × ℕ) := if x < n1 * n2 then some (x / n2, x % n2) else none

omit [Field K] [LinearOrder K] [IsStrictOrderedRing K] in
theorem dec_pair {n1 n2 i j : ℕ} (hi : i < n1) (hj : j < n2) : dec n1 n2 (i * n2 + j) = some (i, j) := by
  have hp : 0 < n2 := by omega
  rw [dec, if_pos (pair_lt hi hj), Nat.mul_comm, Nat.mul_add_div hp, Nat.div_eq_of_lt hj, Nat.add_zero, Nat.mul_add_mod,
    Nat.mod_eq_of_lt hj]

theorem dec_cases {n1 n2 x : ℕ} (hx : x < n1 * n2 + 1) :
    (∃ i j, i < n1 ∧ j < n2 ∧ x = i * n2 + j ∧ dec n1 n2 x = some (i, j)) ∨ (x = n1 * n2 ∧ dec n1 n2 x = none) := by
  by_cases h : x < n1 * n2
  · have hp : 0 < n2 := Nat.pos_of_mul_pos_left (by omega : 0 < n1 * n2)
    refine Or.inl ⟨x / n2, x % n2, (Nat.div_lt_iff_lt_mul hp).2 h, Nat.mod_lt _ hp, (Nat.div_add_mod' x n2).symm, ?_⟩
    rw [dec, if_pos h]
  · exact Or.inr ⟨by omega, by rw [dec, if_neg h]⟩

theorem dec_inj {n1 n2 x y : ℕ} (hx : x < n1 * n2 + 1) (hy : y < n1 * n2 + 1) (h : dec n1 n2 x = dec n1 n2 y) : x = y := by
  rcases dec_cases hx with ⟨i, j, _, _, e1, e2⟩ | ⟨e1, e2⟩ <;> rcases dec_cases hy with ⟨i', j', _, _, e1', e2'⟩ | ⟨e1', e2'⟩ <;>
    rw [e2, e2'] at h
  · injection h with h
    injection h with h1 h2
    rw [e1, e1', h1, h2]
  · simp at h
  · simp at h
  · rw [e1, e1']

theorem flatMap_get {α : Type} (n1 n2 : ℕ) (f : ℕ → ℕ → α) {i j : ℕ} (hi : i < n1) (hj : j < n2) :
    ((List.range n1).flatMap (fun i => (List.range n2).map (f i)))[i * n2 + j]? = some (f i j) := by
  have hlen : ∀ n, ((List.range n).flatMap (fun i => (List.range n2).map (f i))).length = n * n2 := by
    intro n
    induction n with
    | zero => simp
    | succ n ih => rw [List.range_succ, List.flatMap_append, List.length_append, ih]; simp [Nat.add_mul]
  induction n1 with
  | zero => omega
  | succ n ih =>
    rw [List.range_succ, List.flatMap_append]
    by_cases h : i < n
    · rw [List.getElem?_append_left (by rw [hlen]; exact pair_lt h hj)]
      exact ih h
    · have : i = n := by omega
      subst this
      rw [List.getElem?_append_right (by rw [hlen]; omega), hlen]
      simp [hj]

theorem flatMap_len {α : Type} (n n2 : ℕ) (f : ℕ → ℕ → α) :
    ((List.range n).flatMap (fun i => (List.range n2).map (f i))).length = n * n2 := by
  induction n with
  | zero => simp
  | succ n ih => rw [List.range_succ, List.flatMap_append, List.length_append, ih]; simp [Nat.add_mul]

/-- The model before the removal of the unreachable states. -/
theorem composeRaw_spec {c : Ctx K} {l1 l2 : List String} (h : Ready c l1 l2)
    (hp1 : ∀ i < l1.length, 0 ≤ c.m1.rate l1.length i) (hp2 : ∀ j < l2.length, 0 ≤ c.m2.rate l2.length j)
    (hloop : (∀ i < l1.length, c.m1.rate i i = 0) ∨ (∀ j < l2.length, c.m2.rate j j = 0))
    (hs1 : ∀ t ∈ c.m1.sync, t.1 < l1.length ∧ t.2.2.1 < l1.length)
    (hs2 : ∀ t ∈ c.m2.sync, t.1 < l2.length ∧ t.2.2.1 < l2.length) :
    ∃ R, composeRaw c = .ok R ∧ R.WF ∧ R.IndexesInRange ∧ R.Full ∧ R.indexes.length = R.names.length ∧
      R.matrix.length = l1.length * l2.length + 1 ∧ R.exprs[0]? = some (.num 0) ∧
      (∀ x < l1.length * l2.length + 1, R.labelling.getD x "" = label l1 l2 (dec l1.length l2.length x)) ∧
      (R.exprs.length ≤ 256 → ∀ x y, x < l1.length * l2.length + 1 → y < l1.length * l2.length + 1 →
        (R.rateExpr x y).den (valOf R.values) = rate c.m1 c.m2 l1.length l2.length (dec l1.length l2.length x) (dec l1.length l2.length y)) := by
  obtain ⟨a1, a2, a3⟩ := h.interleaved hloop
  obtain ⟨B1, b1, b2, b3, b4, b5, b6⟩ := h.sync a1 hs1 hs2
  obtain ⟨B, d1, d2, d3, d4⟩ := h.init b2 (by rw [b3]; exact a2) hp1 hp2
  unfold composeRaw
  have hsl : selfLoops c (addAll (addAll Build.empty (params1 c)) (params2 c)) = interleaved c := h.selfLoops hloop _
  simp only [hsl, b1, d1, bind, Except.bind, pure, Except.pure, h.nb]
  have hent : ∀ x y, x < l1.length * l2.length + 1 → y < l1.length * l2.length + 1 →
      (((List.range (l1.length * l2.length + 1)).map (fun x => (List.range (l1.length * l2.length + 1)).map (fun y => B.matrix x y))).getD x []).getD y 0 = B.matrix x y := by
    intro x y hx hy
    simp [List.getD_eq_getElem?_getD, hx, hy]
  have hlab : (labels c).length = l1.length * l2.length + 1 := by
    unfold labels
    rw [h.sids1, h.sids2, List.length_append, flatMap_len]
    rfl
  refine ⟨_, rfl, ⟨?_, ?_, ?_, ?_, ?_⟩, ?_, ?_, d2.len, by simp, d2.zero, ?_, ?_⟩
  · intro row hrow
    obtain ⟨x, _, rfl⟩ := List.mem_map.1 hrow
    simp
  · simp [hlab]
  · simp
  · intro row hrow t ht
    obtain ⟨x, _, rfl⟩ := List.mem_map.1 hrow
    obtain ⟨y, _, rfl⟩ := List.mem_map.1 ht
    exact d2.mat x y
  · exact d2.decl
  · intro l hl q hq
    simpa using d2.inR l hl q hq
  · exact fun p hp => (d2.known p).1 hp
  · intro x hx
    show (labels c).getD x "" = _
    unfold labels
    rw [h.sids1, h.sids2]
    rcases dec_cases hx with ⟨i, j, hi, hj, rfl, e⟩ | ⟨rfl, e⟩
    · rw [e, List.getD_eq_getElem?_getD, List.getElem?_append_left (by rw [flatMap_len]; exact pair_lt hi hj), flatMap_get _ _ _ hi hj,
        h.init1.1, h.init2.1]
      simp [label, List.getElem?_append_left hi, List.getElem?_append_left hj]
    · rw [e, List.getD_eq_getElem?_getD, List.getElem?_append_right (by rw [flatMap_len]), flatMap_len]
      simp [label]
  · intro hl x y hx hy
    have hl : B.exprs.length ≤ 256 := hl
    obtain ⟨f1, f2⟩ := d4 hl
    obtain ⟨g1, g2⟩ := b6 (by omega)
    obtain ⟨k1, k2⟩ := a3 (by omega)
    have hv : ∀ x y, x < l1.length * l2.length + 1 → y < l1.length * l2.length + 1 → (PCTMC.rateExpr (PCTMC.mk
        ((List.range (l1.length * l2.length + 1)).map (fun x => (List.range (l1.length * l2.length + 1)).map (fun y => B.matrix x y)))
        (labels c) B.exprs B.values B.indexes B.names (List.replicate (l1.length * l2.length + 1) 0) []) x y).den (valOf B.values) = val B x y := by
      intro x y hx hy
      rw [rateExpr, hent x y hx hy]
      rfl
    refine (hv x y hx hy).trans ?_
    rcases dec_cases hx with ⟨i, j, hi, hj, rfl, e⟩ | ⟨rfl, e⟩ <;> rcases dec_cases hy with ⟨i', j', hi', hj', rfl, e'⟩ | ⟨rfl, e'⟩ <;>
      simp only [e, e']
    · have := pair_lt hi hj
      rw [f2 _ _ (by omega), g1 i j i' j' hi hj hi' hj', k1 i j i' j' hi hj hi' hj']
      rfl
    · rw [f2 _ _ (by omega), g2 _ _ (by omega), k2 _ _ (by omega)]
      rfl
    · rw [f1 i' j' hi' hj']
      rfl
    · rw [f2 _ _ (by omega), g2 _ _ (by omega), k2 _ _ (by omega)]
      rfl

omit [LinearOrder K] [IsStrictOrderedRing K] in
theorem removeLoop_bound (bad : PCTMC K → ℕ → Bool) (M : PCTMC K) (s N : ℕ) (h : ∀ row ∈ M.matrix, ∀ t ∈ row, t < N) :
    (removeLoop bad M s).exprs = M.exprs ∧ ∀ row ∈ (removeLoop bad M s).matrix, ∀ t ∈ row, t < N := by
  induction M, s using removeLoop.induct bad with
  | case1 M s hs hb ih =>
    rw [removeLoop, dif_pos hs, if_pos hb]
    refine ih ?_
    intro row hrow t ht
    obtain ⟨r, hr, rfl⟩ := List.mem_map.1 hrow
    exact h r (List.mem_of_mem_eraseIdx hr) t (List.mem_of_mem_eraseIdx ht)
  | case2 M s hs hb ih =>
    rw [removeLoop, dif_pos hs, if_neg hb]
    exact ih h
  | case3 M s hs =>
    rw [removeLoop, dif_neg hs]
    exact ⟨rfl, h⟩

/-- A composed label is not 'init': it has a comma. -/
theorem label_init (l1 l2 : List String) (s : Option (ℕ × ℕ)) : label l1 l2 s = "init" ↔ s = none := by
  constructor
  · intro h
    cases s with
    | none => rfl
    | some a =>
      have h2 := congrArg (fun t : String => ',' ∈ t.toList) h
      simp [label, String.toList_append] at h2
  · rintro rfl
    rfl

/-- C48, for two components whose only initial state is the last one, when the second component has at most one state more than
the first one, at most one of the components has self-loops, and the composition needs at most 256 expressions: the call
succeeds and returns the composition — interleaved transitions, products of the rates for the common actions, product of the
initial rates, labels joined by a comma — without the states that cannot be reached. Missing: the other pairs of components, on
which the code is wrong (see the counterexamples below). -/
theorem compose_spec_partial [FloorRing K] (m1 m2 : Part K) (l1 l2 : List String) (h1 : InitLast m1 l1) (h2 : InitLast m2 l2)
    (hsize : l2.length ≤ l1.length + 1)
    (hp1 : ∀ i < l1.length, 0 ≤ m1.rate l1.length i) (hp2 : ∀ j < l2.length, 0 ≤ m2.rate l2.length j)
    (hloop : (∀ i < l1.length, m1.rate i i = 0) ∨ (∀ j < l2.length, m2.rate j j = 0))
    (hs1 : ∀ t ∈ m1.sync, t.1 < l1.length ∧ t.2.2.1 < l1.length)
    (hs2 : ∀ t ∈ m2.sync, t.1 < l2.length ∧ t.2.2.1 < l2.length) :
    ∃ M, compose m1 m2 = .ok M ∧ M.WF ∧ M.Full ∧
      (M.exprs.length ≤ 256 → ∃ st, IsComposition m1 m2 l1 l2 M st) := by
  have h : Ready (⟨m1, m2⟩ : Ctx K) l1 l2 := ⟨h1, h2, hsize⟩
  obtain ⟨R, r1, r2, r3, r4, r5, r6, r7, r8, r9⟩ := composeRaw_spec h hp1 hp2 hloop hs1 hs2
  obtain ⟨keep, k1, k2, k3⟩ := removeUnreachable_spec R r2 r3
  have hex : R.removeUnreachable.exprs = R.exprs := (removeLoop_bound _ R 0 _ r2.bound).1
  have hreachinit : R.Reachable (l1.length * l2.length) := by
    refine ⟨l1.length * l2.length, by omega, ?_, Relation.ReflTransGen.refl⟩
    rw [r8 _ (by omega), dec, if_neg (by omega)]
    rfl
  have hkeep := k2 _ hreachinit
  have hkr : ∀ k ∈ keep, k < l1.length * l2.length + 1 := fun k hk => by rw [← r6]; exact k1.inRange k hk
  have hlabels : R.removeUnreachable.labelling = (keep.map (dec l1.length l2.length)).map (label l1 l2) := by
    rw [k1.labels, List.map_map]
    exact List.map_congr_left (fun k hk => r8 k (hkr k hk))
  have hinit : "init" ∈ R.removeUnreachable.labelling := by
    rw [hlabels, List.map_map]
    refine List.mem_map.2 ⟨_, hkeep, ?_⟩
    simp only [Function.comp]
    rw [dec, if_neg (by omega)]
    rfl
  have hvals : (R.removeUnreachable.values.map (fun q => (q.1, some q.2))).filterMap (fun p => p.2.map (fun x => (p.1, x))) = R.values := by
    rw [k1.values, List.filterMap_map]
    simp
  have hbound : ∀ row ∈ R.removeUnreachable.matrix, ∀ t ∈ row, t < R.removeUnreachable.exprs.length := by
    rw [hex]
    exact (removeLoop_bound _ R 0 _ r2.bound).2
  have hok := (mkPCTMC_ok_iff R.removeUnreachable.matrix R.removeUnreachable.labelling R.removeUnreachable.exprs
    (R.removeUnreachable.values.map (fun q => (q.1, some q.2))) R.removeUnreachable.indexes R.removeUnreachable.names [] k1.square
    (PCTMC.mk R.removeUnreachable.matrix R.removeUnreachable.labelling R.removeUnreachable.exprs R.values R.removeUnreachable.indexes R.removeUnreachable.names
      (R.removeUnreachable.labelling.map (fun i => if i = "init" then 1 / (R.removeUnreachable.labelling.count "init" : K) else 0)) [])).2
    ⟨⟨hinit, by rw [k1.used.1, k1.names, r5], hbound, by rw [k1.labels, List.length_map, k1.size]⟩,
      rfl, rfl, rfl, rfl, rfl, rfl, hvals.symm, rfl⟩
  refine ⟨_, by rw [compose, r1]; exact hok, ?_, ?_, ?_⟩
  · refine mkPCTMC_wf _ _ _ _ _ _ _ k1.square ?_ _ hok
    rw [hex, k1.names]
    exact r2.declared
  · intro p hp
    exact r4 p (by rw [← k1.names]; exact hp)
  · intro hl
    have hl : R.exprs.length ≤ 256 := by rw [← hex]; exact hl
    have hnd : (keep.map (dec l1.length l2.length)).Nodup := by
      rw [List.Nodup, List.pairwise_map]
      refine k1.sorted.imp_of_mem (fun {a b} ha hb hab he => ?_)
      have := dec_inj (hkr a ha) (hkr b hb) he
      omega
    have hnone : none ∈ keep.map (dec l1.length l2.length) :=
      List.mem_map.2 ⟨_, hkeep, by rw [dec, if_neg (by omega)]⟩
    refine ⟨keep.map (dec l1.length l2.length), ⟨?_, hnd, ?_, hnone, ?_, hlabels, ?_, ?_⟩⟩
    · rw [List.length_map]; exact k1.size
    · intro s hs a ha
      obtain ⟨k, hk, rfl⟩ := List.mem_map.1 hs
      rcases dec_cases (hkr k hk) with ⟨i, j, hi, hj, _, e⟩ | ⟨_, e⟩ <;> rw [e] at ha
      · injection ha with ha
        rw [← ha]; exact ⟨hi, hj⟩
      · simp at ha
    · intro ρ hρ a b ha hb
      rw [List.length_map] at ha hb
      rw [List.getElem_map, List.getElem_map, ← r9 hl _ _ (hkr _ (List.getElem_mem ha)) (hkr _ (List.getElem_mem hb))]
      have e1 : PCTMC.rateExpr (PCTMC.mk R.removeUnreachable.matrix R.removeUnreachable.labelling R.removeUnreachable.exprs R.values R.removeUnreachable.indexes R.removeUnreachable.names
          (R.removeUnreachable.labelling.map (fun i => if i = "init" then 1 / (R.removeUnreachable.labelling.count "init" : K) else 0)) []) a b
          = R.rateExpr keep[a] keep[b] := k1.rate a b ha hb
      rw [e1]
      refine den_congr _ (fun p hp => ?_)
      have hm := rateExpr_mem R r2 (i := keep[a]) (j := keep[b]) (k1.inRange _ (List.getElem_mem ha)) (k1.inRange _ (List.getElem_mem hb))
      obtain ⟨x, hx⟩ := (lookup_known R.values p).2 (r4 p (r2.declared _ hm p hp))
      rw [hρ p x hx, valOf, hx]
      rfl
    · show R.removeUnreachable.labelling.map _ = _
      have hcount : R.removeUnreachable.labelling.count "init" = 1 := by
        have e : R.removeUnreachable.labelling.count "init" = (keep.map (dec l1.length l2.length)).count none := by
          rw [hlabels, List.count, List.countP_map, List.count]
          refine List.countP_congr (fun s _ => ?_)
          simp [label_init]
        rw [e]
        exact List.count_eq_one_of_mem hnd hnone
      rw [hcount, hlabels, List.map_map]
      refine List.map_congr_left (fun s _ => ?_)
      simp [label_init]
    · intro s hs
      have : ∀ s, Relation.ReflTransGen (fun a b => IsState l1.length l2.length a ∧ IsState l1.length l2.length b ∧
          rate m1 m2 l1.length l2.length a b ≠ 0) none s → ∃ k < l1.length * l2.length + 1, dec l1.length l2.length k = s ∧ R.Reachable k := by
        intro s hs
        induction hs with
        | refl => exact ⟨_, by omega, by rw [dec, if_neg (by omega)], hreachinit⟩
        | @tail b d _ hst ih =>
          obtain ⟨k, hk, e, hr⟩ := ih
          obtain ⟨_, hd, hne⟩ := hst
          have hk' : ∃ k' < l1.length * l2.length + 1, dec l1.length l2.length k' = d := by
            cases d with
            | none => exact ⟨l1.length * l2.length, by omega, by rw [dec, if_neg (by omega)]⟩
            | some a =>
              obtain ⟨ha1, ha2⟩ := hd a rfl
              have := pair_lt ha1 ha2
              exact ⟨a.1 * l2.length + a.2, by omega, dec_pair ha1 ha2⟩
          obtain ⟨k', hk', e'⟩ := hk'
          refine ⟨k', hk', e', ?_⟩
          obtain ⟨i, hi1, hi2, hi3⟩ := hr
          refine ⟨i, hi1, hi2, hi3.tail ⟨by omega, by omega, ?_⟩⟩
          intro h0
          apply hne
          rw [← e, ← e', ← r9 hl k k' hk hk', rateExpr, h0, List.getD_eq_getElem?_getD, r7]
          rfl
      obtain ⟨k, _, e, hr⟩ := this s hs
      exact List.mem_map.2 ⟨k, k2 k hr, e⟩

/-! ### A case of the theorem -/

/-- Rates given by a list of triples. -/
def table (l : List (ℕ × ℕ × ℚ)) (i j : ℕ) : ℚ := ((l.find? (fun t => t.1 = i ∧ t.2.1 = j)).map (fun t => t.2.2)).getD 0

/-- Two states `a`, `b` and the initial state; `a` → `b` at rate 2, `b` → `a` at rate 3; the action `x` from `a` to `b` at rate 5. -/
def exPart1 : Part ℚ where
  rate := table [(0, 1, 2), (1, 0, 3), (2, 0, 1)]
  labelling := ["a", "b", "init"]
  sync := [(0, "x", 1, 5)]

/-- Two states `c`, `d` and the initial state; a self-loop on `c` at rate 4, the action `x` from `c` to `d` at rate 7, an action
`y` from `d` to `c`. -/
def exPart2 : Part ℚ where
  rate := table [(0, 0, 4), (2, 0, 1)]
  labelling := ["c", "d", "init"]
  sync := [(0, "x", 1, 7), (1, "y", 0, 11)]

/-- The hypotheses of `compose_spec_partial` are met, and the composition can be computed: (a,c), (a,d), (b,c), (b,d), init; the
synchronised transition (a,c) → (b,d) has rate 35. -/
example : ∃ M, compose exPart1 exPart2 = .ok M ∧ M.WF ∧ M.Full ∧
    (M.exprs.length ≤ 256 → ∃ st, IsComposition exPart1 exPart2 ["a", "b"] ["c", "d"] M st) := by
  have hz : ∀ (l : List (ℕ × ℕ × ℚ)) i, (∀ k < 2, 0 ≤ table l i k) → ∀ k < 2, 0 ≤ table l i k := fun _ _ h => h
  refine compose_spec_partial exPart1 exPart2 ["a", "b"] ["c", "d"] ⟨rfl, by decide⟩ ⟨rfl, by decide⟩ (by decide) ?_ ?_
    (Or.inl ?_) ?_ ?_
  · exact hz _ 2 (by decide +kernel)
  · exact hz _ 2 (by decide +kernel)
  · show ∀ i < 2, table [(0, 1, 2), (1, 0, 3), (2, 0, 1)] i i = 0
    decide +kernel
  · simp [exPart1]
  · simp [exPart2]

/-- The loop of the removal with a bound on the number of steps. -/
def removeFuel (bad : PCTMC ℚ → ℕ → Bool) : ℕ → PCTMC ℚ → ℕ → Option (PCTMC ℚ)
  | 0, _, _ => none
  | fuel + 1, M, s =>
    if s < M.matrix.length then
      if bad M s then removeFuel bad fuel (M.removeState s) 0 else removeFuel bad fuel M (s + 1)
    else some M

theorem removeFuel_eq (bad : PCTMC ℚ → ℕ → Bool) (fuel : ℕ) (M : PCTMC ℚ) (s : ℕ) (M' : PCTMC ℚ)
    (h : removeFuel bad fuel M s = some M') : removeLoop bad M s = M' := by
  induction fuel generalizing M s with
  | zero => simp [removeFuel] at h
  | succ fuel ih =>
    rw [removeLoop]
    rw [removeFuel] at h
    by_cases h1 : s < M.matrix.length
    · rw [dif_pos h1]
      rw [if_pos h1] at h
      by_cases h2 : bad M s = true
      · rw [if_pos h2] at h ⊢
        exact ih _ _ h
      · rw [if_neg h2] at h ⊢
        exact ih _ _ h
    · rw [dif_neg h1]
      rw [if_neg h1] at h
      injection h

/-- The composition with a bound on the number of steps of the removal, to compute examples. -/
def composeFuel (fuel : ℕ) (m1 m2 : Part ℚ) : Option (Py (PCTMC ℚ)) :=
  match composeRaw ⟨m1, m2⟩ with
  | .error e => some (.error e)
  | .ok R =>
    match removeFuel (fun M i => M.matrix.all (fun row => row.getD i 0 == 0) && decide (M.labelling.getD i "" ≠ "init")) fuel R 0 with
    | none => none
    | some R => some (mkPCTMC R.matrix R.labelling R.exprs (R.values.map (fun q => (q.1, some q.2))) R.indexes R.names [])

theorem composeFuel_eq (fuel : ℕ) (m1 m2 : Part ℚ) (r : Py (PCTMC ℚ)) (h : composeFuel fuel m1 m2 = some r) : compose m1 m2 = r := by
  unfold composeFuel at h
  unfold compose
  cases hR : composeRaw (⟨m1, m2⟩ : Ctx ℚ) with
  | error e => rw [hR] at h; injection h with h
  | ok R =>
    rw [hR] at h
    dsimp only at h
    split at h
    · cases h
    · rename_i R' hR'
      have : R.removeUnreachable = R' := removeFuel_eq _ fuel R 0 R' hR'
      simp only [bind, Except.bind, this]
      injection h

/-- What the call returns: the labels and the values of the rates. -/
def show_ (r : Py (PCTMC ℚ)) : Option (List String × List (List (Option ℚ))) :=
  match r with
  | .ok M => some (M.labelling, (List.range M.nb).map (fun i => (List.range M.nb).map (fun j => (M.rateExpr i j).eval M.values)))
  | .error _ => none

theorem show_fuel (fuel : ℕ) (m1 m2 : Part ℚ) (r : Option (List String × List (List (Option ℚ))))
    (h : (composeFuel fuel m1 m2).map show_ = some r) : show_ (compose m1 m2) = r := by
  rw [Option.map_eq_some_iff] at h
  obtain ⟨x, hx, rfl⟩ := h
  rw [composeFuel_eq fuel m1 m2 x hx]

example : show_ (compose exPart1 exPart2) = some (["a,c", "a,d", "b,c", "b,d", "init"],
    [[some 4, some 0, some 2, some 35, some 0],
     [some 0, some 0, some 0, some 2, some 0],
     [some 3, some 0, some 4, some 0, some 0],
     [some 0, some 3, some 0, some 0, some 0],
     [some 1, some 0, some 0, some 0, some 0]]) := show_fuel 20 _ _ _ (by decide +kernel)

/-! ### Where the composition is wrong -/

/-- The initial state is the first one instead of the last one; `a` → `b` at rate 2. -/
def exInitFirst : Part ℚ where
  rate := table [(0, 1, 1), (1, 2, 2)]
  labelling := ["init", "a", "b"]
  sync := []

/-- One state. -/
def exOne : Part ℚ where
  rate := table [(1, 0, 1)]
  labelling := ["c", "init"]
  sync := []

/-- C48 is violated: if the initial state of the first component is not the last one then its states are shifted by one: there is
a composed state labelled 'init,c', no state labelled 'b,c', and the transition from `a` to `b` is lost. -/
theorem compose_init_first : show_ (compose exInitFirst exOne) = some (["a,c", "init"], [[some 0, some 0], [some 1, some 0]]) :=
  show_fuel 20 _ _ _ (by decide +kernel)

/-- Three states. -/
def exThree : Part ℚ where
  rate := table [(0, 1, 1), (1, 2, 1), (3, 0, 1)]
  labelling := ["d", "e", "f", "init"]
  sync := []

/-- C48 is violated: if the second component has two states more than the first one then the call raises ValueError. (The states
of the second component are numbered with the labels of the first one.) -/
theorem compose_second_larger : compose exOne exThree = .error .valueError ∧
    show_ (compose exThree exOne) = some (["d,c", "e,c", "f,c", "init"],
      [[some 0, some 1, some 0, some 0], [some 0, some 0, some 1, some 0], [some 0, some 0, some 0, some 0], [some 1, some 0, some 0, some 0]]) := by
  refine ⟨?_, show_fuel 20 _ _ _ (by decide +kernel)⟩
  have h : (match composeRaw (⟨exOne, exThree⟩ : Ctx ℚ) with | .ok _ => none | .error e => some e) = some Err.valueError := by decide +kernel
  unfold compose
  split at h
  · cases h
  · rename_i e he
    injection h with h
    subst h
    rw [he]
    rfl

/-- One state with a self-loop. -/
def exLoop : Part ℚ where
  rate := table [(0, 0, 3), (1, 0, 1)]
  labelling := ["c", "init"]
  sync := []

/-- C48 is violated: if both components have a self-loop then the rate of the composed self-loop uses parameters that do not
exist: every parameter has a value and the rate has none. -/
theorem compose_double_loop : show_ (compose exLoop exLoop) = some (["c,c", "init"], [[none, some 0], [some 1, some 0]]) ∧
    ∃ M, compose exLoop exLoop = .ok M ∧ M.isInstantiated = true := by
  refine ⟨show_fuel 20 _ _ _ (by decide +kernel), ?_⟩
  have : ((composeFuel 20 exLoop exLoop).map (fun r => match r with | .ok M => M.isInstantiated | .error _ => false)) = some true := by
    decide +kernel
  rw [Option.map_eq_some_iff] at this
  obtain ⟨x, hx, h⟩ := this
  rw [composeFuel_eq 20 _ _ x hx]
  cases x with
  | ok M => exact ⟨M, rfl, h⟩
  | error _ => cases h

/-- One state with sixteen synchronous self-loops. -/
def exMany : Part ℚ where
  rate := table [(1, 0, 1)]
  labelling := ["c", "init"]
  sync := List.replicate 16 (0, "x", 0, 1)

/-- C48 is violated: with more than 256 expressions the indexes overflow. Here the rate of the composed self-loop should be 256
and is 0. -/
theorem compose_overflow : show_ (compose exMany exMany) = some (["c,c", "init"], [[some 0, some 0], [some 1, some 0]]) ∧
    rate exMany exMany 1 1 (some (0, 0)) (some (0, 0)) = 256 :=
  ⟨show_fuel 20 _ _ _ (by decide +kernel), by decide +kernel⟩

end Jajapy.Compose
