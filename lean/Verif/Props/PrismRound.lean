import Verif.Props.Prism
import Verif.Props.Storm
import Verif.Props.StormImport

/-!
C77: saving a model to a Prism file and loading this file gives back the model (its part that can be reached).
-/

namespace Jajapy.Prism

open Spec.Prism Spec.Storm Files Finset

set_option linter.unusedSectionVars false

variable {K : Type} [Field K] [LinearOrder K] [IsStrictOrderedRing K] [FloorRing K] (IO : FloatIO K) {n : ℕ}

theorem to_ne_zero {c : Command K} {j : ℕ} (h : c.to j ≠ 0) : ∃ u ∈ c.updates, u.2 = j := by
  by_contra hn
  push Not at hn
  apply h
  unfold Command.to
  rw [List.filter_eq_nil_iff.2 (by intro u hu; simpa using hn u hu)]
  rfl

theorem reachable_lt {P : Program K K} {kind : ModelType} {start : Fin n} {choices : Fin n → List (Option (List Char) × (Fin n → K))}
    {label : Fin n → String} (hD : Describes P kind start choices label) {s : ℕ} (h : Reachable P s) : s < n := by
  induction h with
  | init => rw [hD.init]; exact start.2
  | @step s j c hs hc hj ih =>
    obtain ⟨u, hu, rfl⟩ := to_ne_zero hj
    have hf := hD.choices ⟨s, ih⟩
    rw [List.forall₂_iff_get] at hf
    obtain ⟨a, ha, rfl⟩ := List.getElem_of_mem hc
    exact (hf.2 a ha (hf.1 ▸ ha)).2.1 u hu

theorem enabled_none {P : Program K K} {kind : ModelType} {start : Fin n} {m : Fin n → Fin n → K} {label : Fin n → String}
    (hD : Describes P kind start (chainChoices m) label) (s : Fin n) : enabled P s = [] ↔ ∀ j, m s j = 0 := by
  have hf := (hD.choices s).length_eq
  unfold chainChoices at hf
  split_ifs at hf with h
  · constructor
    · intro e; rw [e] at hf; cases hf
    · intro e; obtain ⟨j, hj⟩ := h; exact absurd (e j) hj
  · push Not at h
    exact ⟨fun _ => h, fun _ => List.eq_nil_of_length_eq_zero hf⟩

theorem enabled_some {P : Program K K} {kind : ModelType} {start : Fin n} {m : Fin n → Fin n → K} {label : Fin n → String}
    (hD : Describes P kind start (chainChoices m) label) {s : Fin n} (h : ∃ j, m s j ≠ 0) :
    ∃ c, enabled P s = [c] ∧ ∀ j : Fin n, c.to j = m s j := by
  have hf := hD.choices s
  unfold chainChoices at hf
  rw [if_pos h] at hf
  generalize enabled P s = l at hf ⊢
  cases hf with
  | cons h1 h2 =>
    cases h2
    exact ⟨_, rfl, h1.2.2⟩

/-- The sparse model of the program of a chain is the part of the chain that can be reached; a state that is never left has a loop of value 1. -/
structure Restricts (S : Storm.Sparse K) (m : Fin n → Fin n → K) (label : Fin n → String) (start : Fin n) (f : Fin S.states.length → Fin n)
    (k : Fin S.states.length) : Prop where
  inj : Function.Injective f
  start : f k = start
  only : OnlyInit S k
  plain : ¬ Named (labels S k)
  names : ∀ i : Fin S.states.length, name (labels S i) = label (f i)
  value : ∀ i j : Fin S.states.length, value S i 0 j = if ∀ j, m (f i) j = 0 then (if i = j then 1 else 0) else m (f i) (f j)
  closed : ∀ i j, m (f i) j ≠ 0 → ∃ i', f i' = j

theorem name_of {L : List String} {l : String} (hL : L.Nodup) (hl : l ≠ "init" ∧ l ≠ "deadlock") (h : ∀ x, x ≠ "deadlock" → (x ∈ L ↔ x = l)) :
    name L = l := by
  have : L.filter (fun x => x ≠ "deadlock" ∧ x ≠ "init") = [l] := by
    have h1 : (L.filter (fun x => x ≠ "deadlock" ∧ x ≠ "init")).Nodup := hL.filter _
    have h2 : ∀ x, x ∈ L.filter (fun x => x ≠ "deadlock" ∧ x ≠ "init") ↔ x = l := by
      intro x
      simp only [List.mem_filter, decide_eq_true_eq]
      constructor
      · rintro ⟨h1, h2, _⟩
        exact (h x h2).1 h1
      · rintro rfl
        exact ⟨(h x hl.2).2 rfl, hl.2, hl.1⟩
    exact List.perm_singleton.1 ((List.perm_ext_iff_of_nodup h1 (by simp)).2 (by simpa using h2))
  unfold name
  rw [this]
  simp

/-- The states of the sparse model. -/
theorem built_states {P : Program K K} {kind : ModelType} {start : Fin n} {choices : Fin n → List (Option (List Char) × (Fin n → K))}
    {label : Fin n → String} (hD : Describes P kind start choices label) (hi : ∀ s, label s = "init" ↔ s = start)
    (hd : ∀ s, label s ≠ "deadlock") {S : Storm.Sparse K} {e : Fin S.states.length → ℕ} (hB : BuiltStates P S e) :
    ∃ (f : Fin S.states.length → Fin n) (k : Fin S.states.length), (∀ i, (f i).val = e i) ∧ Function.Injective f ∧ f k = start ∧ OnlyInit S k ∧
      ¬ Named (labels S k) ∧ ∀ i : Fin S.states.length, name (labels S i) = label (f i) := by
  have hlt : ∀ i, e i < n := fun i => reachable_lt hD ((hB.range _).2 ⟨i, rfl⟩)
  obtain ⟨k, hk⟩ := (hB.range P.init).1 .init
  have hstart : ∀ i, e i = P.init ↔ i = k := by
    intro i
    rw [← hk]
    exact hB.inj.eq_iff
  have hnodup : ∀ i : Fin S.states.length, (labels S i).Nodup := by
    intro i
    have : labels S i = (S.states[i]).labels := by
      unfold labels
      rw [List.getElem?_eq_getElem i.2]
      rfl
    rw [this]
    exact hB.valid.labels _ (List.getElem_mem i.2)
  have hmem : ∀ (i : Fin S.states.length) (l : String), l ≠ "deadlock" → (l ∈ labels S i ↔ l = label ⟨e i, hlt i⟩) := by
    intro i l hl
    rw [hB.labels, hD.labels]
    constructor
    · rintro (⟨rfl, h⟩ | ⟨h, _⟩ | ⟨_, _, h⟩)
      · exact ((hi _).2 (Fin.ext (h.trans hD.init))).symm
      · exact absurd h hl
      · exact (String.toList_inj.1 h).symm
    · rintro rfl
      by_cases h : label ⟨e i, hlt i⟩ = "init"
      · exact Or.inl ⟨h, (congrArg Fin.val ((hi _).1 h)).trans hD.init.symm⟩
      · exact Or.inr (Or.inr ⟨hlt i, h, rfl⟩)
  refine ⟨fun i => ⟨e i, hlt i⟩, k, fun _ => rfl, ?_, ?_, ⟨k.2, ?_⟩, ?_, ?_⟩
  · intro i j h
    exact hB.inj (congrArg Fin.val h)
  · exact Fin.ext (hk.trans hD.init)
  · intro i h
    rw [hmem ⟨i, h⟩ "init" (by decide), eq_comm, hi, ← hstart ⟨i, h⟩ |>.trans (Fin.ext_iff), hD.init, Fin.ext_iff]
  · rintro ⟨l, h1, h2, h3⟩
    rw [hmem k l h2] at h1
    exact h3 (h1.trans ((hi _).2 (Fin.ext (hk.trans hD.init))))
  · intro i
    by_cases h : label ⟨e i, hlt i⟩ = "init"
    · have : (labels S i).filter (fun x => x ≠ "deadlock" ∧ x ≠ "init") = [] := by
        rw [List.filter_eq_nil_iff]
        intro x hx
        simp only [decide_eq_true_eq, not_and, not_not]
        intro h'
        rw [hmem i x h'] at hx
        exact hx.trans h
      unfold name
      dsimp only
      rw [this, if_pos rfl, if_pos ((hmem i "init" (by decide)).2 h.symm), h]
    · exact name_of (hnodup i) ⟨h, hd _⟩ (hmem i)

theorem built_restricts {P : Program K K} {kind : ModelType} {start : Fin n} {m : Fin n → Fin n → K} {label : Fin n → String}
    (hD : Describes P kind start (chainChoices m) label) (hi : ∀ s, label s = "init" ↔ s = start) (hd : ∀ s, label s ≠ "deadlock")
    {S : Storm.Sparse K} {e : Fin S.states.length → ℕ} (hB : Built P S e) :
    ∃ f k, Restricts S m label start f k := by
  obtain ⟨f, k, hf, h1, h2, h3, h4, h5⟩ := built_states hD hi hd hB.toBuiltStates
  refine ⟨f, k, ⟨h1, h2, h3, h4, h5, ?_, ?_⟩⟩
  · intro i j
    rw [hB.value, ← hf i, ← hf j]
    have hn := enabled_none hD (f i)
    by_cases h : ∀ j, m (f i) j = 0
    · rw [if_pos h, if_pos (hn.2 h)]
    · rw [if_neg h, if_neg (fun h' => h (hn.1 h'))]
      push Not at h
      obtain ⟨c, hc, hto⟩ := enabled_some hD h
      unfold stepValue
      rw [hc]
      have := hto (f j)
      cases P.kind <;> simp [this]
  · intro i j hj
    obtain ⟨c, hc, hto⟩ := enabled_some hD ⟨j, hj⟩
    have hr : Reachable P (e i) := (hB.range _).2 ⟨i, rfl⟩
    have : Reachable P j.val := .step c hr (by rw [← hf i, hc]; simp) (by rw [hto]; exact hj)
    obtain ⟨i', hi'⟩ := (hB.range _).1 this
    exact ⟨i', Fin.ext ((hf i').trans hi')⟩

/-- There is a sparse model with the states of the program and any rows. -/
theorem states_exist {P : Program K K} {kind : ModelType} {start : Fin n} {choices : Fin n → List (Option (List Char) × (Fin n → K))}
    {label : Fin n → String} (hD : Describes P kind start choices label) : ∃ (N : ℕ) (e : Fin N → ℕ), ∀ rs : Fin N → List (Fin N → K),
      ∃ S : Storm.Sparse K, ∃ h : S.states.length = N, BuiltStates P S (fun i => e (i.cast h)) ∧
        (∀ i : Fin S.states.length, (S.states[i]).actions = (rs (i.cast h)).map Storm.sparseRow) ∧
        ∀ (i j : Fin S.states.length) (a : ℕ), value S i a j = match (rs (i.cast h))[a]? with | some r => r (j.cast h) | none => 0 := by
  classical
  let R := {s : Fin n // Reachable P s.val}
  let N := Fintype.card R
  let g : Fin N ≃ R := (Fintype.equivFin R).symm
  let labs : Fin N → List String := fun i => ((if (g i).1 = start then ["init"] else []) ++ (if enabled P (g i).1 = [] then ["deadlock"] else []) ++
    (if label (g i).1 ≠ "init" then [label (g i).1] else [])).dedup
  refine ⟨N, fun i => (g i).1.val, fun rs => ?_⟩
  let S : Storm.Sparse K := ⟨List.ofFn (fun i => ⟨labs i, (rs i).map Storm.sparseRow⟩), [], []⟩
  have hlen : S.states.length = N := by simp [S]
  have hget : ∀ i : Fin S.states.length, S.states[i.val]? = some ⟨labs (i.cast hlen), (rs (i.cast hlen)).map Storm.sparseRow⟩ := by
    intro i
    simp only [S]
    rw [List.getElem?_ofFn, dif_pos (by have := i.2; omega)]
    rfl
  have hvalid : Valid S := by
    refine ⟨?_, ?_, ?_⟩
    · intro s hs
      obtain ⟨i, rfl⟩ := (List.mem_ofFn' _ _).1 hs
      exact List.nodup_dedup _
    · intro s hs r hr
      obtain ⟨i, rfl⟩ := (List.mem_ofFn' _ _).1 hs
      obtain ⟨q, _, rfl⟩ := List.mem_map.1 hr
      exact Storm.nodup_sparseRow _
    · intro s hs r hr q hq
      obtain ⟨i, rfl⟩ := (List.mem_ofFn' _ _).1 hs
      obtain ⟨q, _, rfl⟩ := List.mem_map.1 hr
      rw [hlen]
      exact (Storm.mem_sparseRow.1 hq).1
  refine ⟨S, hlen, ⟨hvalid, ?_, ?_, ?_⟩, ?_, ?_⟩
  · intro i j h
    have := g.injective (Subtype.ext (Fin.ext h))
    simpa using this
  · intro s
    constructor
    · intro h
      refine ⟨(g.symm ⟨⟨s, reachable_lt hD h⟩, h⟩).cast hlen.symm, ?_⟩
      simp
    · rintro ⟨i, rfl⟩
      exact (g _).2
  · intro i l
    unfold labels
    rw [hget]
    simp only [Option.map_some, Option.getD_some, labs, List.mem_dedup, List.mem_append, hD.labels]
    have e1 : ((g (i.cast hlen)).1.val = P.init) ↔ (g (i.cast hlen)).1 = start := by rw [hD.init, Fin.ext_iff]
    rw [e1]
    have e2 : (∃ h : (g (i.cast hlen)).1.val < n, label ⟨(g (i.cast hlen)).1.val, h⟩ ≠ "init" ∧ (label ⟨(g (i.cast hlen)).1.val, h⟩).toList = l.toList) ↔
        (label (g (i.cast hlen)).1 ≠ "init" ∧ l = label (g (i.cast hlen)).1) := by
      constructor
      · rintro ⟨_, h1, h2⟩
        exact ⟨h1, (String.toList_inj.1 h2).symm⟩
      · rintro ⟨h1, h2⟩
        exact ⟨(g (i.cast hlen)).1.2, h1, by rw [h2]⟩
    rw [e2]
    split_ifs <;> (simp_all; try tauto)
  · intro i
    have := hget i
    rw [List.getElem?_eq_getElem i.2] at this
    simp only [Option.some.injEq] at this
    exact congrArg Storm.State.actions this
  · intro i j a
    rw [Storm.value_eq_mdp hvalid]
    unfold Storm.rowMDP
    rw [hget]
    simp only [Option.map_some, Option.getD_some, List.getD_eq_getElem?_getD, List.getElem?_map]
    cases (rs (i.cast hlen))[a]? with
    | none => rfl
    | some r => exact Storm.denseRow_sparseRow r (j.cast hlen)

/-- Storm can build a sparse model of the program of any chain. -/
theorem built_exists {P : Program K K} {kind : ModelType} {start : Fin n} {m : Fin n → Fin n → K} {label : Fin n → String}
    (hD : Describes P kind start (chainChoices m) label) : ∃ (S : Storm.Sparse K) (e : Fin S.states.length → ℕ), Built P S e := by
  obtain ⟨N, e, h⟩ := states_exist hD
  obtain ⟨S, hN, h1, h2, h3⟩ := h (fun i => [fun j => if enabled P (e i) = [] then (if i = j then 1 else 0) else stepValue P (e i) (e j)])
  refine ⟨S, _, ⟨h1, ?_, ?_⟩⟩
  · intro s hs
    obtain ⟨i, hi, rfl⟩ := List.getElem_of_mem hs
    exact ⟨_, h2 ⟨i, hi⟩⟩
  · intro i j
    rw [h3]
    simp

/-- Storm can build a sparse model of the program of any MDP. -/
theorem builtMDP_exists {P : Program K K} {kind : ModelType} {start : Fin n} {choices : Fin n → List (Option (List Char) × (Fin n → K))}
    {label : Fin n → String} (hD : Describes P kind start choices label) :
    ∃ (S : Storm.Sparse K) (e : Fin S.states.length → ℕ), BuiltMDP P S e := by
  obtain ⟨N, e, h⟩ := states_exist hD
  obtain ⟨S, hN, h1, h2, h3⟩ := h (fun i => if enabled P (e i) = [] then [fun j => if i = j then 1 else 0] else (enabled P (e i)).map (fun c j => c.to (e j)))
  refine ⟨S, _, ⟨h1, ?_, ?_⟩⟩
  · intro i
    rw [h2]
    cases hc : enabled P (e (i.cast hN)) with
    | nil => simp
    | cons c cs => simp
  · intro i j a
    rw [h3]
    cases hc : enabled P (e (i.cast hN)) with
    | nil =>
      cases a with
      | zero => simp
      | succ a => simp
    | cons c cs =>
      simp only [reduceCtorEq, if_false, false_and]
      rw [List.getElem?_map]
      cases (c :: cs)[a]? <;> rfl

/-- The probability of a trace depends on the states that can be reached only. -/
theorem sufProb_restrict {N : ℕ} {f : Fin N → Fin n} (hf : Function.Injective f) (a : Fin n → Fin n → K) (b : Fin n → String → K)
    (hc : ∀ i j, a (f i) j ≠ 0 → ∃ i', f i' = j) (w : List String) (i : Fin N) :
    sufProb (fun i j => a (f i) (f j)) (fun i => b (f i)) i w = sufProb a b (f i) w := by
  induction w generalizing i with
  | nil => rfl
  | cons o w ih =>
    cases w with
    | nil => rfl
    | cons o' os =>
      simp only [sufProb]
      congr 1
      apply Fintype.sum_of_injective f hf
      · intro j hj
        have : a (f i) j = 0 := by
          by_contra h
          exact hj (hc i j h)
        rw [this, zero_mul]
      · intro j
        rw [ih]

theorem prob_restrict {S : Storm.Sparse K} {M : MC K String n} {start : Fin n} {f : Fin S.states.length → Fin n} {k : Fin S.states.length}
    (hR : Restricts S M.matrix M.labelling start f k) (hrow : ∀ s, ∃ j, M.matrix s j ≠ 0)
    (hs : ∀ s, M.initialState s = if s = start then 1 else 0) (w : List String) : prob S k w = M.lik w := by
  cases w with
  | nil => rfl
  | cons o os =>
    unfold prob MC.lik
    rw [listProb_eq_sufProb, listProb_eq_sufProb]
    simp only [hs, ite_mul, one_mul, zero_mul, ← Fin.ext_iff]
    rw [Finset.sum_ite_eq', Finset.sum_ite_eq', if_pos (Finset.mem_univ _), if_pos (Finset.mem_univ _), ← hR.start]
    have e1 : (fun s s' : Fin S.states.length => value S s 0 s') = fun i j => M.matrix (f i) (f j) := by
      funext i j
      rw [hR.value, if_neg]
      push Not
      exact hrow _
    have e2 : (fun (s : Fin S.states.length) o => if name (labels S s) = o then (1 : K) else 0) =
        fun i o => if M.labelling (f i) = o then 1 else 0 := by
      funext i o
      rw [hR.names]
    rw [e1, e2]
    exact sufProb_restrict hR.inj M.matrix (fun s o => if M.labelling s = o then 1 else 0) hR.closed (o :: os) k

theorem sum_restrict {S : Storm.Sparse K} {m : Fin n → Fin n → K} {label : Fin n → String} {start : Fin n} {f : Fin S.states.length → Fin n}
    {k : Fin S.states.length} (hR : Restricts S m label start f k) (hrow : ∀ s, ∑ j, m s j = 1 ∨ ∀ j, m s j = 0) (i : Fin S.states.length) :
    ∑ j : Fin S.states.length, value S i 0 j = 1 := by
  by_cases h : ∀ j, m (f i) j = 0
  · simp only [hR.value, if_pos h]
    simp
  · simp only [hR.value, if_neg h]
    rw [← (hrow (f i)).resolve_right h]
    apply Fintype.sum_of_injective f hR.inj
    · intro j hj
      by_contra h'
      exact hj (hR.closed i j h')
    · intro j; rfl

/-- C77, MC. Saving a chain to a Prism file and loading the file gives a chain that generates every trace with the same probability. (Missing:
several initial states, names that are not Prism names, a state labelled 'deadlock', states without transition: see `mc_prism_dead`,
`name_with_space`, `save_no_initial`.) -/
theorem mc_prism_round_trip_partial (hIO : ∀ x, IO.dom x → 0 < x → Decimal (IO.repr x)) (M : MC K String n) {name : List Char} (hname : IsName name)
    (hl : ∀ s, M.labelling s ≠ "init" → IsName (M.labelling s).toList) (hm : ∀ i j, 0 ≤ M.matrix i j ∧ IO.dom (M.matrix i j))
    {start : Fin n} (hs : ∀ s, M.initialState s = if s = start then 1 else 0) (hi : ∀ s, M.labelling s = "init" ↔ s = start)
    (hd : ∀ s, M.labelling s ≠ "deadlock") (hrow : ∀ s, ∑ j, M.matrix s j = 1) :
    ∃ text P, saveMC IO M name = .ok text ∧ readPrism IO.parse (literal IO.parse) text = some P ∧ (∃ S e, Built P S e) ∧
      ∀ S e, Built P S e → ∃ n', ∃ M' : MC K String n', Storm.toMC S = .ok ⟨n', M'⟩ ∧ ∀ w, M'.lik w = M.lik w := by
  obtain ⟨text, P, start', h1, h2, _, h3, hD⟩ := saveMC_describes IO hIO M hname hl hm ⟨start, by rw [hs, if_pos rfl]⟩
  have : start' = start := by
    by_contra h
    rw [hs, if_neg h] at h3
    exact zero_ne_one h3
  subst this
  refine ⟨text, P, h1, h2, built_exists hD, fun S e hB => ?_⟩
  obtain ⟨f, k, hR⟩ := built_restricts hD hi hd hB
  obtain ⟨n', M', hM', _, h⟩ := Storm.toMC_spec hB.valid hB.one hR.only (fun i hi => sum_restrict hR (fun s => Or.inl (hrow s)) ⟨i, hi⟩)
  refine ⟨n', M', hM', fun w => ?_⟩
  rw [(h hR.plain).2 w]
  refine prob_restrict hR (fun s => ?_) hs w
  by_contra hz
  push Not at hz
  have := hrow s
  simp [hz] at this

/-- C77, CTMC. Saving a CTMC to a Prism file and loading the file gives the part of the CTMC that can be reached. A state that is never left gets a loop
of rate 1. (Missing: several initial states, names that are not Prism names, a state labelled 'deadlock'.) -/
theorem ctmc_prism_round_trip_partial (hIO : ∀ x, IO.dom x → 0 < x → Decimal (IO.repr x)) (M : CTMC K String n) {name : List Char} (hname : IsName name)
    (hl : ∀ s, M.labelling s ≠ "init" → IsName (M.labelling s).toList) (hm : ∀ i j, 0 ≤ M.matrix i j ∧ IO.dom (M.matrix i j))
    {start : Fin n} (hs : ∀ s, M.initialState s = if s = start then 1 else 0) (hi : ∀ s, M.labelling s = "init" ↔ s = start)
    (hd : ∀ s, M.labelling s ≠ "deadlock") :
    ∃ text P, saveCTMC IO M name = .ok text ∧ readPrism IO.parse (literal IO.parse) text = some P ∧ (∃ S e, Built P S e) ∧
      ∀ S e, Built P S e → ∀ exits, ∃ n', ∃ M' : CTMC K String n', ∃ f : Fin n' → Fin n,
        Storm.toCTMC ⟨S.states.map (fun s => ⟨s.labels, s.actions.map (fun r => r.map (fun q => (q.1, some q.2)))⟩), exits, []⟩ true = .ok (some ⟨n', M'⟩) ∧
        Part f M'.matrix M'.labelling M'.initialState M.matrix M.labelling M.initialState := by
  obtain ⟨text, P, start', h1, h2, _, h3, hD⟩ := saveCTMC_describes IO hIO M hname hl hm ⟨start, by rw [hs, if_pos rfl]⟩
  have : start' = start := by
    by_contra h
    rw [hs, if_neg h] at h3
    exact zero_ne_one h3
  subst this
  refine ⟨text, P, h1, h2, built_exists hD, fun S e hB exits => ?_⟩
  obtain ⟨f, k, hR⟩ := built_restricts hD hi hd hB
  obtain ⟨n', M', hM', _, h⟩ := Storm.toCTMC_spec hB.valid hB.one hR.only exits
  obtain ⟨rfl, ha, hb, hc⟩ := h hR.plain
  refine ⟨_, M', f, hM', ⟨hR.inj, ?_, hR.closed, fun i => (ha i).trans (hR.names i), ?_, fun i j => (hb i j).trans (hR.value i j)⟩⟩
  · intro s h
    rw [hs] at h
    split_ifs at h with h'
    · exact ⟨k, hR.start.trans h'.symm⟩
    · exact absurd rfl h
  · intro i
    rw [hc, hs, ← hR.start]
    simp only [← Fin.ext_iff, hR.inj.eq_iff]

/-- A chain that goes from 'init' to a state 'a' without transitions. -/
def deadMC : MC K String 2 := ⟨fun i j => if i = 0 ∧ j = 1 then 1 else 0, fun s => if s = 0 then "init" else "a", fun s => if s = 0 then 1 else 0⟩

/-- C77, violation: a chain with a state that is never left. The chain above does not generate the trace init a a, but the loaded chain does. -/
theorem mc_prism_dead (hIO : ∀ x, IO.dom x → 0 < x → Decimal (IO.repr x)) (h01 : IO.dom 0 ∧ IO.dom 1) :
    ∃ text P, saveMC IO (deadMC (K := K)) "m".toList = .ok text ∧ readPrism IO.parse (literal IO.parse) text = some P ∧ (∃ S e, Built P S e) ∧
      (deadMC (K := K)).lik ["init", "a", "a"] = 0 ∧
      ∀ S e, Built P S e → ∃ n', ∃ M' : MC K String n', Storm.toMC S = .ok ⟨n', M'⟩ ∧ M'.lik ["init", "a", "a"] = 1 := by
  obtain ⟨text, P, start, h1, h2, _, h3, hD⟩ := saveMC_describes IO hIO (deadMC (K := K)) (name := "m".toList) (by decide)
    (by intro s; fin_cases s <;> simp [deadMC]; decide)
    (by
      intro i j
      show 0 ≤ (if i = 0 ∧ j = 1 then (1 : K) else 0) ∧ IO.dom (if i = 0 ∧ j = 1 then (1 : K) else 0)
      split_ifs
      · exact ⟨zero_le_one, h01.2⟩
      · exact ⟨le_refl _, h01.1⟩) ⟨0, rfl⟩
  have hstart : start = 0 := by
    fin_cases start
    · rfl
    · exact absurd (show (0 : K) = 1 from h3) zero_ne_one
  subst hstart
  refine ⟨text, P, h1, h2, built_exists hD, ?_, fun S e hB => ?_⟩
  · unfold MC.lik
    rw [listProb_eq_sufProb]
    simp [sufProb, deadMC]
  · obtain ⟨f, k, hR⟩ := built_restricts hD (by intro s; fin_cases s <;> simp [deadMC]) (by intro s; fin_cases s <;> simp [deadMC]) hB
    obtain ⟨n', M', hM', _, h⟩ := Storm.toMC_spec hB.valid hB.one hR.only (fun i hi => sum_restrict hR (by
      intro s
      fin_cases s
      · exact Or.inl (by simp [deadMC])
      · exact Or.inr (by simp [deadMC])) ⟨i, hi⟩)
    refine ⟨n', M', hM', ?_⟩
    rw [(h hR.plain).2]
    obtain ⟨l, hl⟩ := hR.closed k 1 (by rw [hR.start]; simp [deadMC])
    have ek : ∀ j, value S k 0 j.val = if j = l then 1 else 0 := by
      intro j
      rw [hR.value, hR.start, if_neg (by intro h; simpa [deadMC] using h 1)]
      by_cases hj : j = l
      · rw [if_pos hj, hj, hl]
        simp [deadMC]
      · rw [if_neg hj]
        have : f j ≠ 1 := fun h => hj (hR.inj (h.trans hl.symm))
        simp [deadMC, this]
    have el : ∀ j, value S l 0 j.val = if l = j then 1 else 0 := by
      intro j
      rw [hR.value, hl, if_pos (by intro j; simp [deadMC])]
    have nk : Spec.Storm.name (labels S k) = "init" := by rw [hR.names, hR.start]; rfl
    have nl : Spec.Storm.name (labels S l) = "a" := by rw [hR.names, hl]; rfl
    unfold prob
    rw [listProb_eq_sufProb]
    simp only [ite_mul, one_mul, zero_mul, ← Fin.ext_iff]
    rw [Finset.sum_ite_eq', if_pos (Finset.mem_univ _)]
    simp only [sufProb, ek, el, nk, ite_mul, one_mul, zero_mul, if_true]
    rw [Finset.sum_ite_eq', if_pos (Finset.mem_univ _), nl, if_pos rfl]
    simp only [el, ite_mul, one_mul, zero_mul]
    rw [Finset.sum_ite_eq, if_pos (Finset.mem_univ _), nl, if_pos rfl]

/-! ### MDPs -/

theorem choice_get {P : Program K K} {kind : ModelType} {start : Fin n} {choices : Fin n → List (Option (List Char) × (Fin n → K))}
    {label : Fin n → String} (hD : Describes P kind start choices label) (s : Fin n) (a : ℕ) (j : Fin n) :
    (match (enabled P s)[a]? with | some c => some (c.to j) | none => none) = ((choices s)[a]?).map (fun q => q.2 j) := by
  have hf := hD.choices s
  rw [List.forall₂_iff_get] at hf
  by_cases h : a < (enabled P s).length
  · rw [List.getElem?_eq_getElem h, List.getElem?_eq_getElem (hf.1 ▸ h)]
    exact congrArg some ((hf.2 a h (hf.1 ▸ h)).2.2 j)
  · rw [List.getElem?_eq_none (by omega), List.getElem?_eq_none (by have := hf.1; omega)]
    rfl

/-- C77, MDP. Saving an MDP to a Prism file and loading the file gives an MDP with the reachable states and, in each state, the choices of this state. (Missing:
the names of the actions, see `mdp_prism_names` and `mdp_prism_mixed`; several initial states, names that are not Prism names, a state labelled 'deadlock'.) -/
theorem mdp_prism_round_trip_partial (hIO : ∀ x, IO.dom x → 0 < x → Decimal (IO.repr x)) (M : MDP K String n) {name : List Char} (hname : IsName name)
    (ha : ∀ a ∈ M.actions, IsName a.toList) (hl : ∀ s, M.labelling s ≠ "init" → IsName (M.labelling s).toList)
    (hm : ∀ i a j, 0 ≤ M.matrix i a j ∧ IO.dom (M.matrix i a j))
    {start : Fin n} (hs : ∀ s, M.initialState s = if s = start then 1 else 0) (hi : ∀ s, M.labelling s = "init" ↔ s = start)
    (hd : ∀ s, M.labelling s ≠ "deadlock") (hrow : ∀ s a, ∑ j, M.matrix s a j = 1 ∨ ∀ j, M.matrix s a j = 0) :
    ∃ text P, saveMDP IO M name = .ok text ∧ readPrism IO.parse (literal IO.parse) text = some P ∧ (∃ S e, BuiltMDP P S e) ∧
      ∀ S e, BuiltMDP P S e → ∀ order, SetOrder order (Storm.allNames S []) → ∃ n', ∃ M' : MDP K String n', ∃ f : Fin n' → Fin n,
        Storm.toMDP S order = .ok ⟨n', M'⟩ ∧ M'.actions = order ∧ (∀ x ∈ order, ∃ a : ℕ, x = "a" ++ toString a) ∧
        PartMDP f M'.matrix M'.labelling M'.initialState (mdpChoices M) M.labelling M.initialState := by
  obtain ⟨text, P, start', h1, h2, _, h3, hD⟩ := saveMDP_describes IO hIO M hname ha hl hm ⟨start, by rw [hs, if_pos rfl]⟩
  have : start' = start := by
    by_contra h
    rw [hs, if_neg h] at h3
    exact zero_ne_one h3
  subst this
  refine ⟨text, P, h1, h2, builtMDP_exists hD, fun S e hB order ho => ?_⟩
  obtain ⟨f, k, hf, hinj, hk, honly, hplain, hnames⟩ := built_states hD hi hd hB.toBuiltStates
  have hlen : ∀ i, (enabled P (e i)).length = (mdpChoices M (f i)).length := fun i => by rw [← hf i]; exact (hD.choices (f i)).length_eq
  have hempty : ∀ i, enabled P (e i) = [] ↔ mdpChoices M (f i) = [] := by
    intro i
    rw [← List.length_eq_zero_iff, hlen, List.length_eq_zero_iff]
  have hval : ∀ (i j : Fin S.states.length) (a : ℕ), value S i a j = match (mdpChoices M (f i))[a]? with
      | some q => q.2 (f j)
      | none => if mdpChoices M (f i) = [] ∧ a = 0 ∧ i = j then 1 else 0 := by
    intro i j a
    rw [hB.value]
    have hc := choice_get hD (f i) a (f j)
    rw [hf, hf] at hc
    simp only [hempty]
    generalize (enabled P (e i))[a]? = x at hc ⊢
    generalize (mdpChoices M (f i))[a]? = y at hc ⊢
    cases x <;> cases y <;> simp_all
  have hclosed : ∀ i, ∀ q ∈ mdpChoices M (f i), ∀ s, q.2 s ≠ 0 → ∃ j, f j = s := by
    intro i q hq s hqs
    obtain ⟨a, hq', rfl⟩ := List.getElem_of_mem hq
    have hc := choice_get hD (f i) a s
    rw [List.getElem?_eq_getElem hq', hf] at hc
    have ha : a < (enabled P (e i)).length := by rw [hlen]; exact hq'
    rw [List.getElem?_eq_getElem ha] at hc
    simp only [Option.map_some, Option.some.injEq] at hc
    have : Reachable P s.val := .step _ ((hB.range _).2 ⟨i, rfl⟩) (List.getElem_mem ha) (by rw [hc]; exact hqs)
    obtain ⟨i', hi'⟩ := (hB.range _).1 this
    exact ⟨i', Fin.ext ((hf i').trans hi')⟩
  -- the number of actions
  obtain ⟨smax, hsm, hmax⟩ : ∃ s ∈ S.states, ∀ t ∈ S.states, t.actions.length ≤ s.actions.length := by
    obtain ⟨i, _, h⟩ := Finset.exists_max_image (univ : Finset (Fin S.states.length)) (fun i => (S.states[i]).actions.length) ⟨k, mem_univ _⟩
    refine ⟨S.states[i], List.getElem_mem i.2, fun t ht => ?_⟩
    obtain ⟨j, hj, rfl⟩ := List.getElem_of_mem ht
    exact h ⟨j, hj⟩ (mem_univ _)
  have hsum : ∀ i < S.states.length, ∀ a, ∑ j : Fin S.states.length, value S i a j = 1 ∨ ∑ j : Fin S.states.length, value S i a j = 0 := by
    intro i hi a
    simp only [hval ⟨i, hi⟩]
    cases hc : (mdpChoices M (f ⟨i, hi⟩))[a]? with
    | some q =>
      left
      dsimp only
      have hq := List.mem_of_getElem? hc
      have : ∑ s, q.2 s = 1 := by
        obtain ⟨b, _, hb⟩ := List.mem_filterMap.1 hq
        split_ifs at hb with hne
        simp only [Option.some.injEq] at hb
        subst hb
        refine (hrow _ b).resolve_right ?_
        obtain ⟨j, hj⟩ := hne
        exact fun h => hj (h j)
      rw [← this]
      apply Fintype.sum_of_injective f hinj
      · intro j hj
        by_contra h'
        exact hj (hclosed _ q hq j h')
      · intro j; rfl
    | none =>
      dsimp only
      by_cases h : mdpChoices M (f ⟨i, hi⟩) = [] ∧ a = 0
      · left; simp [h]
      · right
        apply Finset.sum_eq_zero
        intro j _
        rw [if_neg (fun h' => h ⟨h'.1, h'.2.1⟩)]
  obtain ⟨n', M', hM', hact, hperm, _, h⟩ := Storm.toMDP_spec_partial hB.valid (m := smax.actions.length) (fun s hs => hmax s hs) ⟨smax, hsm, rfl⟩
    (Storm.defaultNames_nodup _) ho honly hsum
  obtain ⟨rfl, hla, hma, hin⟩ := h hplain
  refine ⟨_, M', f, hM', hact, ?_, ⟨hinj, ?_, hclosed, fun i => (hla i).trans (hnames i), ?_, ?_, fun i a j => (hma i j a).trans (hval i j a)⟩⟩
  · intro x hx
    obtain ⟨a, _, rfl⟩ := List.mem_map.1 (hperm.mem_iff.1 hx)
    exact ⟨a, by simp [Storm.actionName]⟩
  · intro s h
    rw [hs] at h
    split_ifs at h with h'
    · exact ⟨k, hk.trans h'.symm⟩
    · exact absurd rfl h
  · intro i
    rw [hin, hs, ← hk]
    simp only [← Fin.ext_iff, hinj.eq_iff]
  · intro i
    rw [hact, hperm.length_eq, List.length_map, List.length_range, ← hlen]
    exact (le_max_right 1 _).trans ((hB.actions i).symm.le.trans (hmax _ (List.getElem_mem i.2)))

end Jajapy.Prism
