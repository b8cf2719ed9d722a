import Verif.Props.PReduce
import Verif.Lemmas.PSort

/-!
The model that `fit_parameters` trains is well formed, and one that the theorems about the estimation cover.
-/

set_option linter.unusedSectionVars false

namespace Jajapy.PCTMC

open Spec

section
variable {K : Type} [Field K] [LinearOrder K] [IsStrictOrderedRing K]

theorem removeState_wf (M : PCTMC K) (hM : M.WF) {s : ℕ} (hs : s < M.matrix.length) : (M.removeState s).WF := by
  have h := removeState_shape M hM.shape hs
  refine ⟨h.square, h.labels, h.init, ?_, hM.declared⟩
  intro row hrow t ht
  simp only [removeState, List.mem_map] at hrow
  obtain ⟨r, hr, rfl⟩ := hrow
  exact hM.bound r (List.mem_of_mem_eraseIdx hr) t (List.mem_of_mem_eraseIdx ht)

theorem dropExpr_wf (M : PCTMC K) (hM : M.WF) (t : ℕ) (ht : t < M.exprs.length) (hu : M.uses t = false) : (M.dropExpr t).WF := by
  refine ⟨dropExpr_square M hM.square t, ?_, ?_, ?_, ?_⟩
  · rw [dropExpr_length]; exact hM.labels
  · rw [dropExpr_length]; exact hM.init
  · intro row hrow x hx
    simp only [dropExpr, List.mem_map] at hrow
    obtain ⟨r, hr, rfl⟩ := hrow
    obtain ⟨y, hy, rfl⟩ := List.mem_map.1 hx
    have hb := hM.bound r hr y hy
    have hne : y ≠ t := by
      rintro rfl
      have : M.uses y = true := List.any_eq_true.2 ⟨r, hr, List.any_eq_true.2 ⟨y, hy, by simp⟩⟩
      rw [hu] at this
      cases this
    show _ < (M.exprs.eraseIdx t).length
    rw [List.length_eraseIdx, if_pos ht]
    split_ifs <;> omega
  · intro x hx
    exact hM.declared x (List.mem_of_mem_eraseIdx hx)

theorem removeLoop_wf (bad : PCTMC K → ℕ → Bool) (M : PCTMC K) (s : ℕ) (hM : M.WF) : (removeLoop bad M s).WF := by
  induction M, s using removeLoop.induct bad with
  | case1 M s h hb ih => rw [removeLoop, dif_pos h, if_pos hb]; exact ih (removeState_wf M hM h)
  | case2 M s h hb ih => rw [removeLoop, dif_pos h, if_neg hb]; exact ih hM
  | case3 M s h => rw [removeLoop, dif_neg h]; exact hM

theorem dropUnused_wf (M : PCTMC K) (t : ℕ) (hM : M.WF) : (M.dropUnused t).WF := by
  induction M, t using dropUnused.induct with
  | case1 M t h hb ih => rw [dropUnused, dif_pos h, if_pos hb]; exact ih (dropExpr_wf M hM t h hb)
  | case2 M t h hb ih => rw [dropUnused, dif_pos h, if_neg hb]; exact ih hM
  | case3 M t h => rw [dropUnused, dif_neg h]; exact hM

theorem reduceForTraces_wf (M : PCTMC K) (hM : M.WF) (alphabet : List String) : (M.reduceForTraces alphabet).WF :=
  dropUnused_wf _ _ (removeLoop_wf _ _ _ hM)

/-! ### No transition is recorded twice -/

theorem shift_nodup (s : ℕ) (l : List (ℕ × ℕ)) (h : l.Nodup) : (l.filterMap (shiftPair s)).Nodup := by
  refine h.filterMap ?_
  rintro ⟨a, b⟩ ⟨c, d⟩ x h1 h2
  unfold shiftPair at h1 h2
  simp only [Option.mem_def] at h1 h2
  have h3 := h1.trans h2.symm
  split_ifs at h1 h2 h3 <;> first
    | (simp only [Option.some.injEq, Prod.mk.injEq] at h3 ⊢
       omega)
    | (simp at h1; done)
    | (simp at h2; done)

theorem removeLoop_nodup (bad : PCTMC K → ℕ → Bool) (M : PCTMC K) (s : ℕ) (p : ℕ) (h : (M.indexes.getD p []).Nodup) :
    ((removeLoop bad M s).indexes.getD p []).Nodup := by
  induction M, s using removeLoop.induct bad with
  | case1 M s h' hb ih =>
    rw [removeLoop, dif_pos h', if_pos hb]
    apply ih
    have : (M.removeState s).indexes.getD p [] = (M.indexes.getD p []).filterMap (shiftPair s) := by
      simp only [removeState, List.getD_eq_getElem?_getD, List.getElem?_map]
      cases M.indexes[p]? <;> simp
    rw [this]
    exact shift_nodup s _ h
  | case2 M s h' hb ih => rw [removeLoop, dif_pos h', if_neg hb]; exact ih h
  | case3 M s h' => rw [removeLoop, dif_neg h']; exact h

theorem dropUnused_indexes (M : PCTMC K) (t : ℕ) : (M.dropUnused t).indexes = M.indexes := by
  induction M, t using dropUnused.induct with
  | case1 M t h hb ih => rw [dropUnused, dif_pos h, if_pos hb]; exact ih
  | case2 M t h hb ih => rw [dropUnused, dif_pos h, if_neg hb]; exact ih
  | case3 M t h => rw [dropUnused, dif_neg h]

theorem reduceForTraces_nodup (M : PCTMC K) (alphabet : List String) (p : ℕ) (h : (M.indexes.getD p []).Nodup) :
    ((M.reduceForTraces alphabet).indexes.getD p []).Nodup := by
  unfold reduceForTraces
  rw [dropUnused_indexes]
  exact removeLoop_nodup _ _ _ _ h

end

/-- The model that is trained is one that the theorems cover, if the given one is. -/
theorem Estimable.reduce {M : PCTMC ℝ} {fixed : List String} (h : M.Estimable fixed) (hI : M.IndexesInRange)
    (alphabet : List String) : (M.reduceForTraces alphabet).Estimable fixed := by
  obtain ⟨keep, hR, _, _⟩ := M.reduceForTraces_spec h.wf hI alphabet
  have hwf := M.reduceForTraces_wf h.wf alphabet
  have hnd := M.reduceForTraces_nodup alphabet
  generalize M.reduceForTraces alphabet = R at hR hwf hnd
  have hk : ∀ a (ha : a < keep.length), keep[a] < M.matrix.length := fun a ha => hR.inRange _ (List.getElem_mem ha)
  have hidx : ∀ p, R.indexesOf p = R.indexes.getD (M.names.idxOf p) [] := fun p => by unfold indexesOf; rw [hR.names]
  refine ⟨hwf, ?_, by rw [hR.names]; exact h.names, ?_, ?_, ?_, ?_⟩
  · intro p hp
    rw [hR.values]
    exact h.full p (by rw [← hR.names]; exact hp)
  · intro p hp hf
    rw [hR.names] at hp
    obtain ⟨h1, h2⟩ := h.indexes p hp hf
    refine ⟨by rw [hidx]; exact hnd _ h1, fun i j => ?_⟩
    rw [hidx, hR.used.2]
    constructor
    · rintro ⟨ha, hb, hm⟩
      have := (h2 keep[i] keep[j]).1 hm
      rw [hR.size]
      exact ⟨ha, hb, by rw [hR.rate i j ha hb]; exact this.2.2⟩
    · rintro ⟨ha, hb, ho⟩
      rw [hR.size] at ha hb
      rw [hR.rate i j ha hb] at ho
      exact ⟨ha, hb, (h2 _ _).2 ⟨hk i ha, hk j hb, ho⟩⟩
  · intro i j hi hj
    rw [hR.size] at hi hj
    rw [hR.rate i j hi hj, hR.names]
    exact h.monomial _ _ (hk i hi) (hk j hj)
  · intro ρ hρ
    rw [hR.values] at hρ
    have hv := h.valid ρ hρ
    refine ⟨fun s => ?_, fun s ss => ?_⟩
    · show 0 ≤ R.initialState.getD s 0
      have hs : s.1 < keep.length := by rw [← hR.size]; exact s.2
      rw [hR.init, List.getD_eq_getElem?_getD, List.getElem?_map, List.getElem?_eq_getElem hs]
      exact hv.1 ⟨keep[s.1], hk _ hs⟩
    · show 0 ≤ (R.rateExpr s ss).den ρ
      have hs : s.1 < keep.length := by rw [← hR.size]; exact s.2
      have hss : ss.1 < keep.length := by rw [← hR.size]; exact ss.2
      rw [hR.rate s ss hs hss]
      exact hv.2 ⟨keep[s.1], hk _ hs⟩ ⟨keep[ss.1], hk _ hss⟩
  · intro p hp hf x hx
    rw [hR.values] at hx
    exact h.nonneg p (by rw [← hR.names]; exact hp) hf x hx

/-! ### Nothing is removed when the traces show every label -/

/-- The chain with `n` states of given rates. -/
noncomputable def chainOf (n : ℕ) (f : ℕ → ℕ → ℝ) (l : ℕ → String) (i : ℕ → ℝ) : CTMC ℝ String n where
  matrix := fun s ss => f s ss
  labelling := fun s => l s
  initialState := fun s => i s

theorem chainOf_congr (n n' : ℕ) (hn : n = n') (f f' : ℕ → ℕ → ℝ) (hf : ∀ s < n, ∀ ss < n, f s ss = f' s ss)
    (l : ℕ → String) (i : ℕ → ℝ) :
    (chainOf n f l i).density = (chainOf n' f' l i).density ∧ (chainOf n f l i).embedded.lik = (chainOf n' f' l i).embedded.lik := by
  subst hn
  have : chainOf n f l i = chainOf n f' l i := by
    unfold chainOf
    congr 1
    funext s ss
    exact hf s s.2 ss ss.2
  rw [this]
  exact ⟨rfl, rfl⟩

theorem restricts_all {M R : PCTMC ℝ} (hM : M.WF) {keep : List ℕ} (hR : Restricts R M keep)
    (hkeep : ∀ k < M.matrix.length, k ∈ keep) :
    R.matrix.length = M.matrix.length ∧
    (∀ s < M.matrix.length, ∀ ss < M.matrix.length, R.rateExpr s ss = M.rateExpr s ss) ∧
    R.labelling = M.labelling ∧ R.initialState = M.initialState := by
  have hrange : keep = List.range M.matrix.length := by
    have h2 : (List.range M.matrix.length).Pairwise (· < ·) := List.pairwise_lt_range
    refine List.Perm.eq_of_pairwise (fun a b _ _ h1 h2 => absurd h1 (by omega)) hR.sorted h2 ?_
    rw [List.perm_ext_iff_of_nodup (hR.sorted.imp (fun h => ne_of_lt h)) List.nodup_range]
    intro k
    exact ⟨fun hk => List.mem_range.2 (hR.inRange k hk), fun hk => hkeep k (List.mem_range.1 hk)⟩
  subst hrange
  refine ⟨by rw [hR.size, List.length_range], ?_, ?_, ?_⟩
  · intro s hs ss hss
    have := hR.rate s ss (by simpa using hs) (by simpa using hss)
    simpa only [List.getElem_range] using this
  · rw [hR.labels]
    apply List.ext_getElem
    · simp [hM.labels]
    · intro i h1 h2; simp [List.getD_eq_getElem?_getD, List.getElem?_eq_getElem h2]
  · rw [hR.init]
    apply List.ext_getElem
    · simp [hM.init]
    · intro i h1 h2; simp [List.getD_eq_getElem?_getD, List.getElem?_eq_getElem h2]

theorem reduce_same {M : PCTMC ℝ} (hM : M.WF) (hI : M.IndexesInRange) (alphabet : List String)
    (hall : ∀ a ∈ M.labelling, a ∈ alphabet) :
    (M.reduceForTraces alphabet).density = M.density ∧ (M.reduceForTraces alphabet).lik = M.lik := by
  obtain ⟨keep, hR, hkeep, _⟩ := M.reduceForTraces_spec hM hI alphabet
  obtain ⟨hlen, hrate, hlab, hinit⟩ := restricts_all hM hR (fun k hk' => (hkeep k hk').2 (hall _ (by
      rw [List.getD_eq_getElem?_getD, List.getElem?_eq_getElem (by rw [hM.labels]; exact hk')]
      exact List.getElem_mem _)))
  generalize M.reduceForTraces alphabet = R at hR hlen hrate hlab hinit
  have := chainOf_congr R.matrix.length M.matrix.length hlen
    (fun s ss => (R.rateExpr s ss).den (fun p => (M.values.lookup p).getD 0))
    (fun s ss => (M.rateExpr s ss).den (fun p => (M.values.lookup p).getD 0))
    (by
      intro s hs ss hss
      rw [hlen] at hs hss
      rw [hrate s hs ss hss])
    (fun s => M.labelling.getD s "") (fun s => M.initialState.getD s 0)
  unfold density lik chain
  rw [hlab, hinit, hR.values]
  exact this

end Jajapy.PCTMC
