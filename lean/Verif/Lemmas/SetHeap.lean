import Verif.Spec.SetHeap
import Verif.Props.TSet
import Verif.Props.Simulation
import Mathlib.Data.List.GetD

/-!
Lemmas about the memory of `Set` objects.
-/

set_option autoImplicit false

namespace Jajapy
namespace SetHeap
variable {α : Type}

/-- Every object has its own list, the addresses exist, and there are as many multiplicities as traces. -/
structure Inv (H : Heap α) : Prop where
  nodup : (H.sets.map (·.seq)).Nodup
  lists : ∀ S ∈ H.sets, S.seq < H.lists.length
  traces : ∀ l ∈ H.lists, ∀ r ∈ l, r < H.traces.length
  counts : ∀ S ∈ H.sets, S.times.length = (H.lists.getD S.seq []).length

theorem Inv.empty : Inv (Heap.empty : Heap α) := ⟨by simp [Heap.empty], by simp [Heap.empty], by simp [Heap.empty], by simp [Heap.empty]⟩

theorem getD_mem_or {β : Type} (l : List (List β)) (a : ℕ) (r : β) (h : r ∈ l.getD a []) : l.getD a [] ∈ l := by
  by_cases ha : a < l.length
  · rw [List.getD_eq_getElem _ _ ha]
    exact List.getElem_mem _
  · rw [List.getD_eq_default _ _ (by omega)] at h
    simp at h

theorem getD_append_left' {β : Type} (l l' : List (List β)) (a : ℕ) (h : a < l.length) : (l ++ l').getD a [] = l.getD a [] := by
  rw [List.getD_append _ _ _ _ h]

theorem Inv.refs {H : Heap α} (h : Inv H) {a r : ℕ} (hr : r ∈ H.lists.getD a []) : r < H.traces.length := h.traces _ (getD_mem_or _ _ _ hr) r hr

/-- New traces and new lists do not change what an object looks like. -/
theorem view_append {H : Heap α} (h : Inv H) (T : List (List α)) (Ls : List (List ℕ)) (Ss : List SetRef) (S : SetRef) (hS : S.seq < H.lists.length) :
    (⟨H.traces ++ T, H.lists ++ Ls, Ss⟩ : Heap α).view S = H.view S := by
  unfold Heap.view
  simp only [getD_append_left' _ _ _ hS]
  congr 1
  refine List.map_congr_left (fun r hr => ?_)
  exact getD_append_left' _ _ _ (h.refs hr)

theorem range_map (T U : List (List α)) : (List.range' T.length U.length).map (fun r => (T ++ U).getD r []) = U := by
  apply List.ext_getElem
  · simp
  · intro k h1 h2
    simp only [List.getElem_map, List.getElem_range', Nat.one_mul]
    rw [List.getD_append_right _ _ _ _ (by omega), List.getD_eq_getElem _ _ (by simpa using h2)]
    simp

theorem view_length (H : Heap α) (S : SetRef) : (H.view S).sequences.length = (H.lists.getD S.seq []).length := by
  unfold Heap.view
  simp

/-- Adding one object with a new list. -/
theorem Inv.add {H : Heap α} (h : Inv H) (T : List (List α)) (refs : List ℕ) (hr : ∀ r ∈ refs, r < H.traces.length + T.length) (times : List ℕ)
    (ht : times.length = refs.length) (b : Bool) (t : Option ℕ) :
    Inv (⟨H.traces ++ T, H.lists ++ [refs], H.sets ++ [⟨H.lists.length, times, b, t⟩]⟩ : Heap α) := by
  refine ⟨?_, ?_, ?_, ?_⟩
  · simp only [List.map_append, List.map_cons, List.map_nil]
    refine List.Nodup.append h.nodup (by simp) ?_
    intro a ha hb
    simp only [List.mem_singleton] at hb
    obtain ⟨S, hS, rfl⟩ := List.mem_map.1 ha
    have := h.lists S hS
    omega
  · intro S hS
    simp only [List.length_append, List.length_cons, List.length_nil]
    rcases List.mem_append.1 hS with hS | hS
    · have := h.lists S hS
      omega
    · rw [List.mem_singleton.1 hS]
      simp
  · intro l hl r hrl
    simp only [List.length_append]
    rcases List.mem_append.1 hl with hl | hl
    · have := h.traces l hl r hrl
      omega
    · rw [List.mem_singleton.1 hl] at hrl
      exact hr r hrl
  · intro S hS
    rcases List.mem_append.1 hS with hS | hS
    · show _ = ((H.lists ++ [refs]).getD S.seq []).length
      rw [getD_append_left' _ _ _ (h.lists S hS)]
      exact h.counts S hS
    · rw [List.mem_singleton.1 hS]
      show times.length = ((H.lists ++ [refs]).getD H.lists.length []).length
      rw [List.getD_append_right _ _ _ _ le_rfl]
      simpa using ht

theorem views_add {H : Heap α} (h : Inv H) (T : List (List α)) (refs : List ℕ) (N : SetRef) :
    (⟨H.traces ++ T, H.lists ++ [refs], H.sets ++ [N]⟩ : Heap α).views
      = H.views ++ [(⟨H.traces ++ T, H.lists ++ [refs], H.sets ++ [N]⟩ : Heap α).view N] := by
  unfold Heap.views
  simp only [List.map_append, List.map_cons, List.map_nil]
  congr 1
  exact List.map_congr_left (fun S hS => view_append h T [refs] _ S (h.lists S hS))

theorem mk'_counts [DecidableEq α] {kind : α → Kind} {l : List (List α)} {times : Option (List ℕ)} {t : Option ℕ} {S : TSet α}
    (h : TSet.mk' kind l times t = .ok S) (hc : ∀ ts, times = some ts → ts.length = l.length) : S.times.length = S.sequences.length := by
  cases l with
  | nil =>
    rw [TSet.mk'] at h
    rw [← Except.ok.inj h]
    rfl
  | cons s0 l =>
    unfold TSet.mk' at h
    dsimp only at h
    have h : ∃ ty : ℕ, (match times with
        | none => (pure (TSet.mk (TSet.setFromList (s0 :: l)).1 (TSet.setFromList (s0 :: l)).2 false (some ty)) : Py (TSet α))
        | some times => pure (TSet.mk (s0 :: l) times false (some ty))) = .ok S := by
      cases t with
      | some t => exact ⟨t, h⟩
      | none =>
        obtain ⟨ty, -, h⟩ := (Except.bind_eq_ok _ _ _).1 h
        exact ⟨ty, h⟩
    obtain ⟨ty, h⟩ := h
    cases times with
    | none =>
      rw [← Except.ok.inj h]
      obtain ⟨-, h2, -⟩ := TSet.setFromList_inv (s0 :: l)
      show (TSet.setFromList (s0 :: l)).2.length = (TSet.setFromList (s0 :: l)).1.length
      rw [h2, List.length_map]
    | some ts =>
      rw [← Except.ok.inj h]
      exact hc ts rfl

theorem make_spec [LinearOrder α] (kind : α → Kind) {H : Heap α} (h : Inv H) (l : List (List α)) (times : Option (List ℕ)) (t : Option ℕ)
    (hc : ∀ ts, times = some ts → ts.length = l.length) :
    Inv (H.make kind l times t).1 ∧ ((H.make kind l times t).1.views, (H.make kind l times t).2) = valueStep kind H.views (.make l times t) := by
  unfold Heap.make valueStep
  dsimp only
  cases hS : TSet.mk' kind l times t with
  | error e => exact ⟨h, rfl⟩
  | ok S =>
    dsimp only
    refine ⟨h.add _ _ (fun r hr => ?_) _ ?_ _ _, ?_⟩
    · rw [List.mem_range'_1] at hr
      omega
    · rw [List.length_range']
      exact mk'_counts hS hc
    · rw [views_add h]
      congr 2
      unfold Heap.view
      simp only
      rw [List.getD_append_right _ _ _ _ le_rfl, Nat.sub_self, List.getD_cons_zero, range_map]

/-! ### sort -/

theorem view_set {H : Heap α} {i : ℕ} {S : SetRef} (hi : H.sets[i]? = some S) {H' : Heap α} {S' : SetRef}
    (hs : H'.sets = H.sets.set i S') (hv : ∀ k S0, k ≠ i → H.sets[k]? = some S0 → H'.view S0 = H.view S0) :
    H'.views = H.views.set i (H'.view S') := by
  unfold Heap.views
  rw [hs]
  apply List.ext_getElem?
  intro k
  have hlt : i < H.sets.length := by
    by_contra hc
    rw [List.getElem?_eq_none (by omega)] at hi
    cases hi
  rw [List.getElem?_map, List.getElem?_set, List.getElem?_set]
  by_cases hk : i = k
  · subst hk
    simp [hlt]
  · rw [if_neg hk, if_neg hk, List.getElem?_map]
    cases h0 : H.sets[k]? with
    | none => rfl
    | some S0 =>
      simp only [Option.map_some]
      rw [hv k S0 (fun hc => hk hc.symm) h0]

/-- Two objects have two lists. -/
theorem Inv.seq_ne {H : Heap α} (h : Inv H) {i k : ℕ} {S S0 : SetRef} (hi : H.sets[i]? = some S) (hk : H.sets[k]? = some S0) (hne : k ≠ i) :
    S0.seq ≠ S.seq := by
  intro he
  apply hne
  obtain ⟨hi1, hi2⟩ := List.getElem?_eq_some_iff.1 hi
  obtain ⟨hk1, hk2⟩ := List.getElem?_eq_some_iff.1 hk
  have := (List.Nodup.getElem_inj_iff h.nodup (i := k) (j := i) (hi := by simpa using hk1) (hj := by simpa using hi1)).1
    (by simp only [List.getElem_map, hk2, hi2, he])
  exact this

theorem sort_spec [LinearOrder α] (kind : α → Kind) {H : Heap α} (h : Inv H) (i : ℕ) :
    Inv (H.sort i).1 ∧ ((H.sort i).1.views, (H.sort i).2) = valueStep kind H.views (.sort i) := by
  unfold Heap.sort valueStep
  dsimp only
  cases hi : H.sets[i]? with
  | none =>
    have : H.views[i]? = none := by
      unfold Heap.views
      rw [List.getElem?_map, hi]
      rfl
    rw [this]
    exact ⟨h, rfl⟩
  | some S =>
    have hV : H.views[i]? = some (H.view S) := by
      unfold Heap.views
      rw [List.getElem?_map, hi]
      rfl
    rw [hV]
    dsimp only
    set x := ((H.lists.getD S.seq []).zip S.times).mergeSort (fun p q => TSet.pairLe (H.traces.getD p.1 [], p.2) (H.traces.getD q.1 [], q.2)) with hx
    have hperm : x.Perm ((H.lists.getD S.seq []).zip S.times) := List.mergeSort_perm _ _
    have hmem : S ∈ H.sets := List.mem_of_getElem? hi
    have hsub : ∀ r ∈ x.map (·.1), r < H.traces.length := by
      intro r hr
      obtain ⟨p, hp, rfl⟩ := List.mem_map.1 hr
      exact h.refs (List.of_mem_zip (hperm.mem_iff.1 hp)).1
    have hset : ∀ S0 ∈ H.sets.set i { S with seq := H.lists.length, times := x.map (·.2) },
        S0 = { S with seq := H.lists.length, times := x.map (·.2) } ∨ S0 ∈ H.sets := fun S0 h0 => (List.mem_or_eq_of_mem_set h0).symm
    have hmap : x.map (fun p => (H.traces.getD p.1 [], p.2)) = ((H.view S).sequences.zip (H.view S).times).mergeSort TSet.pairLe := by
      rw [hx, List.map_mergeSort (s := TSet.pairLe) (fun a _ b _ => rfl)]
      congr 1
      unfold Heap.view
      simp only
      rw [List.zip_map_left]
      rfl
    refine ⟨⟨?_, ?_, ?_, ?_⟩, ?_⟩
    · simp only [List.map_set]
      refine List.Nodup.set h.nodup ?_
      intro hc
      obtain ⟨S0, hS0, he⟩ := List.mem_map.1 hc
      have := h.lists S0 hS0
      omega
    · intro S0 h0
      simp only [List.length_append, List.length_cons, List.length_nil]
      rcases hset S0 h0 with rfl | h0
      · simp
      · have := h.lists S0 h0
        omega
    · intro l hl r hr
      rcases List.mem_append.1 hl with hl | hl
      · exact h.traces l hl r hr
      · rw [List.mem_singleton.1 hl] at hr
        exact hsub r hr
    · intro S0 h0
      show S0.times.length = ((H.lists ++ [x.map (·.1)]).getD S0.seq []).length
      rcases hset S0 h0 with rfl | h0
      · simp only
        rw [List.getD_append_right _ _ _ _ le_rfl]
        simp
      · rw [getD_append_left' _ _ _ (h.lists S0 h0)]
        exact h.counts S0 h0
    · have hv := view_set hi (H' := ⟨H.traces, H.lists ++ [x.map (·.1)], H.sets.set i { S with seq := H.lists.length, times := x.map (·.2) }⟩)
        (S' := { S with seq := H.lists.length, times := x.map (·.2) }) rfl (fun k S0 _ hk => by
          have := view_append h [] [x.map (·.1)] (H.sets.set i { S with seq := H.lists.length, times := x.map (·.2) }) S0
            (h.lists S0 (List.mem_of_getElem? hk))
          rw [List.append_nil] at this
          exact this)
      rw [hv]
      congr 2
      unfold TSet.sort
      rw [← hmap]
      unfold Heap.view
      simp only
      rw [List.getD_append_right _ _ _ _ le_rfl]
      simp

/-! ### addSet -/

theorem getElem?_lt {β : Type} {l : List β} {k : ℕ} {x : β} (h : l[k]? = some x) : k < l.length := by
  by_contra hc
  rw [List.getElem?_eq_none (by omega)] at h
  cases h

theorem views_getElem? {H : Heap α} {i : ℕ} {S : SetRef} (h : H.sets[i]? = some S) : H.views[i]? = some (H.view S) := by
  unfold Heap.views
  rw [List.getElem?_map, h]
  rfl

theorem getD_modify_ne (l : List (List ℕ)) (a b : ℕ) (f : List ℕ → List ℕ) (h : a ≠ b) : (l.modify a f).getD b [] = l.getD b [] := by
  rw [List.getD_eq_getElem?_getD, List.getD_eq_getElem?_getD, List.getElem?_modify]
  simp [h]

theorem getD_modify_eq (l : List (List ℕ)) (a : ℕ) (f : List ℕ → List ℕ) (h : a < l.length) : (l.modify a f).getD a [] = f (l.getD a []) := by
  rw [List.getD_eq_getElem?_getD, List.getD_eq_getElem?_getD, List.getElem?_modify, List.getElem?_eq_getElem h]
  simp

theorem drop_zip_modify (s : List (List α)) (ts : List ℕ) (a k : ℕ) (h : a ≤ k) (f : ℕ → ℕ) : (s.zip (ts.modify a f)).drop (k + 1) = (s.zip ts).drop (k + 1) := by
  rw [List.zip_eq_zipWith, List.zip_eq_zipWith, List.drop_zipWith, List.drop_zipWith]
  congr 1
  apply List.ext_getElem?
  intro q
  rw [List.getElem?_drop, List.getElem?_drop, List.getElem?_modify]
  have : a ≠ k + 1 + q := by omega
  simp [this]

theorem addStep_spec [DecidableEq α] {H : Heap α} (h : Inv H) {i j k : ℕ} {S1 S2 : SetRef} (hi : H.sets[i]? = some S1) (hj : H.sets[j]? = some S2)
    (hk : k < (H.lists.getD S2.seq []).length) :
    ∃ H' p S2', H.addStep i j k = (H', none) ∧ Inv H' ∧ ((H.view S2).sequences.zip (H.view S2).times)[k]? = some p ∧
      H'.views = H.views.set i (TSet.addSetStep (H.view S1) S2.floatTimes p) ∧ H'.sets[j]? = some S2' ∧ S2'.floatTimes = S2.floatTimes ∧
      (H'.lists.getD S2'.seq []).length = (H.lists.getD S2.seq []).length ∧
      ((H'.view S2').sequences.zip (H'.view S2').times).drop (k + 1) = ((H.view S2).sequences.zip (H.view S2).times).drop (k + 1) := by
  have hm1 : S1 ∈ H.sets := List.mem_of_getElem? hi
  have hm2 : S2 ∈ H.sets := List.mem_of_getElem? hj
  have hli : i < H.sets.length := getElem?_lt hi
  have c1 := h.counts S1 hm1
  have c2 := h.counts S2 hm2
  have hr : (H.lists.getD S2.seq [])[k]? = some ((H.lists.getD S2.seq [])[k]) := List.getElem?_eq_getElem hk
  set r := (H.lists.getD S2.seq [])[k] with hrd
  have hrm : r ∈ H.lists.getD S2.seq [] := List.getElem_mem _
  have htk : S2.times[k]? = some (S2.times[k]'(by omega)) := List.getElem?_eq_getElem _
  set t := S2.times[k]'(by omega)
  set w := H.traces.getD r [] with hw
  have hsk : (H.view S2).sequences[k]? = some w := by
    unfold Heap.view
    simp only
    rw [List.getElem?_map, hr]
    rfl
  have hp : ((H.view S2).sequences.zip (H.view S2).times)[k]? = some (w, t) := by
    rw [List.getElem?_zip_eq_some]
    exact ⟨hsk, htk⟩
  by_cases hin : w ∈ (H.view S1).sequences
  · -- the trace is there
    set a := (H.view S1).sequences.idxOf w with ha
    have hal : a < S1.times.length := by
      rw [c1, ← view_length]
      exact List.idxOf_lt_length_iff.2 hin
    set S1' : SetRef := { S1 with times := S1.times.modify a (· + t) } with hS1'
    set H' : Heap α := ⟨H.traces, H.lists, H.sets.set i S1'⟩ with hH'
    have hview : ∀ S, H'.view S = H.view S := fun S => rfl
    have hstep : H.addStep i j k = (H', none) := by
      unfold Heap.addStep
      rw [hi, hj]
      dsimp only
      rw [hr]
      dsimp only
      rw [if_pos hin, htk, List.getElem?_eq_getElem hal]
    have hmem : ∀ S ∈ H'.sets, ∃ S0 ∈ H.sets, S0.seq = S.seq ∧ S0.times.length = S.times.length := by
      intro S hS
      rcases List.mem_or_eq_of_mem_set hS with hS | hS
      · exact ⟨S, hS, rfl, rfl⟩
      · exact ⟨S1, hm1, by rw [hS], by rw [hS, hS1', List.length_modify]⟩
    have hseq : H'.sets.map (·.seq) = H.sets.map (·.seq) := by
      apply List.ext_getElem?
      intro q
      rw [List.getElem?_map, List.getElem?_map, hH']
      simp only
      rw [List.getElem?_set]
      by_cases hq : i = q
      · subst hq
        rw [hi, if_pos rfl, if_pos hli]
        rfl
      · rw [if_neg hq]
    have hinv : Inv H' := by
      refine ⟨by rw [hseq]; exact h.nodup, fun S hS => ?_, h.traces, fun S hS => ?_⟩
      · obtain ⟨S0, h0, e, -⟩ := hmem S hS
        rw [← e]
        exact h.lists S0 h0
      · obtain ⟨S0, h0, e, e'⟩ := hmem S hS
        rw [← e', ← e]
        exact h.counts S0 h0
    have hviews : H'.views = H.views.set i (TSet.addSetStep (H.view S1) S2.floatTimes (w, t)) := by
      rw [view_set hi (H' := H') (S' := S1') rfl (fun k S0 _ _ => hview S0)]
      congr 1
      unfold TSet.addSetStep
      rw [if_pos hin]
      rfl
    by_cases hij : i = j
    · subst hij
      rw [hi] at hj
      cases hj
      refine ⟨H', (w, t), S1', hstep, hinv, hp, hviews, by simp [hH', hli], rfl, rfl, ?_⟩
      refine drop_zip_modify _ _ a k ?_ _
      rw [ha]
      obtain ⟨hk', e⟩ := List.getElem?_eq_some_iff.1 hsk
      by_contra hc
      have := List.not_of_lt_findIdx (p := (· == w)) (xs := (H.view S1).sequences) (i := k) (by
        have : (H.view S1).sequences.idxOf w = (H.view S1).sequences.findIdx (· == w) := rfl
        omega)
      simp [e] at this
    · refine ⟨H', (w, t), S2, hstep, hinv, hp, hviews, ?_, rfl, rfl, rfl⟩
      rw [hH']
      simp only
      rw [List.getElem?_set_ne hij]
      exact hj
  · -- a new trace
    have hij : i ≠ j := by
      rintro rfl
      rw [hi] at hj
      cases hj
      exact hin (List.mem_of_getElem? hsk)
    have hne : S2.seq ≠ S1.seq := h.seq_ne hi hj (fun hc => hij hc.symm)
    set S1' : SetRef := { S1 with times := S1.times ++ [t], floatTimes := S1.times = [] ∨ S1.floatTimes ∨ S2.floatTimes } with hS1'
    set H' : Heap α := ⟨H.traces, H.lists.modify S1.seq (· ++ [r]), H.sets.set i S1'⟩ with hH'
    have hview : ∀ S, S.seq ≠ S1.seq → H'.view S = H.view S := by
      intro S hS
      unfold Heap.view
      rw [hH']
      simp only
      rw [getD_modify_ne _ _ _ _ (fun hc => hS hc.symm)]
    have hlist : H'.lists.getD S1.seq [] = H.lists.getD S1.seq [] ++ [r] := getD_modify_eq _ _ _ (h.lists S1 hm1)
    have hstep : H.addStep i j k = (H', none) := by
      unfold Heap.addStep
      rw [hi, hj]
      dsimp only
      rw [hr]
      dsimp only
      rw [if_neg hin, htk]
    have hseq : H'.sets.map (·.seq) = H.sets.map (·.seq) := by
      apply List.ext_getElem?
      intro q
      rw [List.getElem?_map, List.getElem?_map, hH']
      simp only
      rw [List.getElem?_set]
      by_cases hq : i = q
      · subst hq
        rw [hi, if_pos rfl, if_pos hli]
        rfl
      · rw [if_neg hq]
    have hget : ∀ q S, H'.sets[q]? = some S → (q = i ∧ S = S1') ∨ (q ≠ i ∧ H.sets[q]? = some S) := by
      intro q S hq
      rw [hH'] at hq
      simp only at hq
      rw [List.getElem?_set] at hq
      by_cases hqi : i = q
      · rw [if_pos hqi, if_pos (by omega)] at hq
        exact Or.inl ⟨hqi.symm, (Option.some.inj hq).symm⟩
      · rw [if_neg hqi] at hq
        exact Or.inr ⟨fun hc => hqi hc.symm, hq⟩
    have hinv : Inv H' := by
      refine ⟨by rw [hseq]; exact h.nodup, fun S hS => ?_, fun l hl q hq => ?_, fun S hS => ?_⟩
      · rw [hH']
        simp only [List.length_modify]
        obtain ⟨q, hq⟩ := List.mem_iff_getElem?.1 hS
        rcases hget q S hq with ⟨-, rfl⟩ | ⟨-, h0⟩
        · exact h.lists S1 hm1
        · exact h.lists S (List.mem_of_getElem? h0)
      · obtain ⟨b, hb⟩ := List.mem_iff_getElem?.1 hl
        rw [hH'] at hb
        simp only at hb
        rw [List.getElem?_modify] at hb
        cases hlb : H.lists[b]? with
        | none =>
          rw [hlb] at hb
          split_ifs at hb <;> simp at hb
        | some l0 =>
          rw [hlb] at hb
          have hl0 : l0 ∈ H.lists := List.mem_of_getElem? hlb
          split_ifs at hb
          · simp only [Option.map_eq_map, Option.map_some, Option.some.injEq] at hb
            rw [← hb] at hq
            rcases List.mem_append.1 hq with hq | hq
            · exact h.traces l0 hl0 q hq
            · rw [List.mem_singleton.1 hq]
              exact h.refs hrm
          · simp only [Option.map_eq_map, Option.map_some, Option.some.injEq] at hb
            rw [← hb] at hq
            exact h.traces l0 hl0 q hq
      · obtain ⟨q, hq⟩ := List.mem_iff_getElem?.1 hS
        rcases hget q S hq with ⟨-, rfl⟩ | ⟨hqi, h0⟩
        · show (S1.times ++ [t]).length = (H'.lists.getD S1.seq []).length
          rw [hlist, List.length_append, List.length_append, c1]
          rfl
        · have : H'.lists.getD S.seq [] = H.lists.getD S.seq [] := getD_modify_ne _ _ _ _ (fun hc => h.seq_ne hi h0 hqi hc.symm)
          rw [this]
          exact h.counts S (List.mem_of_getElem? h0)
    have hv1 : H'.view S1' = TSet.addSetStep (H.view S1) S2.floatTimes (w, t) := by
      unfold TSet.addSetStep
      rw [if_neg hin]
      unfold Heap.view
      simp only
      have : H'.lists.getD S1'.seq [] = H.lists.getD S1.seq [] ++ [r] := hlist
      rw [this]
      simp [hH', hS1', hw]
    refine ⟨H', (w, t), S2, hstep, hinv, hp, ?_, ?_, rfl, ?_, ?_⟩
    · rw [view_set hi (H' := H') (S' := S1') rfl (fun q S0 hq h0 => hview S0 (h.seq_ne hi h0 hq)), hv1]
    · rw [hH']
      simp only
      rw [List.getElem?_set_ne hij]
      exact hj
    · show ((H.lists.modify S1.seq (· ++ [r])).getD S2.seq []).length = _
      rw [getD_modify_ne _ _ _ _ (fun hc => hne hc.symm)]
    · rw [hview S2 hne]

theorem addLoop_spec [DecidableEq α] (i j m : ℕ) : ∀ (k : ℕ) (H : Heap α) (S1 S2 : SetRef), Inv H → H.sets[i]? = some S1 → H.sets[j]? = some S2 →
    (H.lists.getD S2.seq []).length = k + m →
    ∃ H', Heap.addLoop i j k m H = (H', none) ∧ Inv H' ∧
      H'.views = H.views.set i ((((H.view S2).sequences.zip (H.view S2).times).drop k).foldl (fun S p => TSet.addSetStep S S2.floatTimes p) (H.view S1)) := by
  induction m with
  | zero =>
    intro k H S1 S2 h hi hj hlen
    refine ⟨H, rfl, h, ?_⟩
    rw [List.drop_eq_nil_of_le (by
      rw [List.length_zip, view_length]
      omega), List.foldl_nil]
    apply List.ext_getElem?
    intro q
    rw [List.getElem?_set]
    by_cases hq : i = q
    · subst hq
      rw [if_pos rfl, if_pos (getElem?_lt (views_getElem? hi)), views_getElem? hi]
    · rw [if_neg hq]
  | succ m ih =>
    intro k H S1 S2 h hi hj hlen
    obtain ⟨H1, p, S2', h1, h2, h3, h4, h5, h6, h7, h8⟩ := addStep_spec h hi hj (k := k) (by omega)
    have hil : i < H.views.length := getElem?_lt (views_getElem? hi)
    have hv1 : H1.views[i]? = some (TSet.addSetStep (H.view S1) S2.floatTimes p) := by
      rw [h4, List.getElem?_set, if_pos rfl, if_pos hil]
    obtain ⟨S1', hS1', e1⟩ : ∃ S1', H1.sets[i]? = some S1' ∧ H1.view S1' = TSet.addSetStep (H.view S1) S2.floatTimes p := by
      unfold Heap.views at hv1
      rw [List.getElem?_map] at hv1
      obtain ⟨S1', a, b⟩ := Option.map_eq_some_iff.1 hv1
      exact ⟨S1', a, b⟩
    obtain ⟨H', g1, g2, g3⟩ := ih (k + 1) H1 S1' S2' h2 hS1' h5 (by rw [h7]; omega)
    refine ⟨H', ?_, g2, ?_⟩
    · rw [Heap.addLoop, h1]
      exact g1
    · rw [g3, h4, List.set_set, h8, h6, e1]
      obtain ⟨hk, ek⟩ := List.getElem?_eq_some_iff.1 h3
      rw [List.drop_eq_getElem_cons hk, List.foldl_cons, ek]

theorem addSet_spec [LinearOrder α] (kind : α → Kind) {H : Heap α} (h : Inv H) (i j : ℕ) :
    Inv (H.addSet i j).1 ∧ ((H.addSet i j).1.views, (H.addSet i j).2) = valueStep kind H.views (.addSet i j) := by
  have hnone : ∀ {k : ℕ}, H.sets[k]? = none → H.views[k]? = none := by
    intro k hk
    unfold Heap.views
    rw [List.getElem?_map, hk]
    rfl
  unfold Heap.addSet valueStep
  dsimp only
  cases hi : H.sets[i]? with
  | none =>
    rw [hnone hi]
    exact ⟨h, rfl⟩
  | some S1 =>
    cases hj : H.sets[j]? with
    | none =>
      rw [hnone hj, views_getElem? hi]
      exact ⟨h, rfl⟩
    | some S2 =>
      rw [views_getElem? hi, views_getElem? hj]
      dsimp only
      unfold TSet.addSet
      have e1 : (H.view S1).type = S1.type := rfl
      have e2 : (H.view S2).type = S2.type := rfl
      rw [e1, e2]
      by_cases ht : S1.type = S2.type
      · rw [if_neg (by simpa using ht), if_neg (by simpa using ht)]
        obtain ⟨H', h1, h2, h3⟩ := addLoop_spec i j _ 0 H S1 S2 h hi hj (by rw [Nat.zero_add])
        rw [h1]
        refine ⟨h2, ?_⟩
        rw [h3, List.drop_zero]
        rfl
      · rw [if_pos (by simpa using ht), if_pos (by simpa using ht)]
        exact ⟨h, rfl⟩

end SetHeap
end Jajapy
