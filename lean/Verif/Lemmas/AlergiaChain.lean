import Verif.Lemmas.AlergiaTree
import Verif.Props.Create

/-!
From the prefix tree to the invariant of the merging, the breadth-first search and the rows of the matrix.
-/

namespace Jajapy.Alergia

open Spec.Alergia Heap

variable {h : Heap} {word : ℕ → List String} {ts : List (List String × ℕ)}

/-! ### The set of traces -/

theorem prefixCount_perm {us : List (List String × ℕ)} (hp : ts.Perm us) (w : List String) : prefixCount ts w = prefixCount us w :=
  ((hp.filter _).map _).sum_eq

theorem traceCount_perm {us : List (List String × ℕ)} (hp : ts.Perm us) (w : List String) : traceCount ts w = traceCount us w :=
  ((hp.filter _).map _).sum_eq

theorem sortSet_perm (S : TSet String) (hS : S.WF) :
    ((sortSet S).sequences.zip (sortSet S).times).Perm (S.sequences.zip S.times) := by
  obtain ⟨hl, hn⟩ := hS
  have e1 : (sortSet S).sequences.zip (sortSet S).times = (sortSet S).sequences.map
      (fun i => (i, S.times.getD (S.sequences.idxOf i) 0)) := by
    show (sortSet S).sequences.zip ((sortSet S).sequences.map _) = _
    generalize (sortSet S).sequences = l
    induction l with
    | nil => rfl
    | cons a l ih => simp only [List.map_cons, List.zip_cons_cons, ih]
  have e2 : S.sequences.zip S.times = S.sequences.map (fun i => (i, S.times.getD (S.sequences.idxOf i) 0)) := by
    apply List.ext_getElem
    · simp [hl]
    · intro i h1 h2
      simp only [List.getElem_zip, List.getElem_map]
      rw [hn.idxOf_getElem, List.getD_eq_getElem?_getD, List.getElem?_eq_getElem]
      rfl
  rw [e1, e2]
  exact (List.mergeSort_perm _ _).map _

theorem perm_map_fst (S : TSet String) (hl : S.times.length = S.sequences.length) : (S.sequences.zip S.times).map (·.1) = S.sequences := by
  rw [List.map_fst_zip]; omega

/-- The tree of a set of distinct traces. -/
theorem treeOf_createPTA (S : TSet String) (hS : S.WF) :
    ∃ word ts, TreeOf (createPTA S).heap word ts ∧ ts.Perm (S.sequences.zip S.times) := by
  have hp := (TSet.sort_spec (sortSet S)).1.trans (sortSet_perm S hS)
  have hsort := (TSet.sort_spec (sortSet S)).2.1
  have hlen := (TSet.sort_spec (sortSet S)).2.2.2
  have hfst := perm_map_fst (sortSet S).sort hlen
  have hnd : (sortSet S).sort.sequences.Nodup := by
    rw [← hfst, (hp.map _).nodup_iff, perm_map_fst S hS.1]
    exact hS.2
  have hlt : ((sortSet S).sort.sequences.zip (sortSet S).sort.times).Pairwise (fun a b => a.1 < b.1) := by
    have : (sortSet S).sort.sequences.Pairwise (· < ·) := by
      have := List.Pairwise.and hsort hnd
      exact this.imp (fun h => lt_of_le_of_ne h.1 h.2)
    rw [← hfst, List.pairwise_map] at this
    exact this
  obtain ⟨word, T⟩ := treeOf_foldl _ hlt
  exact ⟨word, _, T, hp⟩

/-! ### Conservation in the tree -/

theorem traceCount_nil_add (ts : List (List String × ℕ)) (w : List String) (ls : List String) (hn : ls.Nodup)
    (hall : ∀ t ∈ ts, w <+: t.1 → t.1 ≠ w → ∃ l ∈ ls, w ++ [l] <+: t.1) :
    prefixCount ts w = traceCount ts w + (ls.map (fun l => prefixCount ts (w ++ [l]))).sum := by
  induction ts with
  | nil => simp [prefixCount, traceCount]
  | cons t ts ih =>
    have ih := ih (fun t' ht' => hall t' (by simp [ht']))
    have hc : ∀ v, prefixCount (t :: ts) v = (if v <+: t.1 then t.2 else 0) + prefixCount ts v := by
      intro v; unfold prefixCount; by_cases e : v <+: t.1 <;> simp [e]
    have hc' : traceCount (t :: ts) w = (if t.1 = w then t.2 else 0) + traceCount ts w := by
      unfold traceCount; by_cases e : t.1 = w <;> simp [e]
    have hs : (ls.map (fun l => prefixCount (t :: ts) (w ++ [l]))).sum =
        (ls.map (fun l => if w ++ [l] <+: t.1 then t.2 else 0)).sum + (ls.map (fun l => prefixCount ts (w ++ [l]))).sum := by
      rw [← List.sum_map_add]
      congr 1
      apply List.map_congr_left
      intro l _
      exact hc _
    rw [hc, hc', hs, ih]
    suffices hkey : (if w <+: t.1 then t.2 else 0) = (if t.1 = w then t.2 else 0) +
        (ls.map (fun l => if w ++ [l] <+: t.1 then t.2 else 0)).sum by omega
    have hzero : (∀ l ∈ ls, ¬ w ++ [l] <+: t.1) → (ls.map (fun l => if w ++ [l] <+: t.1 then t.2 else 0)).sum = 0 := by
      intro hz
      apply List.sum_eq_zero
      intro x hx
      obtain ⟨l, hl, rfl⟩ := List.mem_map.1 hx
      rw [if_neg (hz l hl)]
    by_cases e1 : t.1 = w
    · rw [if_pos e1, if_pos (by rw [e1]), hzero]
      · simp
      · intro l _ hp
        rw [e1] at hp
        have := hp.length_le
        simp at this
    · by_cases e2 : w <+: t.1
      · obtain ⟨l, hl, hp⟩ := hall t (by simp) e2 e1
        rw [if_pos e2, if_neg e1, zero_add]
        have huniq : ∀ l' ∈ ls, (w ++ [l'] <+: t.1 ↔ l' = l) := by
          intro l' _
          constructor
          · intro hp'
            have := List.prefix_of_prefix_length_le hp' hp (by simp)
            have := this.eq_of_length (by simp)
            simpa using this
          · rintro rfl; exact hp
        have : ls.map (fun l' => if w ++ [l'] <+: t.1 then t.2 else 0) = ls.map (fun l' => if l' = l then t.2 else 0) := by
          apply List.map_congr_left
          intro l' hl'
          simp only [huniq l' hl']
        rw [this]
        clear * - hn hl
        induction ls with
        | nil => cases hl
        | cons a ls ih =>
          rw [List.nodup_cons] at hn
          rw [List.map_cons, List.sum_cons]
          rcases List.mem_cons.1 hl with rfl | hl
          · rw [if_pos rfl]
            have : (ls.map (fun l' => if l' = l then t.2 else 0)).sum = 0 := by
              apply List.sum_eq_zero
              intro x hx
              obtain ⟨l', hl', rfl⟩ := List.mem_map.1 hx
              rw [if_neg]
              rintro rfl
              exact hn.1 hl'
            rw [this, add_zero]
          · rw [if_neg (by rintro rfl; exact hn.1 hl), zero_add]
            exact ih hn.2 hl
      · rw [if_neg e2, if_neg e1, hzero]
        intro l _ hp
        exact e2 ((List.prefix_append w [l]).trans hp)

theorem TreeOf.flow_node (T : TreeOf h word ts) {x : ℕ} (hx : x < h.size) :
    prefixCount ts (word x) = h.count x + leaving h x := by
  rw [T.cnt x hx, traceCount_nil_add ts (word x) ((h.kids x).map (fun q : ℕ × ℕ => h.label q.1)) (T.det x hx)]
  · congr 1
    unfold leaving
    congr 1
    rw [List.map_map]
    apply List.map_congr_left
    intro q hq
    obtain ⟨_, _, e1, _, e2⟩ := T.kid x hx q hq
    rw [e2, if_neg (by rw [e1]; simp), e1]
    rfl
  · intro t ht hp hne
    obtain ⟨r, hr⟩ := hp
    cases r with
    | nil => rw [List.append_nil] at hr; exact absurd hr.symm hne
    | cons l r =>
      have hpref : word x ++ [l] <+: t.1 := ⟨r, by rw [← hr]; simp⟩
      obtain ⟨k, hk, hw⟩ := (T.words (word x ++ [l])).1 (.inr ⟨t, ht, hpref⟩)
      obtain ⟨h1, h2⟩ := T.kid_of_word hx hk hw
      obtain ⟨c, hc⟩ := kid_iff.1 h1
      exact ⟨l, List.mem_map.2 ⟨(k, c), hc, h2⟩, hpref⟩

theorem prefixCount_nil (ts : List (List String × ℕ)) : prefixCount ts [] = (ts.map (·.2)).sum := by
  unfold prefixCount
  rw [List.filter_eq_self.2]
  intro a _
  simp

theorem TreeOf.up (T : TreeOf h word ts) : ∀ n, ∀ x < h.size, (word x).length = n → ∃ m, Up h {0} x m := by
  intro n
  induction n with
  | zero =>
    intro x hx e
    have : word x = word 0 := by rw [T.w0]; exact List.length_eq_zero_iff.1 e
    have := T.inj x hx 0 T.pos this
    exact ⟨0, .red (by simp [this])⟩
  | succ n ih =>
    intro x hx e
    have hx0 : x ≠ 0 := by rintro rfl; rw [T.w0] at e; simp at e
    obtain ⟨p, hp, hk⟩ := T.isKid x hx hx0
    obtain ⟨c, hc⟩ := kid_iff.1 hk
    obtain ⟨_, _, e1, e2, _⟩ := T.kid p hp (x, c) hc
    dsimp only at e1 e2
    obtain ⟨m, u⟩ := ih p hp (by rw [e1] at e; simpa using e)
    exact ⟨m + 1, .step (by simp [hx0]) e2 u⟩

/-- The tree satisfies the invariant of the merging. -/
theorem TreeOf.wf (T : TreeOf h word ts) {lo : ℕ} (hlo : ∀ t ∈ ts, lo ≤ t.2) : WF h {0} (Finset.range h.size) lo := by
  have hm : ∀ x, x ∈ Finset.range h.size ↔ x < h.size := fun x => Finset.mem_range
  have hk : ∀ x < h.size, ∀ k, h.Kid x k → k < h.size ∧ k ≠ 0 ∧ h.parent k = some x := by
    intro x hx k hk
    obtain ⟨c, hc⟩ := kid_iff.1 hk
    obtain ⟨a, b, _, d, _⟩ := T.kid x hx (k, c) hc
    exact ⟨a, b, d⟩
  refine ⟨by simp, ?_, ?_, ?_, ?_, ?_, ?_, ?_, ?_⟩
  · intro x hx; rw [Finset.mem_singleton] at hx; subst hx; exact (hm 0).2 T.pos
  · intro x hx k hkx; exact (hm k).2 (hk x ((hm x).1 hx) k hkx).1
  · intro x hx _ k hkx hk0; rw [Finset.mem_singleton] at hk0; exact (hk x ((hm x).1 hx) k hkx).2.1 hk0
  · intro x _ _ y hy hkx; exact (hk y ((hm y).1 hy) x hkx).2.2
  · intro x hx hx0
    obtain ⟨p, hp, hkx⟩ := T.isKid x ((hm x).1 hx) (by simpa using hx0)
    exact ⟨p, (hm p).2 hp, (hk p hp x hkx).2.2, hkx⟩
  · intro x hx; exact T.det x ((hm x).1 hx)
  · intro x hx; exact T.up _ x ((hm x).1 hx) rfl
  · intro x hx q hq
    have hx := (hm x).1 hx
    obtain ⟨a, _, e1, _, e2⟩ := T.kid x hx q hq
    rw [e2, if_neg (by rw [e1]; simp)]
    rcases (T.words _).2 ⟨q.1, a, rfl⟩ with e | ⟨t, ht, hp⟩
    · rw [e1] at e; simp at e
    · refine (hlo t ht).trans ?_
      unfold prefixCount
      apply List.single_le_sum (fun _ _ => Nat.zero_le _)
      exact List.mem_map.2 ⟨t, List.mem_filter.2 ⟨ht, decide_eq_true hp⟩, rfl⟩

theorem TreeOf.flow (T : TreeOf h word ts) : Flow h (Finset.range h.size) (ts.map (·.2)).sum (fun _ => 0) := by
  intro x hx
  have hx := Finset.mem_range.1 hx
  rw [add_zero, ← T.flow_node hx]
  by_cases hx0 : x = 0
  · subst hx0
    rw [if_pos rfl, T.w0, prefixCount_nil]
    have : inflow h (Finset.range h.size) 0 = 0 := by
      apply Finset.sum_eq_zero
      intro y hy
      apply edge_zero
      intro hk
      obtain ⟨c, hc⟩ := kid_iff.1 hk
      exact (T.kid y (Finset.mem_range.1 hy) (0, c) hc).2.1 rfl
    rw [this, zero_add]
  · rw [if_neg hx0, add_zero]
    obtain ⟨p, hp, hk⟩ := T.isKid x hx hx0
    obtain ⟨c, hc⟩ := kid_iff.1 hk
    obtain ⟨_, _, e1, e3, e2⟩ := T.kid p hp (x, c) hc
    dsimp only at e1 e2 e3
    rw [if_neg (by rw [e1]; simp)] at e2
    unfold inflow
    rw [Finset.sum_eq_single p]
    · rw [edge_eq (T.det p hp).nodup hc, e2]
    · intro y hy hne
      apply edge_zero
      intro hk'
      obtain ⟨c', hc'⟩ := kid_iff.1 hk'
      have := (T.kid y (Finset.mem_range.1 hy) (x, c') hc').2.2.2.1
      dsimp only at this
      rw [e3] at this
      injection this with e
      exact hne e.symm
    · intro hn; exact absurd (Finset.mem_range.2 hp) hn

/-! ### Totals -/

theorem sum_edge {A : Finset ℕ} {y : ℕ} (hc : ∀ k, h.Kid y k → k ∈ A) : ∑ x ∈ A, edge h y x = leaving h y := by
  unfold edge leaving
  have hc' : ∀ q ∈ h.kids y, q.1 ∈ A := fun q hq => hc q.1 (kid_of_mem hq)
  generalize h.kids y = l at hc'
  induction l with
  | nil => simp
  | cons q l ih =>
    have e : ∀ x, (((q :: l).filter (fun q => decide (q.1 = x))).map (·.2)).sum =
        (if x = q.1 then q.2 else 0) + ((l.filter (fun q => decide (q.1 = x))).map (·.2)).sum := by
      intro x
      by_cases hx : q.1 = x
      · simp [hx]
      · have : x ≠ q.1 := fun e => hx e.symm
        simp [hx, this]
    simp only [e]
    rw [Finset.sum_add_distrib, ih (fun q' hq' => hc' q' (by simp [hq'])), Finset.sum_ite_eq', if_pos (hc' q (by simp))]
    simp

/-- When traces are conserved, all of them end somewhere. -/
theorem total_count {A : Finset ℕ} {N : ℕ} (h0 : 0 ∈ A) (hc : ∀ y ∈ A, ∀ k, h.Kid y k → k ∈ A) (F : Conserves h A N) :
    ∑ x ∈ A, h.count x = N := by
  have h1 : ∑ x ∈ A, (inflow h A x + if x = 0 then N else 0) = ∑ x ∈ A, (h.count x + leaving h x) := Finset.sum_congr rfl F
  rw [Finset.sum_add_distrib, Finset.sum_add_distrib, Finset.sum_ite_eq', if_pos h0] at h1
  have h2 : ∑ x ∈ A, inflow h A x = ∑ y ∈ A, leaving h y := by
    unfold inflow
    rw [Finset.sum_comm]
    exact Finset.sum_congr rfl (fun y hy => sum_edge (hc y hy))
  omega

/-! ### The compatibility test ends -/

theorem compatible_some (bound : ℕ → ℕ → ℕ → ℕ → Py Bool) (alphabet : List String) {R A : Finset ℕ} {lo : ℕ} (W : WF h R A lo) (f : ℕ) :
    ∀ s1 ∈ A, s1 ∉ R → ∀ s2, depth h R A s1 < f → ∃ v, compatible bound alphabet h f (some s1) s2 = some v := by
  induction f with
  | zero => intro _ _ _ _ h; omega
  | succ f ih =>
    intro s1 h1 hr s2 hd
    cases s2 with
    | none => exact ⟨_, rfl⟩
    | some s2 =>
      unfold compatible
      split_ifs
      · exact ⟨_, rfl⟩
      · exact ⟨_, rfl⟩
      · cases hoeffdings bound h s1 s2 (kidLabels h s1 s2) with
        | error e => exact ⟨_, rfl⟩
        | ok v =>
          cases v with
          | false => exact ⟨_, rfl⟩
          | true =>
            dsimp only
            have hrec : ∀ char, ∃ v, compatible bound alphabet h f (h.findKid s1 char) (h.findKid s2 char) = some v := by
              intro char
              have hf : ∃ g, f = g + 1 := by
                refine ⟨f - 1, ?_⟩
                -- a kid has a smaller depth
                by_contra hne
                have hf0 : f = 0 := by omega
                subst hf0
                rename_i hlv
                have hl : leaving h s1 ≠ 0 := fun e => hlv (by rw [e, Nat.zero_mul])
                have : h.kids s1 ≠ [] := by
                  intro e
                  exact hl (by unfold leaving; rw [e]; rfl)
                obtain ⟨q, hq⟩ := List.exists_mem_of_ne_nil _ this
                have := W.depth_kid h1 (kid_of_mem hq) (W.noRed s1 h1 hr q.1 (kid_of_mem hq))
                omega
              obtain ⟨g, rfl⟩ := hf
              cases hk : h.findKid s1 char with
              | none => exact ⟨_, rfl⟩
              | some k =>
                have hk' := (findKid_some hk).1
                have := W.depth_kid h1 hk' (W.noRed s1 h1 hr k hk')
                exact ih k (W.closed s1 h1 k hk') (W.noRed s1 h1 hr k hk') _ (by omega)
            have hall : ∀ cs, ∃ v, compatibleKids (compatible bound alphabet h f) h s1 s2 cs = some v := by
              intro cs
              induction cs with
              | nil => exact ⟨_, rfl⟩
              | cons c cs ihc =>
                unfold compatibleKids
                obtain ⟨v, hv⟩ := hrec c
                rw [hv]
                cases v with
                | error e => exact ⟨_, rfl⟩
                | ok b => cases b with
                  | false => exact ⟨_, rfl⟩
                  | true => exact ihc
            exact hall alphabet

theorem compatible_label {bound : ℕ → ℕ → ℕ → ℕ → Py Bool} {alphabet : List String} {f s1 s2 : ℕ}
    (hc : compatible bound alphabet h f (some s1) (some s2) = some (.ok true)) : h.label s1 = h.label s2 := by
  cases f with
  | zero => cases hc
  | succ f =>
    by_contra hl
    unfold compatible at hc
    rw [if_pos hl] at hc
    cases hc

/-- An error of the test of compatibility is an error of the Hoeffding test. -/
theorem compatible_error {bound : ℕ → ℕ → ℕ → ℕ → Py Bool} (hb : ∀ a b c d, ∃ v, bound a b c d = .ok v) {alphabet : List String} (f : ℕ)
    (s1 s2 : Option ℕ) (e : Err) : compatible bound alphabet h f s1 s2 ≠ some (.error e) := by
  induction f generalizing s1 s2 with
  | zero => intro hc; cases hc
  | succ f ih =>
    cases s1 with
    | none => intro hc; cases hc
    | some s1 =>
      cases s2 with
      | none => intro hc; cases hc
      | some s2 =>
        unfold compatible
        have hh : ∀ os, ∃ v, hoeffdings bound h s1 s2 os = .ok v := by
          intro os
          induction os with
          | nil => exact ⟨_, rfl⟩
          | cons o os iho =>
            unfold hoeffdings
            obtain ⟨v, hv⟩ := hb (freq h s1 o) (leaving h s1) (freq h s2 o) (leaving h s2)
            rw [hv]
            cases v with
            | true => exact iho
            | false => exact ⟨_, rfl⟩
        split_ifs
        · intro hc; cases hc
        · intro hc; cases hc
        · obtain ⟨v, hv⟩ := hh (kidLabels h s1 s2)
          rw [hv]
          cases v with
          | false => intro hc; cases hc
          | true =>
            dsimp only
            generalize alphabet = cs at *
            intro hc
            have : ∀ cs', compatibleKids (compatible bound cs h f) h s1 s2 cs' ≠ some (.error e) := by
              intro cs'
              induction cs' with
              | nil => intro hc; cases hc
              | cons c cs' ihc =>
                unfold compatibleKids
                cases hcc : compatible bound cs h f (h.findKid s1 c) (h.findKid s2 c) with
                | none => intro hc; cases hc
                | some v =>
                  cases v with
                  | error e' =>
                    dsimp only
                    intro h'
                    injection h' with h'
                    injection h' with h'
                    subst h'
                    exact ih _ _ hcc
                  | ok b => cases b with
                    | false => intro hc; cases hc
                    | true => exact ihc
            exact this cs hc

/-! ### The breadth-first search -/

theorem bfs_spec {B : Finset ℕ} (hcl : ∀ x ∈ B, ∀ k, h.Kid x k → k ∈ B) (r : ℕ) (f : ℕ) (states temp : List ℕ)
    (hn : states.Nodup) (hB : ∀ x ∈ states, x ∈ B) (ht : ∀ x ∈ temp, x ∈ states) (hr : states.head? = some r)
    (hbel : ∀ x ∈ states, Below h r x) (hdone : ∀ x ∈ states, x ∉ temp → ∀ k, h.Kid x k → k ∈ states)
    (hf : temp.length + (B.card - states.length) < f) :
    ∃ states', bfs h f states temp = some states' ∧ states'.Nodup ∧ states'.head? = some r ∧ (∀ x ∈ states', x ∈ B) ∧
      (∀ x ∈ states', Below h r x) ∧ ∀ x ∈ states', ∀ k, h.Kid x k → k ∈ states' := by
  induction f generalizing states temp with
  | zero => omega
  | succ f ih =>
    cases temp with
    | nil => exact ⟨states, rfl, hn, hr, hB, hbel, fun x hx => hdone x hx (by simp)⟩
    | cons n temp =>
      unfold bfs
      have hnS := ht n (by simp)
      -- the loop over the kids of n
      have key : ∀ (l : List (ℕ × ℕ)) (st tp : List ℕ), st.Nodup → (∀ x ∈ st, x ∈ B) → (∀ x ∈ tp, x ∈ st) → st.head? = some r →
          (∀ x ∈ st, Below h r x) → (∀ q ∈ l, h.Kid n q.1) →
          (tp.length + (B.card - st.length) < f) →
          ∀ st' tp', l.foldl (fun (r : List ℕ × List ℕ) q => if q.1 ∈ r.1 then r else (r.1 ++ [q.1], r.2 ++ [q.1])) (st, tp) = (st', tp') →
          st'.Nodup ∧ (∀ x ∈ st', x ∈ B) ∧ (∀ x ∈ tp', x ∈ st') ∧ st'.head? = some r ∧ (∀ x ∈ st', Below h r x) ∧
            (∀ q ∈ l, q.1 ∈ st') ∧ (∀ x ∈ st, x ∈ st') ∧ (∀ x ∈ tp, x ∈ tp') ∧ (∀ x ∈ st', x ∈ st ∨ x ∈ tp') ∧
            tp'.length + (B.card - st'.length) < f := by
        intro l
        induction l with
        | nil =>
          intro st tp h1 h2 h3 h4 h5 _ h7 st' tp' e
          simp only [List.foldl_nil, Prod.mk.injEq] at e
          obtain ⟨rfl, rfl⟩ := e
          exact ⟨h1, h2, h3, h4, h5, by simp, fun _ h => h, fun _ h => h, fun _ h => .inl h, h7⟩
        | cons q l ihl =>
          intro st tp h1 h2 h3 h4 h5 h6 h7 st' tp' e
          rw [List.foldl_cons] at e
          by_cases hq : q.1 ∈ st
          · simp only [if_pos hq] at e
            obtain ⟨a1, a2, a3, a4, a5, a6, a7, a8, a9, a10⟩ := ihl st tp h1 h2 h3 h4 h5 (fun q' hq' => h6 q' (by simp [hq'])) h7 st' tp' e
            refine ⟨a1, a2, a3, a4, a5, ?_, a7, a8, a9, a10⟩
            intro q' hq'
            rcases List.mem_cons.1 hq' with rfl | hq'
            · exact a7 _ hq
            · exact a6 q' hq'
          · simp only [if_neg hq] at e
            have hqB : q.1 ∈ B := hcl n (hB n hnS) q.1 (h6 q (by simp))
            have hcard : (st ++ [q.1]).length ≤ B.card := by
              have hnd : (st ++ [q.1]).Nodup := by
                rw [List.nodup_append]
                exact ⟨h1, by simp, by intro a ha b hb; rw [List.mem_singleton] at hb; subst hb; rintro rfl; exact hq ha⟩
              rw [← List.toFinset_card_of_nodup hnd]
              apply Finset.card_le_card
              intro x hx
              rw [List.mem_toFinset] at hx
              rcases List.mem_append.1 hx with hx | hx
              · exact h2 x hx
              · rw [List.mem_singleton] at hx; subst hx; exact hqB
            obtain ⟨a1, a2, a3, a4, a5, a6, a7, a8, a9, a10⟩ := ihl (st ++ [q.1]) (tp ++ [q.1])
              (by
                rw [List.nodup_append]
                exact ⟨h1, by simp, by intro a ha b hb; rw [List.mem_singleton] at hb; subst hb; rintro rfl; exact hq ha⟩)
              (by
                intro x hx
                rcases List.mem_append.1 hx with hx | hx
                · exact h2 x hx
                · rw [List.mem_singleton] at hx; subst hx; exact hqB)
              (by
                intro x hx
                rcases List.mem_append.1 hx with hx | hx
                · exact List.mem_append.2 (.inl (h3 x hx))
                · exact List.mem_append.2 (.inr hx))
              (by
                cases st with
                | nil => cases h4
                | cons a st => exact h4)
              (by
                intro x hx
                rcases List.mem_append.1 hx with hx | hx
                · exact h5 x hx
                · rw [List.mem_singleton] at hx; subst hx
                  exact .step (hbel n hnS) (h6 q (by simp)))
              (fun q' hq' => h6 q' (by simp [hq']))
              (by simp only [List.length_append, List.length_singleton] at hcard ⊢; omega) st' tp' e
            refine ⟨a1, a2, a3, a4, a5, ?_, fun x hx => a7 x (by simp [hx]), fun x hx => a8 x (by simp [hx]), ?_, a10⟩
            · intro q' hq'
              rcases List.mem_cons.1 hq' with rfl | hq'
              · exact a7 _ (by simp)
              · exact a6 q' hq'
            · intro x hx
              rcases a9 x hx with hx | hx
              · rcases List.mem_append.1 hx with hx | hx
                · exact .inl hx
                · exact .inr (a8 x (by simp [List.mem_singleton.1 hx]))
              · exact .inr hx
      dsimp only
      obtain ⟨⟨st', tp'⟩, hfold⟩ : ∃ r, (h.kids n).foldl (fun (r : List ℕ × List ℕ) q =>
        if q.1 ∈ r.1 then r else (r.1 ++ [q.1], r.2 ++ [q.1])) (states, temp) = r := ⟨_, rfl⟩
      rw [hfold]
      obtain ⟨a1, a2, a3, a4, a5, a6, a7, a8, a9, a10⟩ := key (h.kids n) states temp hn hB (fun x hx => ht x (by simp [hx])) hr hbel
        (fun q hq => kid_of_mem hq) (by simp only [List.length_cons] at hf; omega) st' tp' hfold
      refine ih st' tp' a1 a2 a3 a4 a5 ?_ a10
      intro x hx hxt k hk
      by_cases e : x = n
      · subst e
        obtain ⟨c, hc⟩ := kid_iff.1 hk
        exact a6 (k, c) hc
      · rcases a9 x hx with hxs | hxs
        · refine a7 k (hdone x hxs ?_ k hk)
          intro hm
          rcases List.mem_cons.1 hm with e' | hm
          · exact e e'
          · exact hxt (a8 x hm)
        · exact absurd hxs hxt

/-! ### The rows -/

theorem rowCounts_eq (states : List ℕ) {s : ℕ} (hn : ((h.kids s).map (·.1)).Nodup) (hs : states.Nodup)
    (hk : ∀ k, h.Kid s k → k ∈ states) (j : Fin states.length) : rowCounts h states s j = edge h s (states.get j) := by
  unfold rowCounts edge
  have hk' : ∀ q ∈ h.kids s, q.1 ∈ states := fun q hq => hk q.1 (kid_of_mem hq)
  have key : ∀ (l : List (ℕ × ℕ)) (row : ℕ → ℕ), (l.map (·.1)).Nodup → (∀ q ∈ l, q.1 ∈ states) → (states.get j ∈ l.map (·.1) → row j = 0) →
      l.foldl (fun row q => fun j => if j = states.idxOf q.1 then q.2 else row j) row j =
        row j + ((l.filter (fun q => decide (q.1 = states.get j))).map (·.2)).sum := by
    intro l
    induction l with
    | nil => intro row _ _ _; simp
    | cons q l ih =>
      intro row h1 h2 h3
      rw [List.map_cons, List.nodup_cons] at h1
      have hidx : (j : ℕ) = states.idxOf q.1 ↔ q.1 = states.get j := by
        constructor
        · intro e
          have h4 := List.getElem_idxOf (List.idxOf_lt_length_iff.2 (h2 q (by simp)))
          rw [← h4]
          simp only [← e]
          rfl
        · intro e
          rw [e]
          exact (hs.idxOf_getElem j.1 j.2).symm
      rw [List.foldl_cons, ih _ h1.2 (fun q' hq' => h2 q' (by simp [hq']))]
      · by_cases e : q.1 = states.get j
        · have e0 : row j = 0 := h3 (by rw [← e]; simp)
          rw [if_pos (hidx.2 e), e0, List.filter_cons, if_pos (decide_eq_true e)]
          simp
        · rw [if_neg (fun e' => e (hidx.1 e')), List.filter_cons, if_neg (by simpa using e)]
      · intro hm
        rw [if_neg]
        · exact h3 (by rw [List.map_cons]; exact List.mem_cons.2 (.inr hm))
        · intro e'
          exact h1.1 (by rw [hidx.1 e']; exact hm)
  have := key (h.kids s) (fun _ => 0) hn hk' (fun _ => rfl)
  simpa using this

theorem sum_row (states : List ℕ) {s : ℕ} (hs : states.Nodup) (hk : ∀ k, h.Kid s k → k ∈ states) :
    (List.ofFn (fun j : Fin states.length => edge h s (states.get j))).sum = leaving h s := by
  have h1 : List.ofFn (fun j : Fin states.length => edge h s (states.get j)) = states.map (edge h s) := by
    apply List.ext_getElem
    · simp
    · intro i h1 h2; simp
  rw [h1, ← sum_edge (A := states.toFinset) (y := s) (fun k hk' => List.mem_toFinset.2 (hk k hk'))]
  rw [List.sum_toFinset _ hs]

/-- The entries of the matrix are the relative frequencies. -/
theorem mcMatrix_eq {K : Type} [Field K] (states : List ℕ) (hs : states.Nodup) (i j : Fin states.length)
    (hn : ((h.kids (states.get i)).map (·.1)).Nodup) (hk : ∀ k, h.Kid (states.get i) k → k ∈ states) :
    mcMatrix K h states i j = (edge h (states.get i) (states.get j) : K) / (leaving h (states.get i) : K) := by
  unfold mcMatrix
  have hget : states.getD i 0 = states.get i := by
    rw [List.getD_eq_getElem?_getD, List.getElem?_eq_getElem i.2]; rfl
  dsimp only
  rw [hget]
  have hrow := rowCounts_eq states hn hs hk
  have hsum : (List.ofFn (fun j : Fin states.length => rowCounts h states (states.get i) j)).sum = leaving h (states.get i) := by
    rw [← sum_row states hs hk]
    congr 1
    congr 1
    funext j
    exact hrow j
  rw [hsum]
  split_ifs with hex
  · rw [hrow j]
  · push Not at hex
    have h0 := hex j
    rw [Nat.le_zero] at h0
    rw [h0, ← hrow j, h0]
    simp

end Jajapy.Alergia
