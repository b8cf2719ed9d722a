import Verif.Lemmas.AlergiaErrorLaw
import Verif.Spec.AlergiaLimit

/-!
C103: the letters of the prefix tree, and the test of compatibility on large training sets.
-/

set_option linter.unusedSectionVars false

namespace Jajapy

namespace Alergia

open Spec.Alergia Heap

/-! ### The alphabet of the tree -/

variable {Pw : List String → Prop} {pc tc : List String → ℕ}

/-- A trace adds the letters that follow a word of the tree. -/
theorem insertTrace_letters (s : List String) : ∀ (p : PTA) (word : ℕ → List String) (pc : List String → ℕ), Tree p.heap word Pw pc tc →
    ∀ (n c : ℕ), n < p.heap.size → ∀ a, a ∈ (insertTrace p n c s).alphabet ↔
      a ∈ p.alphabet ∨ ∃ z, z ++ [a] <+: s ∧ ∃ y < p.heap.size, word y = word n ++ z := by
  induction s with
  | nil =>
    intro p word pc T n c hn a
    unfold insertTrace
    refine ⟨fun h => .inl h, ?_⟩
    rintro (h | ⟨z, hz, -⟩)
    · exact h
    · have := hz.length_le
      simp at this
  | cons l s ih =>
    intro p word pc T n c hn a
    unfold insertTrace
    dsimp only
    have hal : a ∈ (if l ∈ p.alphabet then p.alphabet else p.alphabet ++ [l]) ↔ a ∈ p.alphabet ∨ a = l := by
      split_ifs with hl
      · refine ⟨.inl, ?_⟩
        rintro (h | rfl)
        · exact h
        · exact hl
      · simp
    cases hf : (p.heap.incKid n l c).2 with
    | none =>
      dsimp only
      rw [hal]
      refine or_congr_right ?_
      have hf' : p.heap.findKid n l = none := hf
      constructor
      · rintro rfl
        exact ⟨[], by simp, n, hn, by simp⟩
      · rintro ⟨z, hz, y, hy, hw⟩
        cases z with
        | nil =>
          rw [List.nil_append, List.cons_prefix_cons] at hz
          exact hz.1
        | cons l' z =>
          rw [List.cons_append, List.cons_prefix_cons] at hz
          have := (T.follow (l' :: z) hn).2 ⟨hy, hw⟩
          rw [hz.1] at this
          simp only [Spec.Alergia.follow, hf'] at this
          cases this
    | some k =>
      dsimp only
      have hf' : p.heap.findKid n l = some k := hf
      obtain ⟨hk, hw⟩ := (T.findKid hn).1 hf'
      have T1 := T.incKid (c := c) hn hf'
      have hsz : (p.heap.incKid n l c).1.size = p.heap.size := rfl
      rw [ih ⟨(p.heap.incKid n l c).1, _⟩ word _ T1 k c hk a, hal, or_assoc]
      refine or_congr_right ?_
      constructor
      · rintro (rfl | ⟨z, hz, y, hy, hwy⟩)
        · exact ⟨[], by simp, n, hn, by simp⟩
        · exact ⟨l :: z, by rw [List.cons_append, List.cons_prefix_cons]; exact ⟨rfl, hz⟩, y, hy, by rw [hwy, hw]; simp⟩
      · rintro ⟨z, hz, y, hy, hwy⟩
        cases z with
        | nil =>
          rw [List.nil_append, List.cons_prefix_cons] at hz
          exact .inl hz.1
        | cons l' z =>
          rw [List.cons_append, List.cons_prefix_cons] at hz
          refine .inr ⟨z, hz.2, y, hy, ?_⟩
          rw [hwy, hw, hz.1]
          simp

theorem foldl_letters (ts : List (List String × ℕ)) (hs : ts.Pairwise (fun a b => a.1 < b.1)) (a : String) :
    a ∈ (ts.foldl (fun p q => insertTrace p 0 q.2 q.1) emptyPTA).alphabet ↔
      ∃ t ∈ ts, ∃ z, z ++ [a] <+: t.1 ∧ (z = [] ∨ ∃ t' ∈ ts, t'.1 < t.1 ∧ z <+: t'.1) := by
  induction ts using List.reverseRecOn with
  | nil => simp [emptyPTA]
  | append_singleton ts t ih =>
    rw [List.pairwise_append] at hs
    obtain ⟨word, T⟩ := treeOf_foldl ts hs.1
    rw [List.foldl_append, List.foldl_cons, List.foldl_nil, insertTrace_letters t.1 _ word _ T 0 t.2 T.pos a, ih hs.1]
    constructor
    · rintro (⟨t1, h1, z, hz, hz'⟩ | ⟨z, hz, y, hy, hw⟩)
      · refine ⟨t1, by simp [h1], z, hz, hz'.imp_right ?_⟩
        rintro ⟨t2, h2, h3, h4⟩
        exact ⟨t2, by simp [h2], h3, h4⟩
      · refine ⟨t, by simp, z, hz, ?_⟩
        rw [T.w0, List.nil_append] at hw
        rcases (T.words z).2 ⟨y, hy, hw⟩ with rfl | ⟨t2, h2, h3⟩
        · exact .inl rfl
        · exact .inr ⟨t2, by simp [h2], hs.2.2 t2 h2 t (by simp), h3⟩
    · rintro ⟨t1, h1, z, hz, hz'⟩
      rcases List.mem_append.1 h1 with h1 | h1
      · have hm1 := h1
        refine .inl ⟨t1, h1, z, hz, hz'.imp_right ?_⟩
        rintro ⟨t2, h2, h3, h4⟩
        rcases List.mem_append.1 h2 with h2 | h2
        · exact ⟨t2, h2, h3, h4⟩
        · rw [List.mem_singleton] at h2
          subst h2
          exact absurd h3 (lt_asymm (hs.2.2 t1 hm1 _ (by simp)))
      · rw [List.mem_singleton] at h1
        subst h1
        refine .inr ⟨z, hz, ?_⟩
        rw [T.w0, List.nil_append]
        refine (T.words z).1 (hz'.imp_right ?_)
        rintro ⟨t2, h2, h3, h4⟩
        rcases List.mem_append.1 h2 with h2 | h2
        · exact ⟨t2, h2, h4⟩
        · rw [List.mem_singleton] at h2
          subst h2
          exact absurd h3 (lt_irrefl _)

/-- The alphabet of the tree of a training set. -/
theorem createPTA_letters (S : TSet String) (hS : S.WF) (a : String) :
    a ∈ (createPTA S).alphabet ↔
      ∃ t ∈ S.sequences, ∃ z, z ++ [a] <+: t ∧ (z = [] ∨ ∃ t' ∈ S.sequences, t' < t ∧ z <+: t') := by
  have hp := (TSet.sort_spec (sortSet S)).1.trans (sortSet_perm S hS)
  have hsort := (TSet.sort_spec (sortSet S)).2.1
  have hlen := (TSet.sort_spec (sortSet S)).2.2.2
  have hfst := perm_map_fst (sortSet S).sort hlen
  have hnd : (sortSet S).sort.sequences.Nodup := by
    rw [← hfst, (hp.map _).nodup_iff, perm_map_fst S hS.1]
    exact hS.2
  have hlt : ((sortSet S).sort.sequences.zip (sortSet S).sort.times).Pairwise (fun a b => a.1 < b.1) := by
    have : (sortSet S).sort.sequences.Pairwise (· < ·) := by
      have := List.Pairwise.and hsort hnd
      exact this.imp (fun h => lt_of_le_of_ne h.1 h.2)
    rw [← hfst, List.pairwise_map] at this
    exact this
  have hmem : ∀ t, t ∈ S.sequences ↔ ∃ q ∈ (sortSet S).sort.sequences.zip (sortSet S).sort.times, q.1 = t := by
    intro t
    rw [← perm_map_fst S hS.1, ← (hp.map Prod.fst).mem_iff, List.mem_map]
  show a ∈ (((sortSet S).sort.sequences.zip (sortSet S).sort.times).foldl (fun p q => insertTrace p 0 q.2 q.1) emptyPTA).alphabet ↔ _
  rw [foldl_letters _ hlt]
  constructor
  · rintro ⟨t, ht, z, hz, hz'⟩
    refine ⟨t.1, (hmem _).2 ⟨t, ht, rfl⟩, z, hz, hz'.imp_right ?_⟩
    rintro ⟨t', ht', h1, h2⟩
    exact ⟨t'.1, (hmem _).2 ⟨t', ht', rfl⟩, h1, h2⟩
  · rintro ⟨t, ht, z, hz, hz'⟩
    obtain ⟨q, hq, rfl⟩ := (hmem _).1 ht
    refine ⟨q, hq, z, hz, hz'.imp_right ?_⟩
    rintro ⟨t', ht', h1, h2⟩
    obtain ⟨q', hq', rfl⟩ := (hmem _).1 ht'
    exact ⟨q', hq', h1, h2⟩

end Alergia

open MeasureTheory ProbabilityTheory Filter Spec Spec.Alergia Alergia Heap Topology

variable {Ω : Type} [MeasurableSpace Ω] {μ : Measure Ω} [IsProbabilityMeasure μ] {sim : Ω → Py (List String)} {W : Set (List String)}

/-! ### One training set -/

/-- A rejected test after a word over the alphabet of the tree. -/
theorem separated (h : Simulates μ sim W) {len : ℕ} (hlen : ∀ w ∈ W, w.length = len)
    (α : ℝ) (h0 : 0 < α) (h2 : α ≤ 2) (u v : List String) (hu : u ≠ [])
    (D : ℕ → Ω) (hD : ∀ j : ℕ, ∃ w, sim (D j) = .ok w) (N : ℕ) (S : TSet String) (hS : S.Countable)
    (hm : ∀ w, S.mult w = occ D {ω | sim ω = .ok w} N) (w : List String) (o : String) (hul : (u ++ w).length < len) (hvl : (v ++ w).length < len)
    (h1 : 0 < occ D (prefEvent sim (u ++ w)) N) (h3 : 0 < occ D (prefEvent sim (v ++ w)) N)
    (hne : 0 < occ D (prefEvent sim (u ++ w ++ [o])) N ∨ 0 < occ D (prefEvent sim (v ++ w ++ [o])) N)
    (ht : Tools.hoeffdingBound (occ D (prefEvent sim (u ++ w ++ [o])) N) (occ D (prefEvent sim (u ++ w)) N)
        (occ D (prefEvent sim (v ++ w ++ [o])) N) (occ D (prefEvent sim (v ++ w)) N) α = .ok false)
    (hw : ∀ l ∈ w, l ∈ (createPTA S).alphabet) : Answers (hoeffding α) S u v false := by
  obtain ⟨word, ts, T, hp⟩ := treeOf_createPTA S hS.1
  have hts : ∀ t ∈ ts, 1 ≤ t.2 := fun t ht => hS.2.1 _ (List.of_mem_zip (hp.mem_iff.1 ht)).2
  have node : ∀ z, 0 < occ D (prefEvent sim z) N → ∃ x < (createPTA S).heap.size, word x = z := by
    intro z hz
    rw [← prefixCount_eq_occ D hD N S hm, ← prefixCount_perm hp] at hz
    refine (T.words z).1 (.inr ?_)
    by_contra hno
    push Not at hno
    unfold prefixCount at hz
    rw [List.filter_eq_nil_iff.2 (fun t ht => by simpa using hno t ht)] at hz
    simp at hz
  obtain ⟨x', hx', ex'⟩ := node _ h1
  obtain ⟨y', hy', ey'⟩ := node _ h3
  have split : ∀ (z : List String) (k : ℕ), k < (createPTA S).heap.size → word k = z ++ w →
      ∃ x < (createPTA S).heap.size, word x = z ∧ follow (createPTA S).heap 0 z = some x ∧ follow (createPTA S).heap x w = some k := by
    intro z k hk e
    have := (T.follow (z ++ w) T.pos).2 ⟨hk, by rw [T.w0, e]; rfl⟩
    rw [follow_append] at this
    obtain ⟨x, hx, hx2⟩ := Option.bind_eq_some_iff.1 this
    obtain ⟨a, b⟩ := (T.follow z T.pos).1 hx
    exact ⟨x, a, by rw [b, T.w0]; rfl, hx, hx2⟩
  obtain ⟨x, hx, ex, fx, gx⟩ := split u x' hx' ex'
  obtain ⟨y, hy, ey, fy, gy⟩ := split v y' hy' ey'
  have WF := T.wf hts
  have hx0 : x ∉ ({0} : Finset ℕ) := by
    rw [Finset.mem_singleton]
    rintro rfl
    rw [T.w0] at ex
    exact hu ex.symm
  have hd : depth (createPTA S).heap {0} (Finset.range (createPTA S).heap.size) x < (createPTA S).heap.size + 1 := by
    obtain ⟨m, u⟩ := WF.up x (Finset.mem_range.2 hx)
    have := WF.depth_eq (Finset.mem_range.2 hx) u
    rw [Finset.card_range] at this
    omega
  obtain ⟨r, hr⟩ := compatible_some (hoeffding α) (createPTA S).alphabet WF ((createPTA S).heap.size + 1) x (Finset.mem_range.2 hx) hx0 (some y) hd
  refine ⟨x, y, fx, fy, ?_⟩
  cases r with
  | error e => exact absurd hr (compatible_error (hoeffding_total α h0 h2) _ _ _ _)
  | ok b =>
    cases b with
    | false => exact hr
    | true =>
      exfalso
      have hA := (compatible_iff_partial (hoeffding_total α h0 h2) WF _ x (Finset.mem_range.2 hx) y (Finset.mem_range.2 hy) true hr).1 rfl
        w hw x' y' gx gy
      obtain ⟨-, c1, c2⟩ := node_counts h hlen D hD N S hS hm T hp hx'
      obtain ⟨-, d1, d2⟩ := node_counts h hlen D hD N S hS hm T hp hy'
      rw [ex'] at c1 c2
      rw [ey'] at d1 d2
      have hn : Next (createPTA S).heap x' o ∨ Next (createPTA S).heap y' o := by
        have key : ∀ x, 0 < nextCount (createPTA S).heap x o → Next (createPTA S).heap x o := by
          intro x hx
          by_contra hno
          unfold nextCount at hx
          rw [List.filter_eq_nil_iff.2 (fun q hq hl => hno ⟨q, hq, by simpa using hl⟩)] at hx
          simp at hx
        refine hne.imp (fun e => key _ ?_) (fun e => key _ ?_)
        · rw [c2]; exact e
        · rw [d2]; exact e
      have := hA.2 (by rw [c1 hul]; omega) (by rw [d1 hvl]; omega) o hn
      rw [c2, d2, c1 hul, d1 hvl] at this
      unfold hoeffding at this
      rw [ht] at this
      injection this with this
      cases this

/-- The test answers for two prefixes of training traces. -/
theorem answered (α : ℝ) (h0 : 0 < α) (h2 : α ≤ 2) (u v : List String) (hu : u ≠ []) (S : TSet String) (hS : S.Countable)
    (h1 : ∃ t ∈ S.sequences, u <+: t) (h3 : ∃ t ∈ S.sequences, v <+: t) : ∃ b, Answers (hoeffding α) S u v b := by
  obtain ⟨word, ts, T, hp⟩ := treeOf_createPTA S hS.1
  have hts : ∀ t ∈ ts, 1 ≤ t.2 := fun t ht => hS.2.1 _ (List.of_mem_zip (hp.mem_iff.1 ht)).2
  have node : ∀ z, (∃ t ∈ S.sequences, z <+: t) → ∃ x < (createPTA S).heap.size, word x = z ∧ follow (createPTA S).heap 0 z = some x := by
    rintro z ⟨t, ht, hz⟩
    rw [← perm_map_fst S hS.1.1, ← (hp.map Prod.fst).mem_iff, List.mem_map] at ht
    obtain ⟨q, hq, rfl⟩ := ht
    obtain ⟨x, hx, e⟩ := (T.words z).1 (.inr ⟨q, hq, hz⟩)
    exact ⟨x, hx, e, (T.follow z T.pos).2 ⟨hx, by rw [T.w0, e]; rfl⟩⟩
  obtain ⟨x, hx, ex, fx⟩ := node u h1
  obtain ⟨y, hy, ey, fy⟩ := node v h3
  have WF := T.wf hts
  have hx0 : x ∉ ({0} : Finset ℕ) := by
    rw [Finset.mem_singleton]
    rintro rfl
    rw [T.w0] at ex
    exact hu ex.symm
  have hd : depth (createPTA S).heap {0} (Finset.range (createPTA S).heap.size) x < (createPTA S).heap.size + 1 := by
    obtain ⟨m, u⟩ := WF.up x (Finset.mem_range.2 hx)
    have := WF.depth_eq (Finset.mem_range.2 hx) u
    rw [Finset.card_range] at this
    omega
  obtain ⟨r, hr⟩ := compatible_some (hoeffding α) (createPTA S).alphabet WF ((createPTA S).heap.size + 1) x (Finset.mem_range.2 hx) hx0 (some y) hd
  cases r with
  | error e => exact absurd hr (compatible_error (hoeffding_total α h0 h2) _ _ _ _)
  | ok b => exact ⟨b, x, y, fx, fy, hr⟩

/-! ### Large training sets -/

theorem occ_congr {D : ℕ → Ω} {A B : Set Ω} (h : ∀ j : ℕ, D j ∈ A ↔ D j ∈ B) (N : ℕ) : occ D A N = occ D B N := by
  classical
  unfold occ
  congr 1
  ext j
  simp only [Finset.mem_filter, h j]

theorem occ_atTop {D : ℕ → Ω} {A : Set Ω} {p : ℝ} (hp : 0 < p) (h : Tendsto (fun N : ℕ => (occ D A N : ℝ) / N) atTop (𝓝 p)) :
    Tendsto (fun N : ℕ => (occ D A N : ℝ)) atTop atTop := by
  have h1 := h.pos_mul_atTop hp (tendsto_natCast_atTop_atTop (R := ℝ))
  refine h1.congr' ?_
  filter_upwards [eventually_gt_atTop 0] with N hN
  have : (N:ℝ) ≠ 0 := by positivity
  field_simp

theorem occ_ratio_limit {D : ℕ → Ω} {A B : Set Ω} {p q : ℝ} (hp : 0 < p) (hA : Tendsto (fun N : ℕ => (occ D A N : ℝ) / N) atTop (𝓝 p))
    (hB : Tendsto (fun N : ℕ => (occ D B N : ℝ) / N) atTop (𝓝 q)) :
    Tendsto (fun N : ℕ => (occ D B N : ℝ) / occ D A N) atTop (𝓝 (q / p)) := by
  refine (hB.div hA hp.ne').congr' ?_
  filter_upwards [eventually_gt_atTop 0] with N hN
  have : (N:ℝ) ≠ 0 := by positivity
  simp only [Pi.div_apply]
  field_simp

/-- The test rejects different probabilities when the samples are large. -/
theorem test_limit {D : ℕ → Ω} {A₁ B₁ A₂ B₂ : Set Ω} {a₁ b₁ a₂ b₂ : ℝ} (h1 : 0 < a₁) (h2 : 0 < a₂)
    (hA₁ : Tendsto (fun N : ℕ => (occ D A₁ N : ℝ) / N) atTop (𝓝 a₁)) (hB₁ : Tendsto (fun N : ℕ => (occ D B₁ N : ℝ) / N) atTop (𝓝 b₁))
    (hA₂ : Tendsto (fun N : ℕ => (occ D A₂ N : ℝ) / N) atTop (𝓝 a₂)) (hB₂ : Tendsto (fun N : ℕ => (occ D B₂ N : ℝ) / N) atTop (𝓝 b₂))
    (hne : b₁ / a₁ ≠ b₂ / a₂) (α : ℝ) (ha : 0 < α) (ha2 : α ≤ 2) :
    ∀ᶠ N in atTop, Tools.hoeffdingBound (occ D B₁ N) (occ D A₁ N) (occ D B₂ N) (occ D A₂ N) α = .ok false := by
  have t1 := occ_atTop h1 hA₁
  have t2 := occ_atTop h2 hA₂
  have hs : ∀ {A : Set Ω}, Tendsto (fun N : ℕ => (occ D A N : ℝ)) atTop atTop → Tendsto (fun N : ℕ => Real.sqrt (1 / (occ D A N : ℝ))) atTop (𝓝 0) := by
    intro A hA
    have := (Real.continuous_sqrt.tendsto 0).comp (tendsto_inv_atTop_zero.comp hA)
    rw [Real.sqrt_zero] at this
    refine this.congr (fun N => ?_)
    simp
  have hb : Tendsto (fun N : ℕ => (Real.sqrt (1 / (occ D A₁ N : ℝ)) + Real.sqrt (1 / (occ D A₂ N : ℝ))) * Real.sqrt (1/2 * Real.log (2 / α))) atTop (𝓝 0) := by
    have := ((hs t1).add (hs t2)).mul_const (Real.sqrt (1/2 * Real.log (2 / α)))
    simpa using this
  have hf : Tendsto (fun N : ℕ => |(occ D B₁ N : ℝ) / occ D A₁ N - (occ D B₂ N : ℝ) / occ D A₂ N|) atTop (𝓝 |b₁ / a₁ - b₂ / a₂|) :=
    ((occ_ratio_limit h1 hA₁ hB₁).sub (occ_ratio_limit h2 hA₂ hB₂)).abs
  filter_upwards [hb.eventually_lt hf (abs_pos.2 (sub_ne_zero.2 hne)), t1.eventually_gt_atTop 0, t2.eventually_gt_atTop 0] with N h3 h4 h5
  unfold Tools.hoeffdingBound
  rw [if_neg (by positivity), if_neg (by push Not; exact ⟨h4.le, h5.le⟩), if_neg ha.ne', if_neg (by push Not; exact ⟨ha.le, ha2⟩)]
  congr 1
  rw [decide_eq_false_iff_not]
  exact not_lt.2 h3.le

theorem occ_pos_limit {D : ℕ → Ω} {A : Set Ω} {p : ℝ} (hp : 0 < p) (h : Tendsto (fun N : ℕ => (occ D A N : ℝ) / N) atTop (𝓝 p)) :
    ∀ᶠ N in atTop, 0 < occ D A N := by
  filter_upwards [(occ_atTop hp h).eventually_gt_atTop 0] with N hN
  exact_mod_cast hN

/-- A letter that is noticed: it can be the first letter of a trace, or it belongs to the larger of two words that can occur and differ in their
last letter only. -/
theorem letters_limit {len : ℕ} {D : ℕ → Ω} (hD : ∀ j : ℕ, ∃ w, sim (D j) = .ok w) {S : ℕ → TSet String} (hS : ∀ N, (S N).Countable)
    (hm : ∀ N w, (S N).mult w = occ D {ω | sim ω = .ok w} N)
    (hfreq : ∀ z : List String, z.length ≤ len → Tendsto (fun N : ℕ => (occ D (prefEvent sim z) N : ℝ) / N) atTop (𝓝 (μ.real (prefEvent sim z))))
    (l : String) (hl : Noticed (fun z => μ.real (prefEvent sim z)) len l) : ∀ᶠ N in atTop, l ∈ (createPTA (S N)).alphabet := by
  have tr : ∀ N z, 0 < occ D (prefEvent sim z) N → ∃ t ∈ (S N).sequences, z <+: t := by
    intro N z hz
    rw [← prefixCount_eq_occ D hD N (S N) (hm N)] at hz
    by_contra hno
    push Not at hno
    unfold prefixCount at hz
    rw [List.filter_eq_nil_iff.2 (fun t ht => by simpa using hno t.1 (List.of_mem_zip ht).1)] at hz
    simp at hz
  rcases hl with ⟨hlen, hpos⟩ | ⟨z, o, o', hlen, hlt, hmem, p1, p2⟩
  · filter_upwards [occ_pos_limit hpos (hfreq [l] (by simpa using hlen))] with N hN
    obtain ⟨t, ht, hp⟩ := tr N _ hN
    exact (createPTA_letters (S N) (hS N).1 l).2 ⟨t, ht, [], hp, .inl rfl⟩
  · filter_upwards [occ_pos_limit p1 (hfreq (z ++ [o]) (by simpa using hlen)), occ_pos_limit p2 (hfreq (z ++ [o']) (by simpa using hlen))] with N hN hN'
    obtain ⟨t, ht, hp⟩ := tr N _ hN
    obtain ⟨t', ht', hp'⟩ := tr N _ hN'
    have hlt' : t < t' := by
      obtain ⟨r, rfl⟩ := hp
      obtain ⟨r', rfl⟩ := hp'
      simp only [List.append_assoc, List.singleton_append]
      exact List.append_left_lt (List.Lex.rel hlt)
    obtain ⟨x, y, hxy⟩ := List.append_of_mem hmem
    refine (createPTA_letters (S N) (hS N).1 l).2 ⟨t', ht', x, ?_, .inr ⟨t, ht, hlt', ?_⟩⟩
    · refine List.IsPrefix.trans ?_ hp'
      rw [hxy]
      exact ⟨y, by simp⟩
    · refine List.IsPrefix.trans ?_ ((List.prefix_append z [o]).trans hp)
      rcases List.eq_nil_or_concat y with rfl | ⟨y', b, rfl⟩
      · have := List.append_inj' hxy rfl
        rw [this.1]
      · rw [List.concat_eq_append, ← List.cons_append, ← List.append_assoc] at hxy
        have := List.append_inj' hxy rfl
        rw [this.1]
        exact List.prefix_append _ _

/-- The test separates two words with different futures. -/
theorem separates_law (h : Simulates μ sim W) {gen : (ℕ → Py (List String)) → ℕ → Py (TSet String)} (hgen : CountsTraces gen W)
    {len : ℕ} (hlen : ∀ w ∈ W, w.length = len) (α : ℝ) (h0 : 0 < α) (h2 : α ≤ 2) (u v : List String) (hu : u ≠ [])
    (w : List String) (o : String) (hul : (u ++ w).length < len) (hvl : (v ++ w).length < len)
    (p1 : 0 < μ.real (prefEvent sim (u ++ w))) (p2 : 0 < μ.real (prefEvent sim (v ++ w)))
    (hne : μ.real (prefEvent sim (u ++ w ++ [o])) / μ.real (prefEvent sim (u ++ w)) ≠
      μ.real (prefEvent sim (v ++ w ++ [o])) / μ.real (prefEvent sim (v ++ w)))
    (hw : ∀ l ∈ w, Noticed (fun z => μ.real (prefEvent sim z)) len l) :
    ∀ᵐ D ∂callsLaw μ, ∀ᶠ N in atTop, ∃ S, gen (fun i => sim (D i)) N = .ok S ∧ Answers (hoeffding α) S u v false := by
  have hall : ∀ᵐ D ∂callsLaw μ, ∀ z : List String, Tendsto (fun N : ℕ => (occ D (prefEvent sim z) N : ℝ) / N) atTop (𝓝 (μ.real (prefEvent sim z))) := by
    have : Countable Char := Function.Injective.countable (f := Char.toNat) (fun a b e => Char.toNat_inj.1 e)
    have : Countable String := Function.Injective.countable (f := String.toList) (fun a b e => String.toList_inj.1 e)
    rw [ae_all_iff]
    intro z
    exact calls_freq (μ := μ) (prefEvent sim z) (h.meas_pref z)
  filter_upwards [h.all_ok, hall] with D hD hfreq
  choose S hS using fun N => h.sets hgen D hD N
  have hlet : ∀ l ∈ w, ∀ᶠ N in atTop, l ∈ (createPTA (S N)).alphabet := fun l hl =>
    letters_limit (len := len) hD (fun N => (hS N).2.1) (fun N => (hS N).2.2.2.2) (fun z _ => hfreq z) l (hw l hl)
  have hlet' : ∀ᶠ N in atTop, ∀ l ∈ w, l ∈ (createPTA (S N)).alphabet := by
    have := (eventually_all_finset (l := atTop) w.toFinset (p := fun l N => l ∈ (createPTA (S N)).alphabet)).2 (fun l hl => hlet l (List.mem_toFinset.1 hl))
    filter_upwards [this] with N hN l hl
    exact hN l (List.mem_toFinset.2 hl)
  have hone : 0 < μ.real (prefEvent sim (u ++ w ++ [o])) ∨ 0 < μ.real (prefEvent sim (v ++ w ++ [o])) := by
    by_contra hno
    push Not at hno
    apply hne
    rw [le_antisymm hno.1 measureReal_nonneg, le_antisymm hno.2 measureReal_nonneg]
    simp
  have hone' : ∀ᶠ N in atTop, 0 < occ D (prefEvent sim (u ++ w ++ [o])) N ∨ 0 < occ D (prefEvent sim (v ++ w ++ [o])) N := by
    rcases hone with h | h
    · filter_upwards [occ_pos_limit h (hfreq _)] with N hN
      exact .inl hN
    · filter_upwards [occ_pos_limit h (hfreq _)] with N hN
      exact .inr hN
  filter_upwards [hlet', hone', occ_pos_limit p1 (hfreq _), occ_pos_limit p2 (hfreq _),
    test_limit p1 p2 (hfreq _) (hfreq _) (hfreq _) (hfreq _) hne α h0 h2] with N a1 a2 a3 a4 a5
  exact ⟨S N, (hS N).1, separated h hlen α h0 h2 u v hu D hD N (S N) (hS N).2.1 (hS N).2.2.2.2 w o hul hvl a3 a4 a2 a5 a1⟩

end Jajapy
