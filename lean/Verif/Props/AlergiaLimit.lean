import Verif.Lemmas.AlergiaLimit
import Verif.Props.AlergiaError

/-!
C103: on a large generated training set, Alergia's test of compatibility separates the words with different futures.
-/

set_option linter.unusedSectionVars false

namespace Jajapy

open MeasureTheory ProbabilityTheory Filter Spec Spec.Alergia Alergia Tools Topology

/-- C103: the labels that the test looks at. The alphabet of the prefix tree of a training set contains a label if and only if it is the first one of
a training trace, or follows a word that also starts a smaller training trace (in the order in which the traces are sorted). -/
theorem createPTA_notices (S : TSet String) (hS : S.WF) (l : String) :
    l ∈ (createPTA S).alphabet ↔
      ∃ t ∈ S.sequences, ∃ z, z ++ [l] <+: t ∧ (z = [] ∨ ∃ t' ∈ S.sequences, t' < t ∧ z <+: t') :=
  createPTA_letters S hS l

/-- With the traces `a b` and `a c`, 'b' is not noticed. -/
example : "b" ∉ (createPTA ⟨[["a", "b"], ["a", "c"]], [1, 1], false, some 0⟩).alphabet ∧
    "c" ∈ (createPTA ⟨[["a", "b"], ["a", "c"]], [1, 1], false, some 0⟩).alphabet := by
  constructor
  · rw [createPTA_notices _ ⟨rfl, by decide +kernel⟩]
    rintro ⟨t, ht, z, hz, hz'⟩
    simp only [List.mem_cons, List.not_mem_nil, or_false] at ht
    rcases ht with rfl | rfl
    · have hzl : z = ["a"] := by
        rcases z with _ | ⟨x, _ | ⟨y, z⟩⟩
        · simp at hz
        · simp at hz; simp [hz]
        · have := hz.length_le; simp at this
      subst hzl
      rcases hz' with h | ⟨t', ht', hlt, -⟩
      · cases h
      · simp only [List.mem_cons, List.not_mem_nil, or_false] at ht'
        rcases ht' with rfl | rfl
        · exact lt_irrefl _ hlt
        · exact absurd hlt (by decide +kernel)
    · have := hz.subset (show "b" ∈ z ++ ["b"] by simp)
      simp at this
  · rw [createPTA_notices _ ⟨rfl, by decide +kernel⟩]
    exact ⟨["a", "c"], by simp, ["a"], by simp, .inr ⟨["a", "b"], by simp, by decide +kernel, by simp⟩⟩

namespace MC
variable {n : ℕ}

/-- C103, MC. The training set is generated by a chain with `generateSet`. If in the chain the probability of a label `o` after `u ++ w` is not its
probability after `v ++ w`, then almost surely, for all sufficiently large sets, the states of the prefix tree reached by `u` and `v` are
declared incompatible, for every `alpha`. Partial: the labels of `w` have to be noticed by the tree. -/
theorem compatible_separates_partial (M : MC ℝ String n) (hM : M.Stochastic) (kind : String → Kind) (steps : ℕ) (hs : 1 ≤ steps) (geom : ℕ → ℕ)
    (alpha : ℝ) (ha : 0 < alpha) (ha2 : alpha ≤ 2) (u v : List String) (hu : u ≠ []) (hv : v ≠ []) (w : List String) (o : String)
    (hul : (u ++ w).length ≤ steps) (hvl : (v ++ w).length ≤ steps) (p1 : 0 < M.lik (u ++ w)) (p2 : 0 < M.lik (v ++ w))
    (hne : M.lik (u ++ w ++ [o]) / M.lik (u ++ w) ≠ M.lik (v ++ w ++ [o]) / M.lik (v ++ w)) (hw : ∀ l ∈ w, Noticed M.lik (steps + 1) l) :
    ∀ᵐ d ∂drawsLaw, ∀ᶠ N in atTop,
      ∃ S, generateSet kind (fun j k => M.run k (fun i => d (j * (steps + 1) + i))) N false none (.int steps) geom = .ok S ∧
        Answers (hoeffding alpha) S u v false := by
  have hsim := M.simulates hM steps
  have hpre : ∀ z : List String, z ≠ [] → z.length ≤ steps + 1 →
      (blockLaw (steps + 1)).real (prefEvent (fun v => M.run steps (padZero (steps + 1) v)) z) = M.lik z := by
    intro z hz hl
    rw [block_pref (Nat.succ_pos steps) (M.run_reads steps) hsim, M.prefix_law hM steps z hz hl]
  have e1 := hpre (u ++ w) (by simp [hu]) (by omega)
  have e2 := hpre (v ++ w) (by simp [hv]) (by omega)
  have e3 := hpre (u ++ w ++ [o]) (by simp) (by rw [List.length_append, List.length_singleton]; omega)
  have e4 := hpre (v ++ w ++ [o]) (by simp) (by rw [List.length_append, List.length_singleton]; omega)
  have h := separates_law (hsim.block (Nat.succ_pos steps) (M.run_reads steps)) (gen_counts kind _ (fun w hw => by have := hw.1; omega))
    (fun w hw => hw.1) alpha ha ha2 u v hu w o (by omega) (by omega) (by rw [e1]; exact p1) (by rw [e2]; exact p2)
    (by rw [e1, e2, e3, e4]; exact hne) (by
      intro l hl
      rcases hw l hl with ⟨a, b⟩ | ⟨z, x, y, a, b, c, q1, q2⟩
      · exact .inl ⟨a, lt_of_lt_of_eq b (hpre [l] (by simp) (by simp)).symm⟩
      · exact .inr ⟨z, x, y, a, b, c, lt_of_lt_of_eq q1 (hpre _ (by simp) (by simpa using a)).symm,
          lt_of_lt_of_eq q2 (hpre _ (by simp) (by simpa using a)).symm⟩)
  have h1 := (blocks_law (steps + 1) (Nat.succ_pos steps)).quasiMeasurePreserving.ae h
  filter_upwards [h1] with d hd
  filter_upwards [hd] with N hN
  obtain ⟨S, h2, h3⟩ := hN
  refine ⟨S, ?_, h3⟩
  rw [gen_eq kind _ N false none (.int steps) geom (fun _ => steps) (fun _ => rfl)]
  simp only [(M.run_reads steps).block] at h2
  exact h2

/-- C103, MC: the next label is always looked at. -/
theorem compatible_separates_next (M : MC ℝ String n) (hM : M.Stochastic) (kind : String → Kind) (steps : ℕ) (hs : 1 ≤ steps) (geom : ℕ → ℕ)
    (alpha : ℝ) (ha : 0 < alpha) (ha2 : alpha ≤ 2) (u v : List String) (hu : u ≠ []) (hv : v ≠ []) (o : String)
    (hul : u.length ≤ steps) (hvl : v.length ≤ steps) (p1 : 0 < M.lik u) (p2 : 0 < M.lik v)
    (hne : M.lik (u ++ [o]) / M.lik u ≠ M.lik (v ++ [o]) / M.lik v) :
    ∀ᵐ d ∂drawsLaw, ∀ᶠ N in atTop,
      ∃ S, generateSet kind (fun j k => M.run k (fun i => d (j * (steps + 1) + i))) N false none (.int steps) geom = .ok S ∧
        Answers (hoeffding alpha) S u v false :=
  M.compatible_separates_partial hM kind steps hs geom alpha ha ha2 u v hu hv [] o (by simpa using hul) (by simpa using hvl)
    (by simpa using p1) (by simpa using p2) (by simpa using hne) (by simp)

/-- C103, MC: a difference is found if the label is neither certain nor impossible after one of the two words. -/
theorem compatible_separates_branching (M : MC ℝ String n) (hM : M.Stochastic) (kind : String → Kind) (steps : ℕ) (hs : 1 ≤ steps) (geom : ℕ → ℕ)
    (alpha : ℝ) (ha : 0 < alpha) (ha2 : alpha ≤ 2) (u v : List String) (hu : u ≠ []) (hv : v ≠ []) (w : List String) (o o' : String)
    (hul : (u ++ w).length ≤ steps) (hvl : (v ++ w).length ≤ steps) (p2 : 0 < M.lik (v ++ w))
    (hne : M.lik (u ++ w ++ [o]) / M.lik (u ++ w) ≠ M.lik (v ++ w ++ [o]) / M.lik (v ++ w)) (hoo : o ≠ o')
    (q1 : 0 < M.lik (u ++ w ++ [o])) (q2 : 0 < M.lik (u ++ w ++ [o'])) :
    ∀ᵐ d ∂drawsLaw, ∀ᶠ N in atTop,
      ∃ S, generateSet kind (fun j k => M.run k (fun i => d (j * (steps + 1) + i))) N false none (.int steps) geom = .ok S ∧
        Answers (hoeffding alpha) S u v false := by
  have p1 : 0 < M.lik (u ++ w) := by
    refine lt_of_lt_of_le q1 ?_
    rw [← M.prefix_law hM steps (u ++ w) (by simp [hu]) (by omega),
      ← M.prefix_law hM steps (u ++ w ++ [o]) (by simp) (by rw [List.length_append, List.length_singleton]; omega)]
    exact measureReal_mono (prefEvent_sub _ _ _)
  refine M.compatible_separates_partial hM kind steps hs geom alpha ha ha2 u v hu hv w o hul hvl p1 p2 hne (fun l hl => .inr ?_)
  rcases lt_or_gt_of_ne hoo with h | h
  · exact ⟨u ++ w, o, o', by omega, h, by simp [hl], q1, q2⟩
  · exact ⟨u ++ w, o', o, by omega, h, by simp [hl], q2, q1⟩

end MC

/-! ### A difference that is never found -/

/-- The next state. -/
def afterward : Fin 7 → Fin 7 := ![1, 2, 2, 4, 5, 6, 6]

/-- The chain generates `a b c c` and `d a b e`, with the same probability. -/
noncomputable def twoWays : MC ℝ String 7 :=
  ⟨fun s s' => if s' = afterward s then 1 else 0, ["a", "b", "c", "d", "a", "b", "e"].get, fun s => if s = 0 ∨ s = 3 then 1/2 else 0⟩

theorem twoWays_stochastic : twoWays.Stochastic := by
  refine ⟨fun s => ?_, ?_, fun s s' => ?_, fun s => ?_⟩
  · simp only [twoWays]; split_ifs <;> norm_num
  · simp [twoWays, Fin.sum_univ_succ]
    norm_num [Fin.ext_iff]
  · simp only [twoWays]; split_ifs <;> norm_num
  · simp [twoWays]

theorem twoWays_suf (s : Fin 7) (o o' : String) (os : List String) :
    sufProb twoWays.matrix (fun s o => if twoWays.labelling s = o then (1:ℝ) else 0) s (o :: o' :: os) =
      (if twoWays.labelling s = o then (1:ℝ) else 0) *
        sufProb twoWays.matrix (fun s o => if twoWays.labelling s = o then (1:ℝ) else 0) (afterward s) (o' :: os) := by
  simp [sufProb, twoWays]

theorem twoWays_suf1 (s : Fin 7) (o : String) :
    sufProb twoWays.matrix (fun s o => if twoWays.labelling s = o then (1:ℝ) else 0) s [o] = if twoWays.labelling s = o then (1:ℝ) else 0 := rfl

theorem twoWays_lik (o : String) (os : List String) : twoWays.lik (o :: os) =
    1/2 * sufProb twoWays.matrix (fun s o => if twoWays.labelling s = o then (1:ℝ) else 0) 0 (o :: os) +
    1/2 * sufProb twoWays.matrix (fun s o => if twoWays.labelling s = o then (1:ℝ) else 0) 3 (o :: os) := by
  unfold MC.lik
  rw [listProb_eq_sufProb]
  have : ∀ s : Fin 7, twoWays.initialState s = (if s = 0 then 1/2 else 0) + (if s = 3 then 1/2 else 0) := by
    intro s
    fin_cases s <;> simp [twoWays] <;> norm_num [Fin.ext_iff]
  simp only [this, add_mul, Finset.sum_add_distrib, ite_mul, zero_mul, Finset.sum_ite_eq', Finset.mem_univ, if_true]

theorem twoWays_loop (steps : ℕ) (d : ℕ → ℝ) (hd : ∀ k, 0 ≤ d k) (s : Fin 7) (w : List String) (h : twoWays.runLoop steps d s = .ok w) :
    w = (List.range (steps + 1)).map (fun k => twoWays.labelling (afterward^[k] s)) := by
  induction steps generalizing d s w with
  | zero =>
    simp only [MC.runLoop] at h
    injection h with h
    simp [← h]
  | succ steps ih =>
    simp only [MC.runLoop] at h
    obtain ⟨⟨c, l⟩, h1, h2⟩ := (Except.bind_eq_ok _ _ _).1 h
    obtain ⟨rest, h5, h3⟩ := (Except.bind_eq_ok _ _ _).1 h2
    simp only [MC.next] at h1
    obtain ⟨c', h6, h4⟩ := (Except.bind_eq_ok _ _ _).1 h1
    cases h4
    cases h3
    have hp := pick_pos _ (twoWays_stochastic.2.2.1 s) _ (hd 0) _ h6
    have hc : c = afterward s := by
      by_contra hne
      simp [twoWays, hne] at hp
    subst hc
    rw [ih _ (fun k => hd (k + 1)) _ _ h5, List.range_succ_eq_map (n := steps + 1), List.map_cons, List.map_map]
    simp

theorem twoWays_run (d : ℕ → ℝ) (hd : ∀ k, 0 ≤ d k) (w : List String) (h : twoWays.run 3 d = .ok w) :
    w = ["a", "b", "c", "c"] ∨ w = ["d", "a", "b", "e"] := by
  obtain ⟨c, h1, h2⟩ := (Except.bind_eq_ok _ _ _).1 h
  have hp := pick_pos _ twoWays_stochastic.1 _ (hd 0) _ h1
  have hc : c = 0 ∨ c = 3 := by
    by_contra hne
    simp [twoWays, hne] at hp
  have := twoWays_loop 3 _ (fun k => hd (k + 1)) c w h2
  subst this
  rcases hc with rfl | rfl
  · exact .inl (by simp [List.range_succ, afterward, twoWays])
  · exact .inr (by simp [List.range_succ, afterward, twoWays])

/-- 'c' has the probability 1 after `a b` and 0 after `d a b`. -/
theorem twoWays_differ : twoWays.lik (["a"] ++ ["b"] ++ ["c"]) / twoWays.lik (["a"] ++ ["b"]) = 1 ∧
    twoWays.lik (["d", "a"] ++ ["b"] ++ ["c"]) / twoWays.lik (["d", "a"] ++ ["b"]) = 0 ∧ 0 < twoWays.lik (["d", "a"] ++ ["b"]) := by
  simp only [List.cons_append, List.nil_append, twoWays_lik, twoWays_suf, twoWays_suf1]
  simp [twoWays, afterward]

theorem hoeffdingBound_equal {alpha : ℝ} (h0 : 0 < alpha) (h2 : alpha < 2) {f1 f2 : ℕ} (n1 n2 : ℕ) (r : ℝ) (e1 : (f1:ℝ) = r * n1) (e2 : (f2:ℝ) = r * n2) :
    hoeffdingBound f1 n1 f2 n2 alpha ≠ .ok false := by
  intro h
  unfold hoeffdingBound at h
  split_ifs at h with a1 a2 a3 a4
  · cases h
  · injection h with h
    rw [decide_eq_false_iff_not] at h
    apply h
    have hn1 : (n1:ℝ) ≠ 0 := fun e => a1 (by rw [e, zero_mul])
    have hn2 : (n2:ℝ) ≠ 0 := fun e => a1 (by rw [e, mul_zero])
    rw [e1, e2, mul_div_cancel_right₀ _ hn1, mul_div_cancel_right₀ _ hn2, sub_self, abs_zero]
    have hl : 0 < Real.log (2 / alpha) := Real.log_pos (by rw [lt_div_iff₀ h0]; linarith)
    have k1 : (0:ℝ) < n1 := lt_of_le_of_ne (Nat.cast_nonneg _) hn1.symm
    have k2 : (0:ℝ) < n2 := lt_of_le_of_ne (Nat.cast_nonneg _) hn2.symm
    exact mul_pos (add_pos (Real.sqrt_pos.2 (by positivity)) (Real.sqrt_pos.2 (by positivity))) (Real.sqrt_pos.2 (by positivity))

/-- C103 (violated): **a difference that is never found**. After `a` comes 'b' and then always 'c'; after `d a` comes 'b' and then always 'e'. Almost
surely the test declares the states reached by `a` and by `d a` compatible, for every `alpha` and all sufficiently large training sets. ('b' is
never the first label that distinguishes two traces.) -/
theorem MC.compatible_never_separates (kind : String → Kind) (geom : ℕ → ℕ) :
    ∀ᵐ d ∂drawsLaw, ∀ᶠ N in atTop,
      ∃ S, generateSet kind (fun j k => twoWays.run k (fun i => d (j * (3 + 1) + i))) N false none (.int 3) geom = .ok S ∧
        ∀ alpha, 0 < alpha → alpha < 2 → Answers (hoeffding alpha) S ["a"] ["d", "a"] true := by
  have hM := twoWays_stochastic
  have hsim := twoWays.simulates hM 3
  have hl1 : twoWays.lik ["a", "b", "c", "c"] = 1/2 := by
    simp only [twoWays_lik, twoWays_suf, twoWays_suf1]
    simp [twoWays, afterward]
  have hl2 : twoWays.lik ["d", "a", "b", "e"] = 1/2 := by
    simp only [twoWays_lik, twoWays_suf, twoWays_suf1]
    simp [twoWays, afterward]
  filter_upwards [draws_in_range, twoWays.generateSet_frequencies hM kind 3 (by norm_num) geom] with d hd hfr
  obtain ⟨S, hS, hlim⟩ := hfr
  have hpos : ∀ w : List String, w.length = 3 + 1 → twoWays.lik w = 1/2 → ∀ᶠ N in atTop, 0 < (S N).mult w := by
    intro w hw hl
    obtain ⟨p, hp, ht⟩ := hlim w hw
    have hw0 : w ≠ [] := by rintro rfl; simp at hw
    rw [twoWays.seqProb_eq_paths _ hw0] at hp
    injection hp with hp
    have hp' : p = 1/2 := hp.symm.trans hl
    filter_upwards [ht.eventually (lt_mem_nhds (show (0:ℝ) < p by rw [hp']; norm_num))] with N hN
    by_contra hno
    have : (S N).mult w = 0 := by omega
    rw [this] at hN
    simp at hN
  filter_upwards [hpos _ rfl hl1, hpos _ rfl hl2] with N p1 p2
  refine ⟨S N, (hS N).1, fun alpha h0 h2 => ?_⟩
  have hC := (hS N).2.1
  have hmem : ∀ w, 0 < (S N).mult w → w ∈ (S N).sequences := by
    intro w hw
    by_contra hno
    unfold TSet.mult at hw
    rw [List.filter_eq_nil_iff.2 (fun t ht hl => hno (by
      have := (List.of_mem_zip ht).1
      simp only [decide_eq_true_eq] at hl
      rwa [hl] at this))] at hw
    simp at hw
  obtain ⟨b, hb⟩ := answered alpha h0 h2.le ["a"] ["d", "a"] (by simp) (S N) hC ⟨_, hmem _ p1, by simp⟩ ⟨_, hmem _ p2, by simp⟩
  cases b with
  | true => exact hb
  | false =>
    exfalso
    let D : ℕ → ℕ → ℝ := fun j i => d (j * (3 + 1) + i)
    have hD : ∀ j, ∃ w, twoWays.run 3 (D j) = .ok w := fun j =>
      twoWays.run_total hM.1 hM.2.1 hM.2.2.1 hM.2.2.2 3 (D j) (fun k => hd _)
    have htr : ∀ j w, twoWays.run 3 (D j) = .ok w → w = ["a", "b", "c", "c"] ∨ w = ["d", "a", "b", "e"] := fun j w h =>
      twoWays_run (D j) (fun k => (hd _).1) w h
    obtain ⟨S', g1, -, -, -, g2⟩ := hsim.sets (gen_counts kind _ (fun w hw => by have := hw.1; omega)) D hD N
    have g3 := (hS N).1
    rw [gen_eq kind _ N false none (.int 3) geom (fun _ => 3) (fun _ => rfl)] at g3
    rw [show gen kind (fun i => twoWays.run 3 (D i)) N = .ok (S N) from g3] at g1
    injection g1 with g1
    subst g1
    obtain ⟨w, o, ⟨-, hal⟩, -, hlen, hbd⟩ := rejected_test hsim (fun w hw => hw.1) (Finset.univ.image twoWays.labelling) (fun w hw o ho => by
      obtain ⟨s, rfl⟩ := hw.2 o ho
      exact Finset.mem_image_of_mem _ (Finset.mem_univ s)) alpha h0 h2.le ["a"] ["d", "a"] (by simp) (by simp) (by simp) D hD N (S N) hC g2 hb
    have hseq : ∀ t ∈ (S N).sequences, t = ["a", "b", "c", "c"] ∨ t = ["d", "a", "b", "e"] := by
      intro t ht
      have : 0 < (S N).mult t := by
        rw [← perm_map_fst (S N) hC.1.1] at ht
        obtain ⟨q, hq, rfl⟩ := List.mem_map.1 ht
        have h1 : 1 ≤ q.2 := hC.2.1 _ (List.of_mem_zip hq).2
        unfold TSet.mult
        exact lt_of_lt_of_le h1 (List.single_le_sum (fun _ _ => Nat.zero_le _) _ (List.mem_map.2 ⟨q, List.mem_filter.2 ⟨hq, by simp⟩, rfl⟩))
      rw [g2] at this
      obtain ⟨j, -, hj⟩ := occ_pos_iff.1 this
      exact htr j t hj
    have hP : ∀ (z : List String) j, D j ∈ prefEvent (twoWays.run 3) z ↔ ∃ t, twoWays.run 3 (D j) = .ok t ∧ z <+: t := fun _ _ => Iff.rfl
    have hzero : ∀ z : List String, ¬ z <+: ["a", "b", "c", "c"] → ¬ z <+: ["d", "a", "b", "e"] → occ D (prefEvent (twoWays.run 3) z) N = 0 := by
      intro z z1 z2
      by_contra hne
      obtain ⟨j, -, t, ht, hz⟩ := occ_pos_iff.1 (Nat.pos_of_ne_zero hne)
      rcases htr j t ht with rfl | rfl
      · exact z1 hz
      · exact z2 hz
    have hsame : ∀ z z' : List String, (z <+: ["a", "b", "c", "c"] ↔ z' <+: ["a", "b", "c", "c"]) →
        (z <+: ["d", "a", "b", "e"] ↔ z' <+: ["d", "a", "b", "e"]) →
        occ D (prefEvent (twoWays.run 3) z) N = occ D (prefEvent (twoWays.run 3) z') N := by
      intro z z' z1 z2
      refine occ_congr (fun j => ?_) N
      rw [hP, hP]
      refine exists_congr (fun t => and_congr_right (fun ht => ?_))
      rcases htr j t ht with rfl | rfl
      · exact z1
      · exact z2
    rcases w with _ | ⟨l, _ | ⟨l', w⟩⟩
    · simp only [List.append_nil, List.cons_append, List.nil_append] at hbd
      by_cases ho : o = "b"
      · subst ho
        rw [hsame ["a", "b"] ["a"] (by simp) (by simp), hsame ["d", "a", "b"] ["d", "a"] (by simp) (by simp)] at hbd
        exact hoeffdingBound_equal h0 h2 _ _ 1 (by simp) (by simp) hbd
      · rw [hzero ["a", o] (by simp [ho]) (by simp), hzero ["d", "a", o] (by simp) (by simp [ho])] at hbd
        exact hoeffdingBound_equal h0 h2 _ _ 0 (by simp) (by simp) hbd
    · have hl := (createPTA_notices (S N) hC.1 l).1 (hal l (by simp))
      obtain ⟨t, ht, z, hz, hz'⟩ := hl
      have hz0 : z = [] := by
        rcases hz' with h | ⟨t', ht', hlt, hz2⟩
        · exact h
        · rcases z with _ | ⟨x, z⟩
          · rfl
          · exfalso
            have k1 := (List.prefix_append _ _).trans hz
            rcases hseq t ht with rfl | rfl <;> rcases hseq t' ht' with rfl | rfl
            · exact lt_irrefl _ hlt
            · rw [List.cons_prefix_cons] at k1 hz2
              have := k1.1.symm.trans hz2.1
              simp at this
            · rw [List.cons_prefix_cons] at k1 hz2
              have := k1.1.symm.trans hz2.1
              simp at this
            · exact lt_irrefl _ hlt
      subst hz0
      have hl : l = "a" ∨ l = "d" := by
        rcases hseq t ht with rfl | rfl
        · simp at hz; exact .inl hz
        · simp at hz; exact .inr hz
      have hz1 : occ D (prefEvent (twoWays.run 3) (["a"] ++ [l])) N = 0 := by
        refine hzero _ ?_ ?_ <;> rcases hl with rfl | rfl <;> simp
      rw [hz1] at hbd
      unfold hoeffdingBound at hbd
      simp at hbd
    · simp at hlen
      omega

/-! ### Examples -/

/-- 'b' has the probability 1/2 after `a` and 1 after `a b`. -/
example (alpha : ℝ) (ha : 0 < alpha) (ha2 : alpha ≤ 2) : ∀ᵐ d ∂drawsLaw, ∀ᶠ N in atTop,
    ∃ S, generateSet (fun _ => .str) (fun j k => errorChain.run k (fun i => d (j * (3 + 1) + i))) N false none (.int 3) (fun _ => 0) = .ok S ∧
      Answers (hoeffding alpha) S ["a"] ["a", "b"] false := by
  have hl : ∀ o os, errorChain.lik (o :: os) = ∑ s, errorChain.initialState s *
      sufProb errorChain.matrix (fun s o => if errorChain.labelling s = o then (1:ℝ) else 0) s (o :: os) := fun o os => by
    unfold MC.lik
    rw [listProb_eq_sufProb]
  have e1 : errorChain.lik ["a"] = 1 := by rw [hl]; simp [sufProb, errorChain, Fin.sum_univ_two]
  have e2 : errorChain.lik ["a", "b"] = 1/2 := by rw [hl]; simp [sufProb, errorChain, Fin.sum_univ_two]
  have e3 : errorChain.lik ["a", "b", "b"] = 1/2 := by rw [hl]; simp [sufProb, errorChain, Fin.sum_univ_two]
  exact errorChain.compatible_separates_next errorChain_stochastic _ 3 (by norm_num) _ alpha ha ha2 ["a"] ["a", "b"] (by simp) (by simp) "b" (by simp)
    (by simp) (by rw [e1]; norm_num) (by rw [e2]; norm_num) (by simp only [List.cons_append, List.nil_append]; rw [e1, e2, e3]; norm_num)

/-- Three states with the label 'a'; 'b' can follow the last one. -/
noncomputable def lateChain : MC ℝ String 4 :=
  ⟨!![0, 1, 0, 0; 0, 0, 1, 0; 0, 0, 1/2, 1/2; 0, 0, 0, 1], ["a", "a", "a", "b"].get, fun s => if s = 0 then 1 else 0⟩

theorem lateChain_stochastic : lateChain.Stochastic := by
  refine ⟨fun s => ?_, by simp [lateChain], fun s s' => ?_, fun s => ?_⟩
  · simp only [lateChain]; split_ifs <;> norm_num
  · fin_cases s <;> fin_cases s' <;> norm_num [lateChain]
  · fin_cases s <;> simp [lateChain, Fin.sum_univ_succ] <;> norm_num

/-- After `a a` and after `a` comes an 'a'; only then the probabilities of 'b' differ. -/
example (alpha : ℝ) (ha : 0 < alpha) (ha2 : alpha ≤ 2) : ∀ᵐ d ∂drawsLaw, ∀ᶠ N in atTop,
    ∃ S, generateSet (fun _ => .str) (fun j k => lateChain.run k (fun i => d (j * (4 + 1) + i))) N false none (.int 4) (fun _ => 0) = .ok S ∧
      Answers (hoeffding alpha) S ["a", "a"] ["a"] false := by
  have hl : ∀ o os, lateChain.lik (o :: os) =
      sufProb lateChain.matrix (fun s o => if lateChain.labelling s = o then (1:ℝ) else 0) 0 (o :: os) := fun o os => by
    unfold MC.lik
    rw [listProb_eq_sufProb]
    simp [lateChain]
  have e1 : lateChain.lik ["a", "a"] = 1 := by rw [hl]; simp [sufProb, lateChain, Fin.sum_univ_four]
  have e2 : lateChain.lik ["a", "a", "a"] = 1 := by rw [hl]; simp [sufProb, lateChain, Fin.sum_univ_four]
  have e3 : lateChain.lik ["a", "a", "b"] = 0 := by rw [hl]; simp [sufProb, lateChain, Fin.sum_univ_four]
  have e4 : lateChain.lik ["a", "a", "a", "b"] = 1/2 := by rw [hl]; simp [sufProb, lateChain, Fin.sum_univ_four]
  have e5 : lateChain.lik ["a", "a", "a", "a"] = 1/2 := by rw [hl]; simp [sufProb, lateChain, Fin.sum_univ_four]
  refine lateChain.compatible_separates_branching lateChain_stochastic _ 4 (by norm_num) _ alpha ha ha2 ["a", "a"] ["a"] (by simp) (by simp) ["a"] "b" "a"
    (by simp) (by simp) ?_ ?_ (by simp) ?_ ?_ <;> simp only [List.cons_append, List.nil_append]
  · rw [e1]; norm_num
  · rw [e1, e2, e3, e4]; norm_num
  · rw [e4]; norm_num
  · rw [e5]; norm_num

end Jajapy
