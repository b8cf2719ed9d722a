import Verif.Lemmas.Observable
import Verif.Props.Loop

/-!
Property C81: learning a fully observed model. When the states have pairwise different labels, the training traces show
every move, and learning is counting: the learned transition probabilities are explicit functions of the counts, and they
converge to the observed frequencies, which have the largest likelihood of all chains on these labels.
-/

set_option linter.unusedSectionVars false

namespace Jajapy

open Finset Spec BW

section
variable {L : Type} {n : ℕ} [DecidableEq L]

/-- C81, one iteration: the new probability of a transition counts the observed moves and, for each trace that ends in
the state, one unobserved move that follows the old probabilities. -/
theorem MC.bw_step_observed (processes : ℕ) (S : TSet L) (M M' : MC ℝ L n) (ll : ℝ)
    (hinj : Function.Injective M.labelling) (hm : ∀ s, ∑ s', M.matrix s s' = 1)
    (hpos : ∀ w ∈ S.sequences, M.lik w ≠ 0) (h : stepMC processes S M = .ok (M', ll)) (s s' : Fin n) :
    M'.matrix s s' =
      if leaves S (M.labelling s) = 0 ∧ ends S (M.labelling s) = 0 then M.matrix s s'
      else (moves S (M.labelling s) (M.labelling s') + ends S (M.labelling s) * M.matrix s s')
        / (leaves S (M.labelling s) + ends S (M.labelling s)) := by
  obtain ⟨h1, _, _, _⟩ := stepMC_ok _ _ _ _ _ h
  subst h1
  simp only [newMC]
  rw [M.den_det hinj hm S hpos, M.num_det hinj hm S hpos]
  have e : ((leaves S (M.labelling s) : ℕ) : ℝ) + (ends S (M.labelling s) : ℕ) = 0 ↔
      leaves S (M.labelling s) = 0 ∧ ends S (M.labelling s) = 0 := by
    rw [← Nat.cast_add, Nat.cast_eq_zero]; omega
  by_cases h0 : leaves S (M.labelling s) = 0 ∧ ends S (M.labelling s) = 0
  · rw [if_pos (e.2 h0), if_pos h0]
  · rw [if_neg (fun h' => h0 (e.1 h')), if_neg h0]

theorem MC.moves_zero (S : TSet L) (x y : L) (h : leaves S x = 0) : moves S x y = 0 := by
  unfold moves leaves at *
  rw [List.sum_eq_zero_iff] at h ⊢
  intro k hk
  obtain ⟨p, hp, rfl⟩ := List.mem_map.1 hk
  have := h _ (List.mem_map.2 ⟨p, hp, rfl⟩)
  rcases Nat.mul_eq_zero.1 this with h0 | h0
  · rw [h0, zero_mul]
  · rw [List.count_eq_zero.2, mul_zero]
    intro hm
    have : x ∈ p.1.dropLast := by
      obtain ⟨i, hi, e⟩ := List.mem_iff_getElem.1 hm
      rw [List.getElem_zip] at e
      injection e with e1 _
      rw [List.length_zip, List.length_tail] at hi
      rw [← e1]
      have : i < p.1.dropLast.length := by rw [List.length_dropLast]; omega
      rw [← List.getElem_dropLast this]
      exact List.getElem_mem _
    exact List.count_eq_zero.1 h0 this

/-- The iterates in closed form. -/
theorem closed_form (m l e a f : ℝ) (hle : l + e ≠ 0) (hm : m = l * f) (k : ℕ) :
    (m + e * (f + (e / (l + e)) ^ k * (a - f))) / (l + e) = f + (e / (l + e)) ^ (k+1) * (a - f) := by
  rw [pow_succ]
  field_simp
  rw [hm]
  ring

/-- C81: after `k` iterations the distance to the observed frequencies has been multiplied by the `k`-th power of the
proportion of the visits of the state that end a trace. -/
theorem MC.fit_observed (processes : ℕ) (S : TSet L) (epsilon : ℝ) (maxIt : ℕ) (M : MC ℝ L n) (hM : M.Stochastic)
    (hinj : Function.Injective M.labelling) (hlen : S.times.length = S.sequences.length) (ht : ∀ t ∈ S.times, 1 ≤ t)
    (hpos : ∀ w ∈ S.sequences, M.lik w ≠ 0)
    (st : LoopState (MC ℝ L n)) (h : fit (stepMC processes S) epsilon maxIt M = .ok st) (s s' : Fin n) :
    st.h.matrix s s' = (M.frequencies S).matrix s s' +
      ((ends S (M.labelling s) : ℝ) / (leaves S (M.labelling s) + ends S (M.labelling s))) ^ st.counter *
        (M.matrix s s' - (M.frequencies S).matrix s s') := by
  obtain ⟨k, hs, ls, a1, a2, a3, a4, _⟩ := fit_iterations _ _ _ _ _ h
  have hne : ∀ w ∈ S.sequences, w ≠ [] := fun w hw h0 => hpos w hw (by rw [h0]; rfl)
  have key : ∀ i ≤ k, (hs i).Stochastic ∧ (hs i).labelling = M.labelling ∧ (hs i).initialState = M.initialState ∧
      (∀ w ∈ S.sequences, (hs i).lik w ≠ 0) ∧ (hs i).matrix s s' = (M.frequencies S).matrix s s' +
      ((ends S (M.labelling s) : ℝ) / (leaves S (M.labelling s) + ends S (M.labelling s))) ^ i *
        (M.matrix s s' - (M.frequencies S).matrix s s') := by
    intro i
    induction i with
    | zero => intro _; rw [a1]; exact ⟨hM, rfl, rfl, hpos, by ring⟩
    | succ i ih =>
      intro hi
      obtain ⟨b1, b2, b3, b4, b5⟩ := ih (by omega)
      have hst := a2 i (by omega)
      obtain ⟨c1, _⟩ := stepMC_ok _ _ _ _ _ hst
      have c2 := MC.bw_step_keeps_stochastic _ _ _ _ _ b1 hst
      refine ⟨c2, by rw [c1, ← b2]; rfl, by rw [c1, ← b3]; rfl, ?_, ?_⟩
      · intro w hw
        rw [c1] at c2 ⊢
        exact (MC.stepMC_poss S (hs i) b1 ht hne c2 w hw hlen).1 (b4 w hw)
      · have := MC.bw_step_observed processes S (hs i) _ _ (by rw [b2]; exact hinj) b1.2.2.2 b4 hst s s'
        rw [this, b5, b2]
        by_cases h0 : leaves S (M.labelling s) = 0
        · have hf : (M.frequencies S).matrix s s' = M.matrix s s' := by simp only [MC.frequencies]; rw [if_pos h0]
          rw [hf]
          by_cases h1 : ends S (M.labelling s) = 0
          · rw [if_pos ⟨h0, h1⟩]; ring
          · rw [if_neg (fun h' => h1 h'.2), MC.moves_zero S _ _ h0, h0]
            have : ((ends S (M.labelling s) : ℕ) : ℝ) ≠ 0 := Nat.cast_ne_zero.2 h1
            simp only [sub_self, mul_zero, add_zero, Nat.cast_zero, zero_add]
            field_simp
        · have hl : ((leaves S (M.labelling s) : ℕ) : ℝ) ≠ 0 := Nat.cast_ne_zero.2 h0
          rw [if_neg (fun h' => h0 h'.1)]
          refine closed_form _ _ _ _ _ ?_ ?_ i
          · have : leaves S (M.labelling s) + ends S (M.labelling s) ≠ 0 := by omega
            exact_mod_cast this
          · simp only [MC.frequencies]
            rw [if_neg h0]
            field_simp
  rw [a3, a4]
  exact (key k le_rfl).2.2.2.2

/-- C81: a state that ends no training trace gets the observed frequencies at once. -/
theorem MC.fit_observed_exact_partial (processes : ℕ) (S : TSet L) (epsilon : ℝ) (maxIt : ℕ) (hmax : 1 ≤ maxIt) (M : MC ℝ L n)
    (hM : M.Stochastic) (hinj : Function.Injective M.labelling) (hlen : S.times.length = S.sequences.length)
    (ht : ∀ t ∈ S.times, 1 ≤ t) (hpos : ∀ w ∈ S.sequences, M.lik w ≠ 0)
    (st : LoopState (MC ℝ L n)) (h : fit (stepMC processes S) epsilon maxIt M = .ok st) (s : Fin n)
    (hend : ∀ w ∈ S.sequences, w.getLast? ≠ some (M.labelling s)) : st.h.matrix s = (M.frequencies S).matrix s := by
  funext s'
  have h0 : ends S (M.labelling s) = 0 := by
    unfold ends
    rw [List.sum_eq_zero_iff]
    intro k hk
    obtain ⟨p, hp, rfl⟩ := List.mem_map.1 hk
    rw [if_neg (hend _ (List.of_mem_zip hp).1)]
  obtain ⟨k, hs, ls, _, _, _, a4, _, _, a7, _⟩ := fit_iterations _ _ _ _ _ h
  rw [MC.fit_observed processes S epsilon maxIt M hM hinj hlen ht hpos st h s s', h0, a4,
    Nat.cast_zero, zero_div, zero_pow (by have := a7 hmax; omega), zero_mul, add_zero]

/-- C81: the learned chain converges to the observed frequencies: for every precision there is a number of iterations
after which, whatever the options, every learned probability is that close to the observed frequency. -/
theorem MC.fit_observed_converges_partial (S : TSet L) (M : MC ℝ L n) (hM : M.Stochastic)
    (hinj : Function.Injective M.labelling) (hlen : S.times.length = S.sequences.length) (ht : ∀ t ∈ S.times, 1 ≤ t)
    (hpos : ∀ w ∈ S.sequences, M.lik w ≠ 0) (δ : ℝ) (hδ : 0 < δ) :
    ∃ k0 : ℕ, ∀ (processes : ℕ) (epsilon : ℝ) (maxIt : ℕ) (st : LoopState (MC ℝ L n)),
      fit (stepMC processes S) epsilon maxIt M = .ok st → k0 ≤ st.counter →
      ∀ s s', |st.h.matrix s s' - (M.frequencies S).matrix s s'| < δ := by
  have ev : ∀ᶠ k : ℕ in Filter.atTop, ∀ s s', |((ends S (M.labelling s) : ℝ) /
      (leaves S (M.labelling s) + ends S (M.labelling s))) ^ k * (M.matrix s s' - (M.frequencies S).matrix s s')| < δ := by
    rw [Filter.eventually_all]
    intro s
    rw [Filter.eventually_all]
    intro s'
    by_cases h0 : leaves S (M.labelling s) = 0
    · have hf : (M.frequencies S).matrix s s' = M.matrix s s' := by simp only [MC.frequencies]; rw [if_pos h0]
      rw [hf]
      exact Filter.Eventually.of_forall (fun _ => by rw [sub_self, mul_zero, abs_zero]; exact hδ)
    · have hl : (0:ℝ) < (leaves S (M.labelling s) : ℕ) := by exact_mod_cast Nat.pos_of_ne_zero h0
      have he : (0:ℝ) ≤ (ends S (M.labelling s) : ℕ) := Nat.cast_nonneg _
      have hlim := (tendsto_pow_atTop_nhds_zero_of_lt_one (r := (ends S (M.labelling s) : ℝ) /
        (leaves S (M.labelling s) + ends S (M.labelling s))) (div_nonneg he (by linarith))
        ((div_lt_one (by linarith)).2 (by linarith))).mul_const (M.matrix s s' - (M.frequencies S).matrix s s')
      rw [zero_mul] at hlim
      have := hlim.abs
      rw [abs_zero] at this
      exact this.eventually_lt_const hδ
  obtain ⟨k0, hk0⟩ := Filter.eventually_atTop.1 ev
  refine ⟨k0, fun processes epsilon maxIt st h hk s s' => ?_⟩
  rw [MC.fit_observed processes S epsilon maxIt M hM hinj hlen ht hpos st h s s', add_sub_cancel_left]
  exact hk0 _ hk s s'

theorem chain_ne_zero {K : Type} [Field K] (a : Fin n → Fin n → K) (s0 : Fin n) (r : List (Fin n)) :
    chain a (s0 :: r) ≠ 0 ↔ ∀ x ∈ (s0 :: r).zip r, a x.1 x.2 ≠ 0 := by
  induction r generalizing s0 with
  | nil => simp [chain_single]
  | cons s1 r ih =>
    rw [chain_cons_cons, mul_ne_zero_iff, ih, List.zip_cons_cons, List.forall_mem_cons]

theorem moves_pos (S : TSet L) (ht : ∀ t ∈ S.times, 1 ≤ t) (hlen : S.times.length = S.sequences.length)
    (w : List L) (hw : w ∈ S.sequences) (x y : L) (h : (x, y) ∈ w.zip w.tail) : 0 < moves S x y := by
  obtain ⟨i, hi, rfl⟩ := List.mem_iff_getElem.1 hw
  have hm : (S.sequences[i], S.times[i]'(by omega)) ∈ S.sequences.zip S.times := by
    rw [List.mem_iff_getElem]
    exact ⟨i, by simp; omega, by simp⟩
  unfold moves
  have h1 := List.single_le_sum (l := (S.sequences.zip S.times).map (fun p => p.2 * (p.1.zip p.1.tail).count (x, y)))
    (fun _ _ => Nat.zero_le _) _ (List.mem_map.2 ⟨_, hm, rfl⟩)
  have h2 : 0 < S.times[i]'(by omega) * (S.sequences[i].zip S.sequences[i].tail).count (x, y) :=
    Nat.mul_pos (ht _ (List.getElem_mem _)) (List.count_pos_iff.2 h)
  exact lt_of_lt_of_le h2 h1

/-- The chain of the frequencies is a Markov chain. -/
theorem MC.frequencies_stochastic (M : MC ℝ L n) (hM : M.Stochastic) (hinj : Function.Injective M.labelling) (S : TSet L)
    (hpos : ∀ w ∈ S.sequences, M.lik w ≠ 0) : (M.frequencies S).Stochastic := by
  refine ⟨hM.1, hM.2.1, ?_, ?_⟩
  · intro s s'
    simp only [MC.frequencies]
    split_ifs
    · exact hM.2.2.1 _ _
    · positivity
  · intro s
    simp only [MC.frequencies]
    by_cases h0 : leaves S (M.labelling s) = 0
    · simp only [if_pos h0]; exact hM.2.2.2 s
    · simp only [if_neg h0]
      rw [← Finset.sum_div, ← Nat.cast_sum, M.sum_moves hinj S hpos, div_self (Nat.cast_ne_zero.2 h0)]

/-- The training traces are possible in the chain of the frequencies. -/
theorem MC.frequencies_possible (M : MC ℝ L n) (hM : M.Stochastic) (hinj : Function.Injective M.labelling) (S : TSet L)
    (hlen : S.times.length = S.sequences.length) (ht : ∀ t ∈ S.times, 1 ≤ t)
    (hpos : ∀ w ∈ S.sequences, M.lik w ≠ 0) : ∀ w ∈ S.sequences, (M.frequencies S).lik w ≠ 0 := by
  intro w hw
  have h := hpos w hw
  obtain ⟨s0, r, rfl⟩ := M.path_of_lik w h
  rw [M.lik_eq hM.2.2.2 _ (by simp), M.weight_det hinj hM.2.2.2] at h
  have e : ((s0 :: r).map M.labelling) = (s0 :: r).map (M.frequencies S).labelling := rfl
  rw [e, (M.frequencies S).lik_eq (M.frequencies_stochastic hM hinj S hpos).2.2.2 _ (by simp),
    (M.frequencies S).weight_det hinj (M.frequencies_stochastic hM hinj S hpos).2.2.2]
  refine mul_ne_zero (left_ne_zero_of_mul h) ((chain_ne_zero _ _ _).2 ?_)
  rintro ⟨x, y⟩ hxy
  have hmv := moves_pos S ht hlen _ hw (M.labelling x) (M.labelling y) (by
    rw [← List.map_tail, List.zip_map]
    exact List.mem_map.2 ⟨(x, y), hxy, rfl⟩)
  simp only [MC.frequencies]
  split_ifs with h0
  · rw [MC.moves_zero S _ _ h0] at hmv
    exact absurd hmv (lt_irrefl _)
  · exact div_ne_zero (Nat.cast_ne_zero.2 hmv.ne') (Nat.cast_ne_zero.2 h0)

/-- C81: of all Markov chains with these labels and this initial distribution in which the training traces are possible,
the chain of the observed frequencies has the largest likelihood. -/
theorem MC.frequencies_best (M : MC ℝ L n) (hM : M.Stochastic) (hinj : Function.Injective M.labelling) (S : TSet L)
    (hlen : S.times.length = S.sequences.length) (ht : ∀ t ∈ S.times, 1 ≤ t)
    (hpos : ∀ w ∈ S.sequences, M.lik w ≠ 0) (N : MC ℝ L n) (hN : N.Stochastic) (hlab : N.labelling = M.labelling)
    (hinit : N.initialState = M.initialState) (hNpos : ∀ w ∈ S.sequences, N.lik w ≠ 0) :
    avgLogLik N.lik S ≤ avgLogLik (M.frequencies S).lik S := by
  have hF := M.frequencies_stochastic hM hinj S hpos
  have hFp := M.frequencies_possible hM hinj S hlen ht hpos
  rw [N.avg_det hN (by rw [hlab]; exact hinj) S hNpos (N.lik_nonneg hN),
    (M.frequencies S).avg_det hF hinj S hFp ((M.frequencies S).lik_nonneg hF)]
  refine div_le_div_of_nonneg_right ?_ (Nat.cast_nonneg _)
  rw [hlab, hinit]
  refine add_le_add le_rfl (Finset.sum_le_sum (fun s _ => ?_))
  show ∑ ss, ((moves S (M.labelling s) (M.labelling ss) : ℕ) : ℝ) * Real.log (N.matrix s ss) ≤
    ∑ ss, ((moves S (M.labelling s) (M.labelling ss) : ℕ) : ℝ) * Real.log ((M.frequencies S).matrix s ss)
  by_cases h0 : leaves S (M.labelling s) = 0
  · simp [MC.moves_zero S _ _ h0]
  · have := moves_gibbs (fun ss => moves S (M.labelling s) (M.labelling ss)) (N.matrix s) (hN.2.2.1 s) (hN.2.2.2 s).le ?_
      _ (M.sum_moves hinj S hpos s) h0
    · refine this.trans (le_of_eq (Finset.sum_congr rfl (fun ss _ => ?_)))
      simp only [MC.frequencies]
      rw [if_neg h0]
    · intro ss hm hz
      apply hm
      unfold moves
      rw [List.sum_eq_zero_iff]
      intro k hk
      obtain ⟨p, hp, rfl⟩ := List.mem_map.1 hk
      have hp1 := hNpos p.1 (List.of_mem_zip hp).1
      obtain ⟨s0, r, e⟩ := N.path_of_lik _ hp1
      rw [e, N.lik_eq hN.2.2.2 _ (by simp), N.weight_det (by rw [hlab]; exact hinj) hN.2.2.2] at hp1
      have hc := (chain_ne_zero _ _ _).1 (right_ne_zero_of_mul hp1)
      rw [e, hlab, count_zip_lab _ hinj, List.count_eq_zero.2, mul_zero]
      exact fun hmem => hc (s, ss) hmem hz

/-- C81: the likelihood of what `fit` returns lies between those of the initial chain and of the frequencies. -/
theorem MC.fit_observed_between (processes : ℕ) (S : TSet L) (epsilon : ℝ) (maxIt : ℕ) (M : MC ℝ L n) (hM : M.Stochastic)
    (hinj : Function.Injective M.labelling) (hlen : S.times.length = S.sequences.length) (ht : ∀ t ∈ S.times, 1 ≤ t)
    (hpos : ∀ w ∈ S.sequences, M.lik w ≠ 0)
    (st : LoopState (MC ℝ L n)) (h : fit (stepMC processes S) epsilon maxIt M = .ok st) :
    avgLogLik M.lik S ≤ avgLogLik st.h.lik S ∧ avgLogLik st.h.lik S ≤ avgLogLik (M.frequencies S).lik S := by
  have hne : ∀ w ∈ S.sequences, w ≠ [] := fun w hw h0 => hpos w hw (by rw [h0]; rfl)
  have := loop_invariant _ _ (fun M' => M'.Stochastic ∧ M'.labelling = M.labelling ∧ M'.initialState = M.initialState ∧
    (∀ w ∈ S.sequences, M'.lik w ≠ 0) ∧ avgLogLik M.lik S ≤ avgLogLik M'.lik S) ?_ _ _ _
    ⟨hM, rfl, rfl, hpos, le_rfl⟩ h
  · exact ⟨this.2.2.2.2, M.frequencies_best hM hinj S hlen ht hpos st.h this.1 this.2.1 this.2.2.1 this.2.2.2.1⟩
  · rintro M1 M2 ll ⟨i1, i2, i3, i4, i5⟩ hs
    obtain ⟨c1, _⟩ := stepMC_ok _ _ _ _ _ hs
    have c2 := MC.bw_step_keeps_stochastic _ _ _ _ _ i1 hs
    obtain ⟨d1, d2, _⟩ := MC.bw_step_monotone processes S M1 M2 ll i1 hne hlen ht hs
    exact ⟨c2, by rw [c1, ← i2]; rfl, by rw [c1, ← i3]; rfl, fun w hw => (d2 w hw).1 (i4 w hw), i5.trans d1⟩

end

end Jajapy
