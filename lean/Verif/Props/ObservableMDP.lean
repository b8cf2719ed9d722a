import Verif.Lemmas.ObservableSteps
import Verif.Props.BWMDP
import Verif.Props.Loop

/-!
Property C81, Markov decision processes: learning a fully observed MDP gives the observed frequencies in one iteration.
-/

set_option linter.unusedSectionVars false

namespace Jajapy

open Finset Spec BW

namespace MDP
variable {L : Type} {n : ℕ} [DecidableEq L]

theorem step_obsTau (M : MDP ℝ L n) : M.step = obsTau M.labelling M.prob := by
  funext s ss o
  unfold step obsTau
  split_ifs <;> simp

/-- A possible trace is the trace of a path. -/
theorem path_of_lik (M : MDP ℝ L n) (hinj : Function.Injective M.labelling) (w : List L) (h : M.lik w ≠ 0) :
    ∃ (ps : List (Fin n × L)) (last : Fin n), w = alternate (ps.map (showStep M.labelling)) (M.labelling last) ∧
      mdpSteps w = ps.map (showStep M.labelling) ∧
      (mdpLast M.labelling w : Fin n → ℝ) = (fun s => if s = last then 1 else 0) ∧
      M.lik w = M.initialState (firstOf ps last) * along M.prob ps last := by
  have ho : w.length % 2 = 1 := by
    by_contra ho
    exact h (by unfold lik; rw [dif_neg ho])
  have hne : w ≠ [] := by rintro rfl; simp at ho
  have e := weightMDP_eq M w hne
  rw [weightMDP_lik M w ho, maskMDP_eq M w hne, M.step_obsTau, pairs_eq_mdpSteps] at e
  obtain ⟨ps0, o, rfl⟩ := exists_alternate w ho
  have hs : mdpSteps (alternate ps0 o) = ps0 := by rw [← pairs_eq_mdpSteps, pairs_alternate]
  rw [hs] at e
  obtain ⟨ps, last, rfl, hl⟩ := path_of_weight _ _ _ _ _ (by rw [← e]; exact h)
  have ho' : o = M.labelling last := by
    unfold mdpLast at hl
    rw [getLast?_alternate] at hl
    by_contra hc
    exact hl (by rw [if_neg]; intro h'; injection h' with h'; exact hc h')
  subst ho'
  have hm : (mdpLast M.labelling (alternate (ps.map (showStep M.labelling)) (M.labelling last)) : Fin n → ℝ) =
      (fun s => if s = last then 1 else 0) := by
    funext s
    unfold mdpLast
    rw [getLast?_alternate]
    by_cases hs' : s = last
    · rw [if_pos (by rw [hs']), if_pos hs']
    · rw [if_neg (fun h' => hs' (by injection h' with h'; exact (hinj h').symm)), if_neg hs']
  refine ⟨ps, last, rfl, hs, hm, ?_⟩
  rw [e, hm, weight_along _ _ hinj]

theorem alternate_zero (ps : List (Fin n × L)) (last : Fin n) (lab : Fin n → L) :
    (alternate (ps.map (showStep lab)) (lab last))[0]? = some (lab (firstOf ps last)) := by
  cases ps <;> rfl

theorem count_moves (lab : Fin n → L) (hinj : Function.Injective lab) (ps : List (Fin n × L)) (last s : Fin n) (x : L) (ss : Fin n) :
    ((movesOf ps last).map (fun m => if m.1.1 = s ∧ m.2 = ss then (if (showStep lab m.1).2 = x then (1:ℝ) else 0) else 0)).sum =
      ((List.range ((alternate (ps.map (showStep lab)) (lab last)).length / 2)).countP
        (fun k => (alternate (ps.map (showStep lab)) (lab last))[2 * k]? = some (lab s) ∧
          (alternate (ps.map (showStep lab)) (lab last))[2 * k + 1]? = some x ∧
          (alternate (ps.map (showStep lab)) (lab last))[2 * k + 2]? = some (lab ss)) : ℕ) := by
  induction ps with
  | nil => simp [movesOf, alternate]
  | cons p ps ih =>
    have hl : (alternate ((p :: ps).map (showStep lab)) (lab last)).length / 2 =
        (alternate (ps.map (showStep lab)) (lab last)).length / 2 + 1 := by
      simp only [List.map_cons, alternate, List.length_cons]; omega
    rw [hl, List.range_succ_eq_map, List.countP_cons, List.countP_map]
    simp only [movesOf, List.map_cons, List.sum_cons]
    rw [ih, Nat.cast_add, add_comm]
    congr 1
    have h0 := alternate_zero ps last lab
    simp only [alternate, showStep] at h0 ⊢
    simp only [mul_zero, List.getElem?_cons_zero, zero_add, List.getElem?_cons_succ, h0, Option.some.injEq, decide_eq_true_eq]
    by_cases h1 : p.1 = s
    · by_cases h2 : firstOf ps last = ss
      · by_cases h3 : p.2 = x <;> simp [h1, h2, h3]
      · have : ¬ lab (firstOf ps last) = lab ss := fun h' => h2 (hinj h')
        simp [h2, this]
    · have : ¬ lab p.1 = lab s := fun h' => h1 (hinj h')
      simp [h1, this]

theorem count_tries (lab : Fin n → L) (hinj : Function.Injective lab) (ps : List (Fin n × L)) (last s : Fin n) (x : L) :
    (ps.map (fun p => if p.1 = s then (if (showStep lab p).2 = x then (1:ℝ) else 0) else 0)).sum =
      ((List.range ((alternate (ps.map (showStep lab)) (lab last)).length / 2)).countP
        (fun k => (alternate (ps.map (showStep lab)) (lab last))[2 * k]? = some (lab s) ∧
          (alternate (ps.map (showStep lab)) (lab last))[2 * k + 1]? = some x) : ℕ) := by
  induction ps with
  | nil => simp [alternate]
  | cons p ps ih =>
    have hl : (alternate ((p :: ps).map (showStep lab)) (lab last)).length / 2 =
        (alternate (ps.map (showStep lab)) (lab last)).length / 2 + 1 := by
      simp only [List.map_cons, alternate, List.length_cons]; omega
    rw [hl, List.range_succ_eq_map, List.countP_cons, List.countP_map]
    simp only [List.map_cons, List.sum_cons]
    rw [ih, Nat.cast_add, add_comm]
    congr 1
    simp only [alternate, showStep]
    simp only [mul_zero, List.getElem?_cons_zero, zero_add, List.getElem?_cons_succ, Option.some.injEq, decide_eq_true_eq]
    by_cases h1 : p.1 = s
    · by_cases h3 : p.2 = x <;> simp [h1, h3]
    · have : ¬ lab p.1 = lab s := fun h' => h1 (hinj h')
      simp [h1, this]

theorem overSet_all (S : TSet L) (P g : List L → ℝ) (hpos : ∀ w ∈ S.sequences, P w ≠ 0) :
    overSet S P g = ((S.sequences.zip S.times).map (fun x => (x.2 : ℝ) * g x.1)).sum := by
  unfold overSet
  rw [List.filter_eq_self.2]
  intro x hx
  simpa using hpos x.1 (List.of_mem_zip hx).1

theorem uses_det (M : MDP ℝ L n) (hinj : Function.Injective M.labelling) (S : TSet L)
    (hpos : ∀ w ∈ S.sequences, M.lik w ≠ 0) (s : Fin n) (x : L) (ss : Fin n) :
    M.uses S s x ss = mdpMoves S (M.labelling s) x (M.labelling ss) := by
  unfold uses mdpMoves
  rw [overSet_all S _ _ hpos, Nat.cast_list_sum, List.map_map]
  congr 1
  apply List.map_congr_left
  intro y hy
  have hp := hpos _ (List.of_mem_zip hy).1
  obtain ⟨ps, last, e1, e2, e3, e4⟩ := M.path_of_lik hinj _ hp
  simp only [Function.comp, Nat.cast_mul]
  congr 1
  rw [e2, e3, M.step_obsTau, expUses_along _ _ hinj _ _ _ _ _ _ (by rw [← e4]; exact hp), count_moves _ hinj, ← e1]

theorem visits_det (M : MDP ℝ L n) (hinj : Function.Injective M.labelling) (S : TSet L)
    (hpos : ∀ w ∈ S.sequences, M.lik w ≠ 0) (s : Fin n) (x : L) :
    M.visits S s x = mdpTries S (M.labelling s) x := by
  unfold visits mdpTries
  rw [overSet_all S _ _ hpos, Nat.cast_list_sum, List.map_map]
  congr 1
  apply List.map_congr_left
  intro y hy
  have hp := hpos _ (List.of_mem_zip hy).1
  obtain ⟨ps, last, e1, e2, e3, e4⟩ := M.path_of_lik hinj _ hp
  simp only [Function.comp, Nat.cast_mul]
  congr 1
  rw [e2, e3, M.step_obsTau, expVisits_along _ _ hinj _ _ _ _ _ (by rw [← e4]; exact hp), count_tries _ hinj ps last, ← e1]

/-- C81, one iteration: the new probability of a transition with an action is the proportion of the uses of the action
in the state that made this transition; a row without data is kept. -/
theorem bw_step_observed (processes : ℕ) (S : TSet L) (M M' : MDP ℝ L n) (ll : ℝ) (hn : M.actions.Nodup)
    (hinj : Function.Injective M.labelling) (hpos : ∀ w ∈ S.sequences, M.lik w ≠ 0)
    (h : stepMDP processes S M = .ok (M', ll)) (s : Fin n) (x : L) (s' : Fin n) :
    M'.prob s x s' = if mdpTries S (M.labelling s) x = 0 then M.prob s x s'
      else mdpMoves S (M.labelling s) x (M.labelling s') / mdpTries S (M.labelling s) x := by
  have ho : ∀ w ∈ S.sequences, w.length % 2 = 1 := by
    intro w hw
    by_contra ho
    exact hpos w hw (by unfold lik; rw [dif_neg ho])
  rw [(M.bw_update_spec _ _ _ _ hn ho h).2.2.2.1, M.visits_det hinj S hpos, M.uses_det hinj S hpos]
  by_cases h0 : mdpTries S (M.labelling s) x = 0
  · rw [if_pos (by rw [h0, Nat.cast_zero]), if_pos h0]
  · rw [if_neg (Nat.cast_ne_zero.2 h0), if_neg h0]

theorem frequencies_prob (M : MDP ℝ L n) (hn : M.actions.Nodup) (hinj : Function.Injective M.labelling) (S : TSet L)
    (hpos : ∀ w ∈ S.sequences, M.lik w ≠ 0) (s : Fin n) (x : L) (s' : Fin n) :
    (M.frequencies S).prob s x s' = if mdpTries S (M.labelling s) x = 0 then M.prob s x s'
      else mdpMoves S (M.labelling s) x (M.labelling s') / mdpTries S (M.labelling s) x := by
  by_cases hx : x ∈ M.actions
  · obtain ⟨i, hi, rfl⟩ := List.mem_iff_getElem.1 hx
    rw [show (M.frequencies S).prob s M.actions[i] s' = (M.frequencies S).matrix s ⟨i, hi⟩ s' from
      (M.frequencies S).prob_getElem hn s ⟨i, hi⟩ s', show M.prob s M.actions[i] s' = M.matrix s ⟨i, hi⟩ s' from
      M.prob_getElem hn s ⟨i, hi⟩ s']
    rfl
  · have h0 : mdpTries S (M.labelling s) x = 0 := by
      have := M.visits_not_mem S s x hx
      rw [M.visits_det hinj S hpos] at this
      exact_mod_cast this
    rw [if_pos h0, M.prob_not_mem _ _ _ hx]
    exact (M.frequencies S).prob_not_mem _ _ _ hx

/-- C81: `fit` with at least one iteration returns exactly the observed frequencies, whatever the other options. -/
theorem fit_observed (processes : ℕ) (S : TSet L) (epsilon : ℝ) (maxIt : ℕ) (hmax : 1 ≤ maxIt) (M : MDP ℝ L n)
    (hn : M.actions.Nodup) (hM : M.Stochastic) (hinj : Function.Injective M.labelling)
    (hlen : S.times.length = S.sequences.length) (ht : ∀ t ∈ S.times, 1 ≤ t)
    (hpos : ∀ w ∈ S.sequences, M.lik w ≠ 0)
    (st : LoopState (MDP ℝ L n)) (h : fit (stepMDP processes S) epsilon maxIt M = .ok st) :
    st.h.actions = M.actions ∧ st.h.labelling = M.labelling ∧ st.h.initialState = M.initialState ∧
    ∀ s x s', st.h.prob s x s' = (M.frequencies S).prob s x s' := by
  have ho : ∀ w ∈ S.sequences, w.length % 2 = 1 := by
    intro w hw
    by_contra ho
    exact hpos w hw (by unfold lik; rw [dif_neg ho])
  obtain ⟨k, hs, ls, a1, a2, a3, a4, _, _, a7, _⟩ := fit_iterations _ _ _ _ _ h
  have key : ∀ i ≤ k, (hs i).Stochastic ∧ (hs i).actions = M.actions ∧ (hs i).labelling = M.labelling ∧
      (hs i).initialState = M.initialState ∧ (∀ w ∈ S.sequences, (hs i).lik w ≠ 0) ∧
      ∀ s x s', (hs i).prob s x s' = if i = 0 then M.prob s x s' else (M.frequencies S).prob s x s' := by
    intro i
    induction i with
    | zero => intro _; rw [a1]; exact ⟨hM, rfl, rfl, rfl, hpos, fun _ _ _ => by rw [if_pos rfl]⟩
    | succ i ih =>
      intro hi
      obtain ⟨b1, b2, b3, b4, b5, b6⟩ := ih (by omega)
      have hst := a2 i (by omega)
      obtain ⟨c1, c2, c3⟩ := bw_step_keeps _ _ _ _ _ hst
      have hn' : (hs i).actions.Nodup := by rw [b2]; exact hn
      refine ⟨((hs i).bw_step_stochastic processes S _ _ hn' b1 ho hst).1, c1.trans b2, c2.trans b3, c3.trans b4, ?_, ?_⟩
      · intro w hw
        exact (((hs i).bw_step_monotone processes S _ _ hn' b1 ho hlen ht hst).2.1 w hw).1 (b5 w hw)
      · intro s x s'
        rw [if_neg (by omega), (hs i).bw_step_observed processes S _ _ hn' (by rw [b3]; exact hinj) b5 hst,
          M.frequencies_prob hn hinj S hpos, b3]
        by_cases h0 : mdpTries S (M.labelling s) x = 0
        · rw [if_pos h0, if_pos h0, b6]
          by_cases hi0 : i = 0
          · rw [if_pos hi0]
          · rw [if_neg hi0, M.frequencies_prob hn hinj S hpos, if_pos h0]
        · rw [if_neg h0, if_neg h0]
  rw [a3]
  obtain ⟨_, b2, b3, b4, _, b6⟩ := key k le_rfl
  refine ⟨b2, b3, b4, fun s x s' => ?_⟩
  rw [b6, if_neg (by have := a7 hmax; omega)]

theorem lik_congr (M N : MDP ℝ L n) (h1 : N.labelling = M.labelling) (h2 : N.initialState = M.initialState)
    (h3 : ∀ s x s', N.prob s x s' = M.prob s x s') : N.lik = M.lik := by
  have : N.prob = M.prob := by funext s x s'; exact h3 s x s'
  funext w
  unfold lik
  rw [h1, h2, this]

/-- The log-likelihood of a trace, move by move. -/
theorem log_lik_det (M N : MDP ℝ L n) (hinj : Function.Injective N.labelling) (hn : M.actions.Nodup)
    (hlab : N.labelling = M.labelling) (w : List L) (h : N.lik w ≠ 0) (hM : M.lik w ≠ 0) :
    Real.log (N.lik w) = startLog N.labelling N.initialState w +
      ∑ s, ∑ i : Fin M.actions.length, ∑ ss, ((List.range (w.length / 2)).countP
        (fun k => w[2 * k]? = some (N.labelling s) ∧ w[2 * k + 1]? = some M.actions[i] ∧
          w[2 * k + 2]? = some (N.labelling ss)) : ℕ) * Real.log (N.prob s M.actions[i] ss) := by
  obtain ⟨ps, last, e1, e2, e3, e4⟩ := N.path_of_lik hinj w h
  have hact : ∀ p ∈ ps, p.2 ∈ M.actions := by
    obtain ⟨ps', last', f1, f2, f3, f4⟩ := M.path_of_lik (by rw [← hlab]; exact hinj) w hM
    rw [f4] at hM
    have hal := (along_ne_zero _ _ _).1 (right_ne_zero_of_mul hM)
    intro p hp
    have : (showStep N.labelling p) ∈ mdpSteps w := by rw [e2]; exact List.mem_map.2 ⟨p, hp, rfl⟩
    rw [f2] at this
    obtain ⟨q, hq, hqp⟩ := List.mem_map.1 this
    have hqp2 : q.2 = p.2 := congrArg (fun z : L × L => z.2) hqp
    have hmem : ∀ (ps' : List (Fin n × L)), q ∈ ps' → ∃ m ∈ movesOf ps' last', m.1 = q := by
      intro ps'
      induction ps' with
      | nil => simp
      | cons a l ih =>
        intro h
        rcases List.mem_cons.1 h with rfl | h
        · exact ⟨_, List.mem_cons_self .., rfl⟩
        · obtain ⟨m, hm, e⟩ := ih h
          exact ⟨m, List.mem_cons_of_mem _ hm, e⟩
    obtain ⟨m, hm, e⟩ := hmem ps' hq
    have hz := hal m hm
    by_contra hnot
    apply hz
    unfold prob
    apply Finset.sum_eq_zero
    intro i _
    rw [if_neg]
    intro hi
    exact hnot (by rw [← hqp2, ← e, ← hi]; exact List.getElem_mem _)
  have hne := h
  rw [e4] at hne ⊢
  rw [Real.log_mul (left_ne_zero_of_mul hne) (right_ne_zero_of_mul hne), log_along _ _ _ (right_ne_zero_of_mul hne)]
  congr 1
  · unfold startLog
    have hh : w.head? = some (N.labelling (firstOf ps last)) := by
      rw [e1, List.head?_eq_getElem?, alternate_zero]
    rw [hh, Finset.sum_eq_single (firstOf ps last)]
    · rw [if_pos rfl]
    · intro b _ hb
      rw [if_neg]
      intro h'
      injection h' with h'
      exact hb (hinj h').symm
    · simp
  · have hc : ∀ s (i : Fin M.actions.length) ss, (((List.range (w.length / 2)).countP
        (fun k => w[2 * k]? = some (N.labelling s) ∧ w[2 * k + 1]? = some M.actions[i] ∧
          w[2 * k + 2]? = some (N.labelling ss)) : ℕ) : ℝ) =
        ((movesOf ps last).map (fun m => if m.1.1 = s ∧ m.2 = ss then
          (if (showStep N.labelling m.1).2 = M.actions[i] then (1:ℝ) else 0) else 0)).sum := by
      intro s i ss
      rw [count_moves _ hinj, ← e1]
    simp only [hc]
    have hmv : ∀ m ∈ movesOf ps last, m.1.2 ∈ M.actions := by
      clear e1 e2 e3 e4 hne hc
      induction ps with
      | nil => simp [movesOf]
      | cons p ps ih =>
        intro m hm
        simp only [movesOf] at hm
        rcases List.mem_cons.1 hm with rfl | hm
        · exact hact p (List.mem_cons_self ..)
        · exact ih (fun q hq => hact q (List.mem_cons_of_mem _ hq)) m hm
    revert hmv
    generalize movesOf ps last = l
    intro hmv
    induction l with
    | nil => simp
    | cons m l ih =>
      simp only [List.map_cons, List.sum_cons, add_mul, Finset.sum_add_distrib]
      rw [ih (fun q hq => hmv q (List.mem_cons_of_mem _ hq))]
      congr 1
      obtain ⟨i, hi, hx⟩ := List.mem_iff_getElem.1 (hmv m (List.mem_cons_self ..))
      rw [Finset.sum_eq_single m.1.1, Finset.sum_eq_single ⟨i, hi⟩, Finset.sum_eq_single m.2]
      · simp [showStep, hx]
      · intro b _ hb
        rw [if_neg (fun h' => hb h'.2.symm), zero_mul]
      · simp
      · intro j _ hj
        apply Finset.sum_eq_zero
        intro ss _
        have : ¬ (showStep N.labelling m.1).2 = M.actions[j] := by
          intro h'
          apply hj
          rw [show (showStep N.labelling m.1).2 = m.1.2 from rfl, ← hx] at h'
          exact Fin.ext ((List.Nodup.getElem_inj_iff hn).1 h').symm
        split_ifs <;> simp
      · simp
      · intro b _ hb
        apply Finset.sum_eq_zero
        intro j _
        apply Finset.sum_eq_zero
        intro ss _
        rw [if_neg (fun h' => hb h'.1.symm), zero_mul]
      · simp

theorem avg_det (M N : MDP ℝ L n) (hinj : Function.Injective N.labelling) (hn : M.actions.Nodup)
    (hlab : N.labelling = M.labelling) (S : TSet L) (hpos : ∀ w ∈ S.sequences, N.lik w ≠ 0)
    (hM : ∀ w ∈ S.sequences, M.lik w ≠ 0) (hnn : ∀ w, 0 ≤ N.lik w) :
    avgLogLik N.lik S = (((S.sequences.zip S.times).map (fun x => x.2 * startLog N.labelling N.initialState x.1)).sum +
      ∑ s, ∑ i : Fin M.actions.length, ∑ ss, (mdpMoves S (N.labelling s) M.actions[i] (N.labelling ss) : ℕ) *
        Real.log (N.prob s M.actions[i] ss)) / (S.times.sum : ℕ) := by
  unfold avgLogLik
  congr 1
  rw [List.filter_eq_self.2 (fun x hx => by
    simpa using lt_of_le_of_ne (hnn _) (hpos x.1 (List.of_mem_zip hx).1).symm)]
  have e : ∀ s (i : Fin M.actions.length) ss, ((mdpMoves S (N.labelling s) M.actions[i] (N.labelling ss) : ℕ) : ℝ) *
        Real.log (N.prob s M.actions[i] ss) =
      ((S.sequences.zip S.times).map (fun x => (x.2 : ℝ) *
        (((List.range (x.1.length / 2)).countP
        (fun k => x.1[2 * k]? = some (N.labelling s) ∧ x.1[2 * k + 1]? = some M.actions[i] ∧
          x.1[2 * k + 2]? = some (N.labelling ss)) : ℕ) * Real.log (N.prob s M.actions[i] ss)))).sum := by
    intro s i ss
    unfold mdpMoves
    rw [Nat.cast_list_sum, List.map_map, ← List.sum_map_mul_right]
    congr 1
    apply List.map_congr_left
    intro x _
    simp only [Function.comp]
    push_cast
    ring
  simp only [e, sum_map_comm]
  rw [← List.sum_map_add]
  congr 1
  apply List.map_congr_left
  intro x hx
  rw [M.log_lik_det N hinj hn hlab _ (hpos x.1 (List.of_mem_zip hx).1) (hM x.1 (List.of_mem_zip hx).1), mul_add]
  congr 1
  simp only [Finset.mul_sum]

theorem prob_nonneg' (N : MDP ℝ L n) (hN : N.Stochastic) (s : Fin n) (x : L) (s' : Fin n) : 0 ≤ N.prob s x s' :=
  Finset.sum_nonneg (fun i _ => by split_ifs <;> first | exact hN.2.2.1 _ _ _ | exact le_rfl)

theorem prob_row_le (N : MDP ℝ L n) (hn : N.actions.Nodup) (hN : N.Stochastic) (s : Fin n) (x : L) :
    ∑ s', N.prob s x s' ≤ 1 := by
  by_cases hx : x ∈ N.actions
  · obtain ⟨i, hi, rfl⟩ := List.mem_iff_getElem.1 hx
    have : ∀ s', N.prob s N.actions[i] s' = N.matrix s ⟨i, hi⟩ s' := fun s' => N.prob_getElem hn s ⟨i, hi⟩ s'
    simp only [this]
    exact hN.row_le s ⟨i, hi⟩
  · simp only [N.prob_not_mem _ _ _ hx, Finset.sum_const_zero]
    exact zero_le_one

theorem sum_mdpMoves (M : MDP ℝ L n) (hinj : Function.Injective M.labelling) (S : TSet L)
    (hpos : ∀ w ∈ S.sequences, M.lik w ≠ 0) (s : Fin n) (i : Fin M.actions.length) :
    ∑ ss, mdpMoves S (M.labelling s) M.actions[i] (M.labelling ss) = mdpTries S (M.labelling s) M.actions[i] := by
  have ho : ∀ w ∈ S.sequences, w.length % 2 = 1 := by
    intro w hw
    by_contra ho
    exact hpos w hw (by unfold lik; rw [dif_neg ho])
  have h := sum_numMDP M S s i
  simp only [← M.uses_eq S ho, ← M.visits_eq S ho, M.uses_det hinj S hpos, M.visits_det hinj S hpos] at h
  exact_mod_cast h

/-- C81: of all MDPs with these labels and this initial distribution in which the training traces are possible, the MDP of
the observed frequencies has the largest likelihood. -/
theorem frequencies_best (M : MDP ℝ L n) (hn : M.actions.Nodup) (hM : M.Stochastic) (hinj : Function.Injective M.labelling)
    (S : TSet L) (hlen : S.times.length = S.sequences.length) (ht : ∀ t ∈ S.times, 1 ≤ t)
    (hpos : ∀ w ∈ S.sequences, M.lik w ≠ 0) (N : MDP ℝ L n) (hNn : N.actions.Nodup) (hN : N.Stochastic)
    (hlab : N.labelling = M.labelling) (hinit : N.initialState = M.initialState)
    (hNpos : ∀ w ∈ S.sequences, N.lik w ≠ 0) :
    avgLogLik N.lik S ≤ avgLogLik (M.frequencies S).lik S := by
  have ho : ∀ w ∈ S.sequences, w.length % 2 = 1 := by
    intro w hw
    by_contra ho
    exact hpos w hw (by unfold lik; rw [dif_neg ho])
  by_cases hS : S.sequences = []
  · unfold avgLogLik; rw [hS]; simp
  · obtain ⟨w0, hw0⟩ := List.exists_mem_of_ne_nil _ hS
    obtain ⟨⟨M1, ll⟩, h1⟩ := (M.bw_step_outcome 2 S hn ho hlen).1 (Or.inl ⟨by omega, w0, hw0, hpos w0 hw0⟩)
    obtain ⟨k1, k2, k3⟩ := bw_step_keeps _ _ _ _ _ h1
    have hF : (M.frequencies S).lik = M1.lik := lik_congr _ _ k2.symm k3.symm (fun s x s' => by
      rw [M.frequencies_prob hn hinj S hpos, M.bw_step_observed 2 S M1 ll hn hinj hpos h1])
    have hM1 := (M.bw_step_stochastic 2 S M1 ll hn hM ho h1).1
    have hFp : ∀ w ∈ S.sequences, (M.frequencies S).lik w ≠ 0 := fun w hw => by
      rw [hF]
      exact ((M.bw_step_monotone 2 S M1 ll hn hM ho hlen ht h1).2.1 w hw).1 (hpos w hw)
    rw [M.avg_det N (by rw [hlab]; exact hinj) hn hlab S hNpos hpos (N.lik_nonneg hN.1 hN.2.2.1),
      M.avg_det (M.frequencies S) hinj hn rfl S hFp hpos (fun w => by rw [hF]; exact M1.lik_nonneg hM1.1 hM1.2.2.1 w)]
    refine div_le_div_of_nonneg_right ?_ (Nat.cast_nonneg _)
    rw [hlab, hinit]
    refine add_le_add le_rfl (Finset.sum_le_sum (fun s _ => Finset.sum_le_sum (fun i _ => ?_)))
    show ∑ ss, ((mdpMoves S (M.labelling s) M.actions[i] (M.labelling ss) : ℕ) : ℝ) * Real.log (N.prob s M.actions[i] ss) ≤
      ∑ ss, ((mdpMoves S (M.labelling s) M.actions[i] (M.labelling ss) : ℕ) : ℝ) *
        Real.log ((M.frequencies S).prob s M.actions[i] ss)
    have hsum := M.sum_mdpMoves hinj S hpos s i
    by_cases h0 : mdpTries S (M.labelling s) M.actions[i] = 0
    · rw [h0] at hsum
      have : ∀ ss, mdpMoves S (M.labelling s) M.actions[i] (M.labelling ss) = 0 := fun ss =>
        (Finset.sum_eq_zero_iff.1 hsum) ss (Finset.mem_univ _)
      refine le_of_eq (Finset.sum_congr rfl (fun ss _ => ?_))
      rw [this, Nat.cast_zero, zero_mul, zero_mul]
    · have := moves_gibbs (fun ss => mdpMoves S (M.labelling s) M.actions[i] (M.labelling ss)) (N.prob s M.actions[i])
        (N.prob_nonneg' hN s _) (N.prob_row_le hNn hN s _) ?_ _ hsum h0
      · refine this.trans (le_of_eq (Finset.sum_congr rfl (fun ss _ => ?_)))
        rw [M.frequencies_prob hn hinj S hpos, if_neg h0]
      · intro ss hm hz
        apply hm
        have hu := N.uses_zero hNn S ho s M.actions[i] ss hz
        by_cases hx : M.actions[i] ∈ N.actions
        · have := hu hx
          rw [N.uses_det (by rw [hlab]; exact hinj) S hNpos, hlab] at this
          exact_mod_cast this
        · have := N.visits_not_mem S s M.actions[i] hx
          rw [N.visits_det (by rw [hlab]; exact hinj) S hNpos, hlab] at this
          exact absurd (by exact_mod_cast this) h0

/-- C81: what `fit` returns has the largest likelihood. -/
theorem fit_observed_best (processes : ℕ) (S : TSet L) (epsilon : ℝ) (maxIt : ℕ) (hmax : 1 ≤ maxIt) (M : MDP ℝ L n)
    (hn : M.actions.Nodup) (hM : M.Stochastic) (hinj : Function.Injective M.labelling)
    (hlen : S.times.length = S.sequences.length) (ht : ∀ t ∈ S.times, 1 ≤ t)
    (hpos : ∀ w ∈ S.sequences, M.lik w ≠ 0)
    (st : LoopState (MDP ℝ L n)) (h : fit (stepMDP processes S) epsilon maxIt M = .ok st)
    (N : MDP ℝ L n) (hNn : N.actions.Nodup) (hN : N.Stochastic)
    (hlab : N.labelling = M.labelling) (hinit : N.initialState = M.initialState)
    (hNpos : ∀ w ∈ S.sequences, N.lik w ≠ 0) : avgLogLik N.lik S ≤ avgLogLik st.h.lik S := by
  obtain ⟨_, a2, a3, a4⟩ := fit_observed processes S epsilon maxIt hmax M hn hM hinj hlen ht hpos st h
  rw [lik_congr (M.frequencies S) st.h a2 a3 a4]
  exact M.frequencies_best hn hM hinj S hlen ht hpos N hNn hN hlab hinit hNpos

end MDP
end Jajapy
