import Verif.Lemmas.ObservableSteps
import Verif.Props.BWCTMC
import Verif.Props.Loop

/-!
Property C81, timed continuous-time Markov chains: learning a fully observed CTMC gives the observed rates, number of
jumps divided by time, in one iteration.
-/

set_option linter.unusedSectionVars false

namespace Jajapy

open Finset Spec BW

namespace CTMC
variable {L : Type} {n : ℕ} [DecidableEq L]

/-- The density of a step. -/
noncomputable def dens (M : CTMC ℝ L n) (s : Fin n) (t : ℝ) (ss : Fin n) : ℝ :=
  M.matrix s ss * Real.exp (-(∑ j, M.matrix s j) * t)

theorem rateStep_obsTau (M : CTMC ℝ L n) : M.rateStep = obsTau M.labelling M.dens := rfl

/-- A possible trace is the trace of a path. -/
theorem path_of_density (M : CTMC ℝ L n) (hinj : Function.Injective M.labelling) (w : List (Sym L)) (hw : IsTimed w)
    (h : M.density w ≠ 0) :
    ∃ (ps : List (Fin n × ℝ)) (last : Fin n), timedSteps w = ps.map (showStep M.labelling) ∧
      observations w = (ps.map Prod.fst ++ [last]).map M.labelling ∧
      M.lastMask w = (fun s => if s = last then 1 else 0) ∧
      M.density w = M.initialState (firstOf ps last) * along M.dens ps last := by
  have e : M.density w = totalWeight M.initialState (obsTau M.labelling M.dens) (M.lastMask w) (timedSteps w) := rfl
  obtain ⟨ps0, o, rfl⟩ := exists_timed w hw
  rw [timedSteps_timed] at e ⊢
  obtain ⟨ps, last, rfl, hl⟩ := path_of_weight _ _ _ _ _ (by rw [← e]; exact h)
  have ho' : o = M.labelling last := by
    unfold lastMask at hl
    rw [observations_timed, List.getLast?_append_of_ne_nil _ (by simp)] at hl
    by_contra hc
    exact hl (by rw [if_neg]; intro h'; injection h' with h'; exact hc h')
  subst ho'
  have hm : M.lastMask (timed (ps.map (showStep M.labelling)) (M.labelling last)) = (fun s => if s = last then 1 else 0) := by
    funext s
    unfold lastMask
    rw [observations_timed, List.getLast?_append_of_ne_nil _ (by simp)]
    by_cases hs' : s = last
    · rw [if_pos (by rw [hs']; rfl), if_pos hs']
    · rw [if_neg (fun h' => hs' (by injection h' with h'; exact (hinj h').symm)), if_neg hs']
  refine ⟨ps, last, rfl, ?_, hm, ?_⟩
  · rw [observations_timed, List.map_append, List.map_map, List.map_map]
    rfl
  · rw [e, hm, weight_along _ _ hinj]

theorem states_zip (ps : List (Fin n × ℝ)) (last : Fin n) :
    (ps.map Prod.fst ++ [last]).zip (ps.map Prod.fst ++ [last]).tail = (movesOf ps last).map (fun m => (m.1.1, m.2)) := by
  induction ps with
  | nil => rfl
  | cons p ps ih =>
    cases ps with
    | nil => rfl
    | cons q ps =>
      simp only [List.map_cons, List.cons_append, List.tail_cons, List.zip_cons_cons, movesOf] at ih ⊢
      rw [ih]
      rfl

theorem count_jumps (lab : Fin n → L) (hinj : Function.Injective lab) (ps : List (Fin n × ℝ)) (last s ss : Fin n) :
    ((((ps.map Prod.fst ++ [last]).map lab).zip ((ps.map Prod.fst ++ [last]).map lab).tail).count (lab s, lab ss) : ℝ) =
      ((movesOf ps last).map (fun m => if m.1.1 = s ∧ m.2 = ss then (1:ℝ) else 0)).sum := by
  rw [count_zip_lab _ hinj, states_zip]
  generalize movesOf ps last = l
  induction l with
  | nil => simp
  | cons m l ih =>
    simp only [List.map_cons, List.count_cons, List.sum_cons, Nat.cast_add]
    rw [ih, add_comm]
    congr 1
    by_cases h : m.1.1 = s ∧ m.2 = ss
    · simp [h]
    · rw [if_neg h, if_neg]
      · simp
      · simpa using h

theorem overSet_all' (S : TSet (Sym L)) (P g : List (Sym L) → ℝ) (hpos : ∀ w ∈ S.sequences, P w ≠ 0) :
    overSet S P g = ((S.sequences.zip S.times).map (fun x => (x.2 : ℝ) * g x.1)).sum := by
  unfold overSet
  rw [List.filter_eq_self.2]
  intro x hx
  simpa using hpos x.1 (List.of_mem_zip hx).1

theorem jumps_det (M : CTMC ℝ L n) (hinj : Function.Injective M.labelling) (S : TSet (Sym L)) (hS : TimedSet S)
    (hpos : ∀ w ∈ S.sequences, M.density w ≠ 0) (s ss : Fin n) :
    M.jumps S s ss = jumpCount S (M.labelling s) (M.labelling ss) := by
  unfold jumps jumpCount
  rw [overSet_all' S _ _ hpos, Nat.cast_list_sum, List.map_map]
  congr 1
  apply List.map_congr_left
  intro y hy
  have hy1 := (List.of_mem_zip hy).1
  have hp := hpos _ hy1
  obtain ⟨ps, last, e1, e2, e3, e4⟩ := M.path_of_density hinj _ (hS _ hy1).1 hp
  simp only [Function.comp, Nat.cast_mul]
  congr 1
  rw [e1, e2, e3, M.rateStep_obsTau, expUses_along _ _ hinj _ _ _ _ _ _ (by rw [← e4]; exact hp), count_jumps _ hinj]

theorem timeIn_det (M : CTMC ℝ L n) (hinj : Function.Injective M.labelling) (S : TSet (Sym L)) (hS : TimedSet S)
    (hpos : ∀ w ∈ S.sequences, M.density w ≠ 0) (s : Fin n) : M.timeIn S s = totalTime S (M.labelling s) := by
  unfold timeIn totalTime
  rw [overSet_all' S _ _ hpos]
  congr 1
  apply List.map_congr_left
  intro y hy
  have hy1 := (List.of_mem_zip hy).1
  have hp := hpos _ hy1
  obtain ⟨ps, last, e1, e2, e3, e4⟩ := M.path_of_density hinj _ (hS _ hy1).1 hp
  congr 1
  rw [e1, e3, M.rateStep_obsTau, expVisits_along _ _ hinj _ _ _ _ _ (by rw [← e4]; exact hp), List.map_map]
  congr 1
  apply List.map_congr_left
  intro p _
  show (if p.1 = s then p.2 else 0) = if M.labelling p.1 = M.labelling s then p.2 else 0
  by_cases h : p.1 = s
  · rw [if_pos h, if_pos (congrArg _ h)]
  · rw [if_neg h, if_neg (fun h' => h (hinj h'))]

/-- C81, one iteration: the new rate of a transition that is not fixed is the number of jumps divided by the time spent
in its source; without time it is kept. -/
theorem bw_step_observed (processes : ℕ) (fixed : Fin n → Fin n → Bool) (S : TSet (Sym L)) (M M' : CTMC ℝ L n) (ll : ℝ)
    (hinj : Function.Injective M.labelling) (hS : TimedSet S) (hpos : ∀ w ∈ S.sequences, M.density w ≠ 0)
    (h : stepTimed processes fixed S M = .ok (M', ll)) (s s' : Fin n) (hf : fixed s s' = false) :
    M'.matrix s s' = (M.frequencies S).matrix s s' := by
  rw [(M.bw_update_spec _ _ _ _ _ hS h).2.2.1 s s' hf, M.timeIn_det hinj S hS hpos, M.jumps_det hinj S hS hpos]
  rfl

/-- C81: `fit` with at least one iteration returns exactly the observed rates for the transitions that are not fixed,
whatever the other options. -/
theorem fit_observed (processes : ℕ) (fixed : Fin n → Fin n → Bool) (S : TSet (Sym L)) (epsilon : ℝ) (maxIt : ℕ)
    (hmax : 1 ≤ maxIt) (M : CTMC ℝ L n) (hM : M.Valid) (hinj : Function.Injective M.labelling) (hS : TimedSet S)
    (hw : WaitsNonneg S) (hlen : S.times.length = S.sequences.length) (ht : ∀ t ∈ S.times, 1 ≤ t)
    (hpos : ∀ w ∈ S.sequences, M.density w ≠ 0)
    (st : LoopState (CTMC ℝ L n)) (h : fit (stepTimed processes fixed S) epsilon maxIt M = .ok st) :
    st.h.labelling = M.labelling ∧ st.h.initialState = M.initialState ∧
    ∀ s s', fixed s s' = false → st.h.matrix s s' = (M.frequencies S).matrix s s' := by
  obtain ⟨k, hs, ls, a1, a2, a3, a4, _, _, a7, _⟩ := fit_iterations _ _ _ _ _ h
  have key : ∀ i ≤ k, (hs i).Valid ∧ (hs i).labelling = M.labelling ∧
      (hs i).initialState = M.initialState ∧ (∀ w ∈ S.sequences, (hs i).density w ≠ 0) ∧
      ∀ s s', fixed s s' = false → (hs i).matrix s s' = if i = 0 then M.matrix s s' else (M.frequencies S).matrix s s' := by
    intro i
    induction i with
    | zero => intro _; rw [a1]; exact ⟨hM, rfl, rfl, hpos, fun _ _ _ => by rw [if_pos rfl]⟩
    | succ i ih =>
      intro hi
      obtain ⟨b1, b3, b4, b5, b6⟩ := ih (by omega)
      have hst := a2 i (by omega)
      obtain ⟨c2, c3, _⟩ := (hs i).bw_update_spec _ _ _ _ _ hS hst
      refine ⟨(hs i).bw_step_valid processes fixed S _ _ b1 hS hw hst, c2.trans b3, c3.trans b4, ?_, ?_⟩
      · intro w hw'
        exact (((hs i).bw_step_monotone processes fixed S _ _ b1 hS hw hlen ht hst).2.1 w hw').1 (b5 w hw')
      · intro s s' hf
        rw [if_neg (by omega), (hs i).bw_step_observed processes fixed S _ _ (by rw [b3]; exact hinj) hS b5 hst s s' hf]
        simp only [frequencies]
        rw [b3, b6 s s' hf]
        by_cases h0 : totalTime S (M.labelling s) = 0
        · rw [if_pos h0, if_pos h0]
          by_cases hi0 : i = 0
          · rw [if_pos hi0]
          · rw [if_neg hi0]
            simp only [frequencies]
            rw [if_pos h0]
        · rw [if_neg h0, if_neg h0]
  rw [a3]
  obtain ⟨_, b3, b4, _, b6⟩ := key k le_rfl
  refine ⟨b3, b4, fun s s' hf => ?_⟩
  rw [b6 s s' hf, if_neg (by have := a7 hmax; omega)]

/-- The log-density of a trace, move by move. -/
theorem log_density_det (M : CTMC ℝ L n) (hinj : Function.Injective M.labelling) (w : List (Sym L)) (hw : IsTimed w)
    (h : M.density w ≠ 0) :
    Real.log (M.density w) = startLog M.labelling M.initialState (observations w) +
      ∑ s, ∑ ss, ((((observations w).zip (observations w).tail).count (M.labelling s, M.labelling ss) : ℕ) * Real.log (M.matrix s ss)
        - ((timedSteps w).map (fun q => if q.1 = M.labelling s then q.2 else 0)).sum * M.matrix s ss) := by
  obtain ⟨ps, last, e1, e2, e3, e4⟩ := M.path_of_density hinj w hw h
  have hne := h
  rw [e4] at hne ⊢
  rw [Real.log_mul (left_ne_zero_of_mul hne) (right_ne_zero_of_mul hne), log_along _ _ _ (right_ne_zero_of_mul hne)]
  congr 1
  · unfold startLog
    have hh : (observations w).head? = some (M.labelling (firstOf ps last)) := by
      rw [e2]; cases ps <;> rfl
    rw [hh, Finset.sum_eq_single (firstOf ps last)]
    · rw [if_pos rfl]
    · intro b _ hb
      rw [if_neg]
      intro h'
      injection h' with h'
      exact hb (hinj h').symm
    · simp
  · rw [e1, e2]
    simp only [count_jumps _ hinj]
    have hal := (along_ne_zero _ _ _).1 (right_ne_zero_of_mul hne)
    clear e1 e2 e3 e4 hne
    induction ps with
    | nil => simp [movesOf]
    | cons p ps ih =>
      have ih := ih (fun m hm => hal m (List.mem_cons_of_mem _ hm))
      have h0 := hal (p, firstOf ps last) (List.mem_cons_self ..)
      simp only [movesOf, List.map_cons, List.sum_cons]
      rw [ih]
      simp only [add_mul, add_sub_add_comm, Finset.sum_add_distrib]
      congr 1
      unfold dens at h0 ⊢
      simp only at h0 ⊢
      rw [Real.log_mul (left_ne_zero_of_mul h0) (right_ne_zero_of_mul h0), Real.log_exp]
      have hsh : ∀ x, (if (showStep M.labelling p).1 = M.labelling x then (showStep M.labelling p).2 else 0) =
          if p.1 = x then p.2 else 0 := by
        intro x
        show (if M.labelling p.1 = M.labelling x then p.2 else 0) = _
        by_cases h : p.1 = x
        · rw [if_pos h, if_pos (congrArg _ h)]
        · rw [if_neg h, if_neg (fun h' => h (hinj h'))]
      simp only [hsh]
      symm
      rw [Finset.sum_eq_single p.1]
      · rw [Finset.sum_sub_distrib, Finset.sum_eq_single (firstOf ps last)]
        · rw [if_pos ⟨rfl, rfl⟩, if_pos rfl, ← Finset.mul_sum]
          ring
        · intro b _ hb
          rw [if_neg (fun h' => hb h'.2.symm), zero_mul]
        · simp
      · intro b _ hb
        apply Finset.sum_eq_zero
        intro ss _
        rw [if_neg (fun h' => hb h'.1.symm), if_neg (fun h' => hb h'.symm)]
        ring
      · simp

theorem sum_map_sub' {X : Type} (l : List X) (f g : X → ℝ) :
    (l.map (fun x => f x - g x)).sum = (l.map f).sum - (l.map g).sum := by
  induction l with
  | nil => simp
  | cons x l ih => simp only [List.map_cons, List.sum_cons, ih]; ring

theorem avg_det (M : CTMC ℝ L n) (hinj : Function.Injective M.labelling) (S : TSet (Sym L)) (hS : TimedSet S)
    (hpos : ∀ w ∈ S.sequences, M.density w ≠ 0) (hnn : ∀ w, 0 ≤ M.density w) :
    avgLogLik M.density S = (((S.sequences.zip S.times).map (fun x => x.2 * startLog M.labelling M.initialState (observations x.1))).sum +
      ∑ s, ∑ ss, ((jumpCount S (M.labelling s) (M.labelling ss) : ℕ) * Real.log (M.matrix s ss)
        - totalTime S (M.labelling s) * M.matrix s ss)) / (S.times.sum : ℕ) := by
  unfold avgLogLik
  congr 1
  rw [List.filter_eq_self.2 (fun x hx => by
    simpa using lt_of_le_of_ne (hnn _) (hpos x.1 (List.of_mem_zip hx).1).symm)]
  have e : ∀ s ss, ((jumpCount S (M.labelling s) (M.labelling ss) : ℕ) : ℝ) * Real.log (M.matrix s ss)
        - totalTime S (M.labelling s) * M.matrix s ss =
      ((S.sequences.zip S.times).map (fun x => (x.2 : ℝ) *
        ((((observations x.1).zip (observations x.1).tail).count (M.labelling s, M.labelling ss) : ℕ) * Real.log (M.matrix s ss)
        - ((timedSteps x.1).map (fun q => if q.1 = M.labelling s then q.2 else 0)).sum * M.matrix s ss))).sum := by
    intro s ss
    unfold jumpCount totalTime
    rw [Nat.cast_list_sum, List.map_map, ← List.sum_map_mul_right, ← List.sum_map_mul_right, ← sum_map_sub']
    congr 1
    apply List.map_congr_left
    intro x _
    simp only [Function.comp]
    push_cast
    ring
  simp only [e, sum_map_comm]
  rw [← List.sum_map_add]
  congr 1
  apply List.map_congr_left
  intro x hx
  have hx1 := (List.of_mem_zip hx).1
  rw [M.log_density_det hinj _ (hS _ hx1).1 (hpos x.1 hx1), mul_add]
  congr 1
  simp only [Finset.mul_sum]

/-- The best rate for `J` jumps in the time `T`. -/
theorem rate_best (J : ℕ) (T q : ℝ) (hT : 0 < T) (hq : 0 ≤ q) (hJ : J ≠ 0 → q ≠ 0) :
    J * Real.log q - T * q ≤ J * Real.log (J / T) - T * (J / T) := by
  by_cases h0 : J = 0
  · subst h0; simp; positivity
  · have hJ0 : (0:ℝ) < J := by exact_mod_cast Nat.pos_of_ne_zero h0
    have hq0 : 0 < q := lt_of_le_of_ne hq (hJ h0).symm
    have h1 := Real.log_le_sub_one_of_pos (x := q * T / J) (by positivity)
    rw [Real.log_div (by positivity) (by positivity), Real.log_mul (by positivity) (by positivity)] at h1
    rw [Real.log_div (by positivity) (by positivity)]
    have h2 := mul_le_mul_of_nonneg_left h1 hJ0.le
    have h3 : (J:ℝ) * (q * T / J - 1) = q * T - J := by field_simp
    have h4 : T * (J / T) = J := by field_simp
    rw [h3] at h2
    rw [h4]
    linarith

theorem totalTime_nonneg (S : TSet (Sym L)) (hw : WaitsNonneg S) (x : L) : 0 ≤ totalTime S x := by
  unfold totalTime
  refine sum_map_nonneg _ _ (fun p hp => mul_nonneg (Nat.cast_nonneg _) (sum_map_nonneg _ _ (fun q hq => ?_)))
  split_ifs
  · exact hw _ (List.of_mem_zip hp).1 _ hq
  · exact le_rfl

/-- C81: of all CTMCs with these labels and this initial distribution in which the training traces are possible, the CTMC
of the observed rates has the largest likelihood, provided that some time is spent in every state that is left (otherwise
the likelihood grows without bound with the rates of that state). -/
theorem frequencies_best (M : CTMC ℝ L n) (hM : M.Valid) (hinj : Function.Injective M.labelling) (S : TSet (Sym L))
    (hS : TimedSet S) (hw : WaitsNonneg S) (hlen : S.times.length = S.sequences.length) (ht : ∀ t ∈ S.times, 1 ≤ t)
    (hpos : ∀ w ∈ S.sequences, M.density w ≠ 0)
    (htime : ∀ s s', jumpCount S (M.labelling s) (M.labelling s') ≠ 0 → totalTime S (M.labelling s) ≠ 0)
    (N : CTMC ℝ L n) (hN : N.Valid) (hlab : N.labelling = M.labelling) (hinit : N.initialState = M.initialState)
    (hNpos : ∀ w ∈ S.sequences, N.density w ≠ 0) :
    avgLogLik N.density S ≤ avgLogLik (M.frequencies S).density S := by
  by_cases hS0 : S.sequences = []
  · unfold avgLogLik; rw [hS0]; simp
  · obtain ⟨w0, hw0⟩ := List.exists_mem_of_ne_nil _ hS0
    obtain ⟨⟨M1, ll⟩, h1⟩ := (M.bw_step_outcome 2 (fun _ _ => false) S hS hlen).1 (Or.inl ⟨by omega, w0, hw0, hpos w0 hw0⟩)
    obtain ⟨k2, k3, _⟩ := M.bw_update_spec _ _ _ _ _ hS h1
    have hmat := M.bw_step_observed 2 (fun _ _ => false) S M1 ll hinj hS hpos h1
    have hF : M.frequencies S = M1 := by
      have hm : M1.matrix = (M.frequencies S).matrix := by funext s s'; exact hmat s s' rfl
      cases M1
      simp only [CTMC.mk.injEq, frequencies] at hm k2 k3 ⊢
      exact ⟨hm.symm, k2.symm, k3.symm⟩
    have hM1 := M.bw_step_valid 2 _ S M1 ll hM hS hw h1
    have hFp : ∀ w ∈ S.sequences, (M.frequencies S).density w ≠ 0 := fun w hw' => by
      rw [hF]
      exact ((M.bw_step_monotone 2 _ S M1 ll hM hS hw hlen ht h1).2.1 w hw').1 (hpos w hw')
    rw [N.avg_det (by rw [hlab]; exact hinj) S hS hNpos (N.density_nonneg hN),
      (M.frequencies S).avg_det hinj S hS hFp (fun w => by rw [hF]; exact M1.density_nonneg hM1 w)]
    refine div_le_div_of_nonneg_right ?_ (Nat.cast_nonneg _)
    rw [hlab, hinit]
    refine add_le_add le_rfl (Finset.sum_le_sum (fun s _ => Finset.sum_le_sum (fun ss _ => ?_)))
    show (jumpCount S (M.labelling s) (M.labelling ss) : ℝ) * Real.log (N.matrix s ss)
        - totalTime S (M.labelling s) * N.matrix s ss ≤
      (jumpCount S (M.labelling s) (M.labelling ss) : ℝ) * Real.log ((M.frequencies S).matrix s ss)
        - totalTime S (M.labelling s) * (M.frequencies S).matrix s ss
    by_cases h0 : totalTime S (M.labelling s) = 0
    · have hj : jumpCount S (M.labelling s) (M.labelling ss) = 0 := by
        by_contra hc; exact htime s ss hc h0
      rw [hj, h0]; simp
    · simp only [frequencies]
      rw [if_neg h0]
      refine rate_best _ _ _ (lt_of_le_of_ne (totalTime_nonneg S hw _) (Ne.symm h0)) (hN.2 s ss) ?_
      intro hj hz
      apply hj
      have h5 : N.jumps S s ss = 0 := by rw [N.jumps_eq]; exact numCT_zero N S s ss hz
      rw [N.jumps_det (by rw [hlab]; exact hinj) S hS hNpos, hlab] at h5
      exact_mod_cast h5

/-- C81: what `fit` returns, when no transition is fixed, has the largest likelihood. -/
theorem fit_observed_best (processes : ℕ) (S : TSet (Sym L)) (epsilon : ℝ) (maxIt : ℕ) (hmax : 1 ≤ maxIt)
    (M : CTMC ℝ L n) (hM : M.Valid) (hinj : Function.Injective M.labelling) (hS : TimedSet S)
    (hw : WaitsNonneg S) (hlen : S.times.length = S.sequences.length) (ht : ∀ t ∈ S.times, 1 ≤ t)
    (hpos : ∀ w ∈ S.sequences, M.density w ≠ 0)
    (htime : ∀ s s', jumpCount S (M.labelling s) (M.labelling s') ≠ 0 → totalTime S (M.labelling s) ≠ 0)
    (st : LoopState (CTMC ℝ L n)) (h : fit (stepTimed processes (fun _ _ => false) S) epsilon maxIt M = .ok st)
    (N : CTMC ℝ L n) (hN : N.Valid) (hlab : N.labelling = M.labelling) (hinit : N.initialState = M.initialState)
    (hNpos : ∀ w ∈ S.sequences, N.density w ≠ 0) :
    avgLogLik N.density S ≤ avgLogLik st.h.density S := by
  obtain ⟨a2, a3, a4⟩ := fit_observed processes _ S epsilon maxIt hmax M hM hinj hS hw hlen ht hpos st h
  have : st.h = M.frequencies S := by
    have hm : st.h.matrix = (M.frequencies S).matrix := by funext s s'; exact a4 s s' rfl
    generalize st.h = H at *
    cases H
    simp only [CTMC.mk.injEq, frequencies] at hm a2 a3 ⊢
    exact ⟨hm, a2, a3⟩
  rw [this]
  exact M.frequencies_best hM hinj S hS hw hlen ht hpos htime N hN hlab hinit hNpos

end CTMC
end Jajapy
