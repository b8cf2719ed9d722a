import Verif.Props.Resume
import Verif.Props.FinishEx

/-!
C105 for HMMs and GoHMMs: the second go can start from the file of the first one.
-/

set_option linter.unusedSectionVars false
set_option autoImplicit false

namespace Jajapy

open BW Spec Files Create

variable {n : ℕ} (printable : Char → Bool) (IO : FloatIO ℝ)

/-- C105, HMM: the file of the first go is read back as the model `M'`, and the second go from `M'` ends like the learning in one go. -/
theorem HMM.resume_file (M : HMM ℝ String n) (name : List Char) (o : Options) (processes : ℕ) (S : TSet String) (epsilon : ℝ) (a b : ℕ)
    (st st1 : LoopState (HMM ℝ String n)) (hnd : M.alphabet.Nodup) (hS : M.Stochastic) (ht : ∀ t ∈ S.times, 1 ≤ t) (hn : OneLine name) (ho : o.file = true)
    (hst : fit (stepHMM processes S) epsilon (a + b) M = .ok st) (hlt : a + 1 < st.counter) (h1 : fit (stepHMM processes S) epsilon a M = .ok st1)
    (hm : ∀ i j, IO.dom (st1.h.matrix i j)) (hout : ∀ i k, IO.dom (st1.h.output i k)) (hi : ∀ s, IO.dom (st1.h.initialState s)) :
    ∃ t M', (callHMM printable IO name o processes S epsilon a M).file = some t ∧
      loadHMM IO t = .ok (name, ⟨n, ⟨M'.matrix, M'.alphabet, M'.output, List.ofFn M'.initialState⟩⟩) ∧
      fit (stepHMM processes S) epsilon b M' = .ok { st with counter := st.counter - a } := by
  obtain ⟨st1', e1, _, e3⟩ := BW.fit_resume _ _ _ _ _ _ hst hlt
  rw [h1] at e1
  obtain rfl := Except.ok.inj e1
  obtain ⟨t, t1, t2⟩ := (HMM.call_file printable IO M name o processes S epsilon a st1 hnd hS ht h1 hn hm hout hi).1 ho
  exact ⟨t, st1.h, t1, t2, e3⟩

/-- C105, GoHMM. -/
theorem GoHMM.resume_file {d : ℕ} (hnp : 0 < n) (hdp : 0 < d) (M : GoHMM n d) (name : List Char) (o : Options) (processes : ℕ) (S : TSet (Fin d → ℝ)) (epsilon : ℝ) (a b : ℕ)
    (st st1 : LoopState (GoHMM n d)) (hV : M.Valid) (ht : ∀ t ∈ S.times, 1 ≤ t) (hn : OneLine name) (ho : o.file = true)
    (hst : fit (stepGoHMM processes S) epsilon (a + b) M = .ok st) (hlt : a + 1 < st.counter) (h1 : fit (stepGoHMM processes S) epsilon a M = .ok st1)
    (hm : ∀ i j, IO.dom (st1.h.matrix i j)) (hout : ∀ i j, IO.dom (st1.h.mu i j) ∧ IO.dom (st1.h.sigma i j)) (hi : ∀ s, IO.dom (st1.h.initialState s)) :
    ∃ t M', (callGoHMM printable IO name o processes S epsilon a M).file = some t ∧
      loadGoHMM IO t = .ok (name, ⟨n, d, ⟨M'.matrix, M'.mu, M'.sigma, List.ofFn M'.initialState⟩⟩) ∧
      fit (stepGoHMM processes S) epsilon b M' = .ok { st with counter := st.counter - a } := by
  obtain ⟨st1', e1, _, e3⟩ := BW.fit_resume _ _ _ _ _ _ hst hlt
  rw [h1] at e1
  obtain rfl := Except.ok.inj e1
  obtain ⟨t, t1, t2⟩ := (GoHMM.call_file printable IO hnp hdp M name o processes S epsilon a st1 hV ht h1 hn hm hout hi).1 ho
  exact ⟨t, st1.h, t1, t2, e3⟩

/-! ### An instance -/

theorem spell_dom (epsilon : ℝ) (maxIt : ℕ) (st : LoopState (HMM ℝ String 2)) (hst : fit (stepHMM 2 spellSet) epsilon maxIt spell = .ok st) :
    (∀ i j, realIO.dom (st.h.matrix i j)) ∧ (∀ i k, realIO.dom (st.h.output i k)) ∧ ∀ s, realIO.dom (st.h.initialState s) := by
  have hn : spell.alphabet.Nodup := by decide
  obtain ⟨s0, s1, s2, s3⟩ := HMM.fit_structure _ _ _ _ _ hn _ hst
  have hS' := HMM.fit_stochastic _ _ _ _ _ hn spell_stochastic (by decide) _ hst
  have hm : ∀ i j, realIO.dom (st.h.matrix i j) := by
    intro i j
    refine row_zero_one _ 1 (fun j hj => s1 i j ?_) (Or.inl (hS'.2.2.2.1 i)) j
    fin_cases i <;> fin_cases j <;> simp [spell] at hj ⊢
  have hi : ∀ s, realIO.dom (st.h.initialState s) := by
    refine row_zero_one _ 0 (fun j hj => s3 j ?_) (Or.inl hS'.2.1)
    fin_cases j <;> simp [spell] at hj ⊢
  have ho : ∀ i k, realIO.dom (st.h.output i k) := by
    intro i k
    have hz : ∀ k, spell.emit i (st.h.alphabet[k]) = 0 → st.h.output i k = 0 := by
      intro k hk
      rw [← st.h.emit_getElem (by rw [s0]; exact hn) i k]
      exact s2 _ _ hk
    have hl : st.h.alphabet.length = 2 := by rw [s0]; rfl
    have h0 : st.h.alphabet[0]'(by omega) = "x" := by simp only [s0]; rfl
    have h1 : st.h.alphabet[1]'(by omega) = "y" := by simp only [s0]; rfl
    have hcase : ∀ k : Fin st.h.alphabet.length, k.val = 0 ∨ k.val = 1 := fun k => by have := k.2; omega
    refine row_zero_one _ ⟨i.val, by rw [hl]; exact i.2⟩ (fun j hj => hz j ?_) (Or.inl (hS'.2.2.2.2.2 i)) k
    have hj' : j.val ≠ i.val := fun h => hj (Fin.ext h)
    rcases hcase j with h | h
    · have : st.h.alphabet[j] = "x" := by simp only [Fin.getElem_fin, h, h0]
      rw [this, (spell_emit i).1]
      fin_cases i
      · exact absurd h hj'
      · rfl
    · have : st.h.alphabet[j] = "y" := by simp only [Fin.getElem_fin, h, h1]
      rw [this, (spell_emit i).2]
      fin_cases i
      · rfl
      · exact absurd h hj'
  exact ⟨hm, ho, hi⟩

/-- The hypotheses of `HMM.resume_file`: 1 iteration, then 2 more from the file. -/
example (printable : Char → Bool) : ∃ st t M', (callHMM printable realIO "m".toList ⟨true, false, false, false⟩ 2 spellSet 0 1 spell).file = some t ∧
    loadHMM realIO t = .ok ("m".toList, ⟨2, ⟨M'.matrix, M'.alphabet, M'.output, List.ofFn M'.initialState⟩⟩) ∧
    fit (stepHMM 2 spellSet) 0 (1 + 2) spell = .ok st ∧ fit (stepHMM 2 spellSet) 0 2 M' = .ok { st with counter := st.counter - 1 } := by
  have hn : spell.alphabet.Nodup := by decide
  have ht : ∀ k, ∃ st, fit (stepHMM 2 spellSet) 0 k spell = .ok st := fun k => HMM.fit_total 2 (by norm_num) spellSet 0 k spell hn spell_stochastic (by decide)
    (by decide) (by decide) ["x", "y", "y"] (by decide) (by rw [spell_lik]; norm_num)
  obtain ⟨st, hst⟩ := ht (1 + 2)
  obtain ⟨st1, h1⟩ := ht 1
  have c1 : ∀ (M : HMM ℝ String 2) s, fit (stepHMM 2 spellSet) 0 1 M = .ok s → s.counter = 1 := by
    intro M s h
    obtain ⟨k, _, _, _, _, _, a4, _, a6, a7, _⟩ := fit_iterations _ _ _ _ _ h
    have := a7 le_rfl
    omega
  have c2 : ∀ (b : ℕ) (M : HMM ℝ String 2), M.alphabet.Nodup → M.Stochastic → ∀ s, fit (stepHMM 2 spellSet) 0 (1 + b) M = .ok s →
      ∃ s1 s2, fit (stepHMM 2 spellSet) 0 1 M = .ok s1 ∧ fit (stepHMM 2 spellSet) 0 b s1.h = .ok s2 ∧ s.counter = 1 + s2.counter := by
    intro b M h1 h2 s h
    rw [HMM.fit_add 2 spellSet 0 le_rfl 1 b M h1 h2 (by decide) (by decide) (by decide)] at h
    obtain ⟨s1, hs1, h⟩ := (Except.bind_eq_ok _ _ _).1 h
    cases hs2 : fit (stepHMM 2 spellSet) 0 b s1.h with
    | error e => rw [hs2] at h; simp [Except.map] at h
    | ok s2 =>
      rw [hs2] at h
      injection h with h
      subst h
      exact ⟨s1, s2, hs1, hs2, by show s1.counter + s2.counter = _; rw [c1 _ _ hs1]⟩
  have hlt : 1 + 1 < st.counter := by
    obtain ⟨s1, s2, a1, a2, a3⟩ := c2 2 spell hn spell_stochastic st hst
    obtain ⟨s3, s4, b1, b2, b3⟩ := c2 1 s1.h (by rw [(HMM.fit_structure _ _ _ _ _ hn _ a1).1]; exact hn)
      (HMM.fit_stochastic _ _ _ _ _ hn spell_stochastic (by decide) _ a1) s2 a2
    have := c1 _ _ b2
    omega
  obtain ⟨d1, d2, d3⟩ := spell_dom 0 1 st1 h1
  obtain ⟨t, M', e1, e2, e3⟩ := HMM.resume_file printable realIO spell "m".toList ⟨true, false, false, false⟩ 2 spellSet 0 1 2 st st1 hn spell_stochastic (by decide)
    ⟨by decide, by decide⟩ rfl hst hlt h1 d1 d2 d3
  exact ⟨st, t, M', e1, e2, hst, e3⟩

/-! ### An instance for GoHMMs -/

/-- One state: every observation is made in this state. -/
theorem expVisits_one {O : Type} (init : Fin 1 → ℝ) (tau : Fin 1 → Fin 1 → O → ℝ) (f : Fin 1 → ℝ) (φ : O → ℝ) (w : List O)
    (h : totalWeight init tau f w ≠ 0) : expVisits init tau f φ w 0 = ∑ k : Fin w.length, φ (w.get k) := by
  have e : ∀ p : Fin (w.length + 1) → Fin 1, (∑ k : Fin w.length, if p k.castSucc = 0 then φ (w.get k) else 0) = ∑ k : Fin w.length, φ (w.get k) :=
    fun p => Finset.sum_congr rfl (fun k _ => if_pos (Subsingleton.elim _ _))
  unfold expVisits
  rw [Finset.sum_congr rfl (fun p _ => by rw [e p]), ← Finset.sum_mul]
  exact mul_div_cancel_left₀ _ h

/-- One state, the standard normal law. -/
noncomputable def exGoPair : GoHMM 1 1 where
  matrix := fun _ _ => 1
  mu := fun _ _ => 0
  sigma := fun _ _ => 1
  initialState := fun _ => 1

/-- The trace -1, 1: its mean is 0 and its standard deviation is 1. -/
def exSetPair : TSet (Fin 1 → ℝ) := { sequences := [[fun _ => -1, fun _ => 1]], times := [1], floatTimes := false, type := some 3 }

theorem exGoPair_valid : exGoPair.Valid := by
  refine ⟨fun _ => ?_, ?_, fun _ _ => ?_, fun _ => ?_, fun _ _ => ?_⟩ <;> simp [exGoPair]

/-- An iteration leaves this model unchanged. -/
theorem exGoPair_step : ∃ ll, stepGoHMM 1 exSetPair exGoPair = .ok (exGoPair, ll) := by
  have hne : ∀ w ∈ exSetPair.sequences, w ≠ [] := by simp [exSetPair]
  have hs : ∀ s i, 0 < exGoPair.sigma s i := fun _ _ => by simp [exGoPair]
  have hv := exGoPair_valid
  obtain ⟨⟨M', ll⟩, hr⟩ := (exGoPair.bw_step_outcome 1 exSetPair hv.2.2.2.2 hv.2.2.2.1 hne rfl).1
    (Or.inr ⟨le_refl _, by simp [exSetPair], fun w hw => (exGoPair.lik_pos hv hs w (hne w hw)).ne'⟩)
  have hM' := exGoPair.bw_step_valid _ _ _ _ hv (by simp [exSetPair]) hr
  have hl := exGoPair.lik_pos hv hs [fun _ => -1, fun _ => 1] (by simp)
  have htw : totalWeight exGoPair.initialState exGoPair.step (fun _ => 1) [fun _ => -1, fun _ => 1] ≠ 0 := by
    have := exGoPair.lik_eq hv.2.2.2.1 [fun _ => -1, fun _ => 1] (by simp)
    rw [this] at hl
    exact hl.ne'
  have htot : ∀ φ : (Fin 1 → ℝ) → ℝ, exGoPair.total exSetPair φ 0 = φ (fun _ => -1) + φ (fun _ => 1) := by
    intro φ
    unfold GoHMM.total overSet exSetPair
    simp only [List.zip_cons_cons, List.zip_nil_right]
    rw [List.filter_cons_of_pos (by simpa using hl.ne')]
    simp only [List.filter_nil, List.map_cons, List.map_nil, List.sum_cons, List.sum_nil, add_zero, Nat.cast_one, one_mul]
    rw [expVisits_one _ _ _ _ _ htw]
    exact Fin.sum_univ_two (fun k => φ ([fun _ => -1, fun _ => 1].get k))
  obtain ⟨_, _, u3, u4, _⟩ := exGoPair.bw_update_spec _ _ _ _ hv.2.2.2.2 hv.2.2.2.1 hne hr
  have hvis : exGoPair.visits exSetPair 0 = 2 := by unfold GoHMM.visits; rw [htot]; norm_num
  have h3 : M'.mu 0 0 = 0 := by rw [u3, hvis, htot]; norm_num
  have h4 : M'.sigma 0 0 = 1 := by
    rw [u4, hvis, htot]
    simp [exGoPair]
  have h1 : M'.initialState 0 = 1 := by simpa using hM'.2.1
  have h2 : M'.matrix 0 0 = 1 := by simpa using hM'.2.2.2.1 0
  have e : M' = exGoPair := by
    obtain ⟨m, mu, sg, ini⟩ := M'
    simp only [exGoPair, GoHMM.mk.injEq]
    refine ⟨?_, ?_, ?_, ?_⟩
    · funext i j; rw [Subsingleton.elim i 0, Subsingleton.elim j 0]; exact h2
    · funext i j; rw [Subsingleton.elim i 0, Subsingleton.elim j 0]; exact h3
    · funext i j; rw [Subsingleton.elim i 0, Subsingleton.elim j 0]; exact h4
    · funext i; rw [Subsingleton.elim i 0]; exact h1
  exact ⟨ll, by rw [hr, e]⟩

/-- The hypotheses of `GoHMM.resume_file`: 1 iteration, then 2 more from the file. -/
example (printable : Char → Bool) : ∃ st t M', (callGoHMM printable realIO "m".toList ⟨true, false, false, false⟩ 1 exSetPair 0 1 exGoPair).file = some t ∧
    loadGoHMM realIO t = .ok ("m".toList, ⟨1, 1, ⟨M'.matrix, M'.mu, M'.sigma, List.ofFn M'.initialState⟩⟩) ∧
    fit (stepGoHMM 1 exSetPair) 0 (1 + 2) exGoPair = .ok st ∧ fit (stepGoHMM 1 exSetPair) 0 2 M' = .ok { st with counter := st.counter - 1 } := by
  obtain ⟨ll, hr⟩ := exGoPair_step
  have h1 : fit (stepGoHMM 1 exSetPair) 0 1 exGoPair = .ok ⟨exGoPair, 1, some ll⟩ := by
    simp [fit, loop, hr, bind, Except.bind]
  have h3 : fit (stepGoHMM 1 exSetPair) 0 (1 + 2) exGoPair = .ok ⟨exGoPair, 3, some ll⟩ := by
    simp [fit, loop, hr, bind, Except.bind]
  obtain ⟨t, M', e1, e2, e3⟩ := GoHMM.resume_file printable realIO (by norm_num) (by norm_num) exGoPair "m".toList ⟨true, false, false, false⟩ 1 exSetPair 0 1 2
    _ _ exGoPair_valid (by simp [exSetPair]) ⟨by decide, by decide⟩ rfl h3 (by norm_num) h1
    (fun _ _ => realIO_one) (fun _ _ => ⟨realIO_zero, realIO_one⟩) (fun _ => realIO_one)
  exact ⟨_, t, M', e1, e2, h3, e3⟩

end Jajapy
