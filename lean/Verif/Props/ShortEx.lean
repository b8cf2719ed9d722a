import Verif.Props.Short

/-!
C111: the bound is exact, and the reported log-likelihood alone does not tell models apart.
-/

set_option linter.unusedSectionVars false
set_option autoImplicit false

namespace Jajapy

open Spec BW

namespace MC
variable {L : Type} [DecidableEq L] {n : ℕ}

/-- A Markov chain without choices. -/
def steady (f : Fin n → Fin n) (lab : Fin n → L) (s : Fin n) : MC ℝ L n where
  matrix := fun a b => if b = f a then 1 else 0
  labelling := lab
  initialState := fun t => if t = s then 1 else 0

theorem steady_stochastic (f : Fin n → Fin n) (lab : Fin n → L) (s : Fin n) : (steady f lab s).Stochastic := by
  refine ⟨fun t => ?_, ?_, fun a b => ?_, fun a => ?_⟩
  · simp only [steady]; split_ifs <;> norm_num
  · simp [steady]
  · simp only [steady]; split_ifs <;> norm_num
  · simp [steady]

/-- It has one trace of each length. -/
theorem steady_lik (f : Fin n → Fin n) (lab : Fin n → L) (s : Fin n) (w : List L) (hw : w ≠ []) :
    (steady f lab s).lik w = if w = (List.iterate f s w.length).map lab then 1 else 0 := by
  have h0 : ∀ (s0 : Fin n) (os : List L) (o : L), ∑ t, (steady f lab s0).iface.seqLoop (fun _ => 0) o os t = 0 := by
    intro s0 os
    induction os with
    | nil => intro o; simp [Iface.seqLoop]
    | cons o' os ih =>
      intro o
      rw [Iface.seqLoop]
      have : (steady f lab s0).iface.fwdStep (fun _ => 0) o = fun _ => 0 := by
        funext t
        simp [Iface.fwdStep]
      rw [this, ih]
  have key : ∀ (s0 : Fin n) (os : List L) (o : L) (s : Fin n), ∑ t, (steady f lab s0).iface.seqLoop (fun t => if t = s then 1 else 0) o os t
      = if o :: os = (List.iterate f s (os.length + 1)).map lab then 1 else 0 := by
    intro s0 os
    induction os with
    | nil =>
      intro o s
      simp only [Iface.seqLoop, ite_mul, one_mul, zero_mul, Finset.sum_ite_eq', Finset.mem_univ, if_true]
      simp [MC.iface, MC.b, steady, List.iterate, eq_comm]
    | cons o' os ih =>
      intro o s
      rw [Iface.seqLoop]
      by_cases ho : lab s = o
      · have : (steady f lab s0).iface.fwdStep (fun t => if t = s then 1 else 0) o = fun t => if t = f s then 1 else 0 := by
          funext t
          simp only [Iface.fwdStep, ite_mul, one_mul, zero_mul, Finset.sum_ite_eq', Finset.mem_univ, if_true]
          simp [MC.iface, MC.tau, steady, ho]
        rw [this, ih]
        simp only [List.length_cons, List.iterate, List.map_cons, List.cons.injEq, ho, true_and]
      · have : (steady f lab s0).iface.fwdStep (fun t => if t = s then 1 else 0) o = fun _ => 0 := by
          funext t
          simp only [Iface.fwdStep, ite_mul, one_mul, zero_mul, Finset.sum_ite_eq', Finset.mem_univ, if_true]
          show MC.tau _ _ _ _ = 0
          unfold MC.tau
          simp only [steady]
          split_ifs <;> simp_all
        rw [this, h0, if_neg]
        intro h
        simp only [List.length_cons, List.iterate, List.map_cons, List.cons.injEq] at h
        exact ho h.1.symm
  cases w with
  | nil => exact absurd rfl hw
  | cons o os =>
    have h1 := (steady f lab s).seqProb_lik (o :: os) hw
    rw [Iface.seqProb] at h1
    rw [← Except.ok.inj h1]
    exact key s os o s

/-- A path of `n + 1` states with another label at its end. -/
def late (n : ℕ) : MC ℝ Bool (n + 1) := steady (fun s => ⟨min (s.1 + 1) n, by omega⟩) (fun s => decide (s.1 < n)) 0

/-- One state. -/
def always : MC ℝ Bool 1 := steady id (fun _ => true) 0

theorem late_labels (n : ℕ) : ∀ (k : ℕ) (s : Fin (n + 1)), s.1 + k ≤ n →
    (List.iterate (fun s : Fin (n + 1) => (⟨min (s.1 + 1) n, by omega⟩ : Fin (n + 1))) s k).map (fun s => decide (s.1 < n)) = List.replicate k true := by
  intro k
  induction k with
  | zero => intro s _; rfl
  | succ k ih =>
    intro s hs
    rw [List.iterate, List.map_cons, List.replicate_succ, ih _ (by simp only; omega)]
    simp only [List.cons.injEq, decide_eq_true_eq, and_true]
    omega

theorem late_end (n : ℕ) : ∀ (k : ℕ) (s : Fin (n + 1)), s.1 + k = n →
    (List.iterate (fun s : Fin (n + 1) => (⟨min (s.1 + 1) n, by omega⟩ : Fin (n + 1))) s (k + 1)).map (fun s => decide (s.1 < n)) = List.replicate k true ++ [false] := by
  intro k
  induction k with
  | zero =>
    intro s hs
    simp [List.iterate]
    omega
  | succ k ih =>
    intro s hs
    rw [List.iterate, List.map_cons, List.replicate_succ, ih _ (by simp only; omega)]
    simp only [List.cons_append, List.cons.injEq, decide_eq_true_eq, and_true]
    omega

/-- C111: the bound cannot be improved. For every `n` there are Markov chains with `n + 1` states and with one state that give the same probability to all
the traces with fewer than `n + 1` symbols, and different probabilities to a trace with `n + 1` symbols. -/
theorem short_exact (n : ℕ) : (late n).Stochastic ∧ always.Stochastic ∧ (∀ w, w.length < (n + 1) + 1 - 1 → (late n).lik w = always.lik w) ∧
    ∃ w, w.length < (n + 1) + 1 ∧ (late n).lik w = 1 ∧ always.lik w = 0 := by
  refine ⟨steady_stochastic _ _ _, steady_stochastic _ _ _, fun w hw => ?_, List.replicate n true ++ [false], by simp, ?_, ?_⟩
  · by_cases h0 : w = []
    · subst h0
      rfl
    · rw [late, always, steady_lik _ _ _ _ h0, steady_lik _ _ _ _ h0, late_labels n w.length 0 (by simp; omega)]
      have : (List.iterate id (0 : Fin 1) w.length).map (fun _ => true) = List.replicate w.length true := by simp
      rw [this]
  · rw [late, steady_lik _ _ _ _ (by simp), if_pos]
    rw [List.length_append, List.length_replicate, List.length_singleton, late_end n n 0 (by simp)]
  · rw [always, steady_lik _ _ _ _ (by simp), if_neg]
    intro h
    have h1 : false ∈ (List.iterate id (0 : Fin 1) (List.replicate n true ++ [false]).length).map (fun _ => true) := by
      rw [← h]
      simp
    simp at h1

/-- The hypothesis of C111 is about the probabilities: `logLikelihood` does not count the impossible traces, and a certain trace counts 0. Two one-state
chains with different labels have the same log-likelihood for all the sets of traces. -/
theorem logLikelihood_blind (cpus : ℕ) (S : TSet Bool) :
    (steady id (fun _ => true) (0 : Fin 1)).iface.logLikelihoodMultiproc cpus S = (steady id (fun _ => false) (0 : Fin 1)).iface.logLikelihoodMultiproc cpus S ∧
      (steady id (fun _ => true) (0 : Fin 1)).lik [true] = 1 ∧ (steady id (fun _ => false) (0 : Fin 1)).lik [true] = 0 := by
  refine ⟨?_, by rw [steady_lik _ _ _ _ (by simp)]; simp, by rw [steady_lik _ _ _ _ (by simp)]; simp⟩
  have key : ∀ (b : Bool) (p : List Bool × ℕ), p.1 ≠ [] → ∃ r, (steady id (fun _ => b) (0 : Fin 1)).iface.computeAlphas p.1 p.2 = .ok r ∧ Iface.keepResult r = none := by
    intro b p hp
    unfold Iface.computeAlphas
    rw [seqProb_lik _ _ hp, steady_lik _ _ _ _ hp]
    split_ifs
    · exact ⟨some (Real.log 1 * p.2), by simp [bind, Except.bind, pure, Except.pure], by simp [Iface.keepResult]⟩
    · exact ⟨none, by simp [bind, Except.bind, pure, Except.pure], rfl⟩
  have h0 : ∀ (b : Bool) (p : List Bool × ℕ), p.1 = [] → (steady id (fun _ => b) (0 : Fin 1)).iface.computeAlphas p.1 p.2 = .error .indexError := by
    intro b p hp
    rw [hp]
    rfl
  have hm : ∀ l : List (List Bool × ℕ), (∀ b, l.mapM (fun p => (steady id (fun _ => b) (0 : Fin 1)).iface.computeAlphas p.1 p.2) = .error .indexError) ∨
      ∀ b, ∃ r, l.mapM (fun p => (steady id (fun _ => b) (0 : Fin 1)).iface.computeAlphas p.1 p.2) = .ok r ∧ r.filterMap Iface.keepResult = [] := by
    intro l
    induction l with
    | nil => exact Or.inr (fun b => ⟨[], rfl, rfl⟩)
    | cons p l ih =>
      by_cases hp : p.1 = []
      · left
        intro b
        rw [List.mapM_cons, h0 b p hp]
        rfl
      · rcases ih with ih | ih
        · left
          intro b
          obtain ⟨r, hr, -⟩ := key b p hp
          rw [List.mapM_cons, hr, ih b]
          rfl
        · right
          intro b
          obtain ⟨r, hr, hk⟩ := key b p hp
          obtain ⟨rs, hrs, hks⟩ := ih b
          refine ⟨r :: rs, by rw [List.mapM_cons, hr, hrs]; rfl, ?_⟩
          rw [List.filterMap_cons, hk, hks]
  unfold Iface.logLikelihoodMultiproc
  split_ifs
  · rfl
  · rcases hm (S.sequences.zip S.times) with h | h
    · rw [h true, h false]
    · obtain ⟨r, hr, hk⟩ := h true
      obtain ⟨r', hr', hk'⟩ := h false
      rw [hr, hr']
      simp only [bind, Except.bind, hk, hk']

end MC
end Jajapy
