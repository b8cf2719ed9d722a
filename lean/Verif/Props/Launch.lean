import Verif.Spec.Launch
import Verif.Props.Impossible
import Verif.Props.BWGoHMM

/-!
C107: the result of `fit` depends neither on the machine nor on `processes` and `verbose`, and what is shown is what `verbose` asks for.
-/

set_option linter.unusedSectionVars false
set_option autoImplicit false

namespace Jajapy

open BW Spec

/-! ### The number of processes -/

namespace BW

/-- Never more processes than processors, except that Windows and Mac OS always have one. -/
theorem Machine.processes_le (m : Machine) (hc : 1 ≤ m.cpus) (arg : IntArg) : m.processes arg ≤ m.cpus := by
  unfold Machine.processes
  cases m.linux
  · simpa using hc
  · cases arg with
    | other => simp
    | int z =>
      simp only [Bool.not_true, Bool.false_eq_true, if_false]
      split
      · omega
      · omega

/-- Linux: the number asked for if the machine has that many processors. -/
theorem Machine.processes_asked (m : Machine) (h : m.linux = true) (k : ℕ) (h1 : 1 ≤ k) (hk : k ≤ m.cpus) : m.processes (.int k) = k := by
  unfold Machine.processes
  rw [h]
  simp only [Bool.not_true, Bool.false_eq_true, if_false]
  rw [if_neg (by omega)]
  simp

/-- Linux: the documented default for everything else. -/
theorem Machine.processes_default (m : Machine) (h : m.linux = true) (arg : IntArg) (ha : ∀ k : ℕ, 1 ≤ k → k ≤ m.cpus → arg ≠ .int k) :
    m.processes arg = m.cpus - 1 := by
  unfold Machine.processes
  rw [h]
  simp only [Bool.not_true, Bool.false_eq_true, if_false]
  cases arg with
  | other => rfl
  | int z =>
    dsimp only
    rw [if_pos]
    by_contra hz
    refine ha z.toNat (by omega) (by omega) ?_
    rw [Int.toNat_of_nonneg (by omega)]

theorem Machine.processes_other_systems (m : Machine) (h : m.linux = false) (arg : IntArg) : m.processes arg = 1 := by
  unfold Machine.processes
  rw [h]
  rfl

/-- A machine with one processor: the number of processes is 0 by default, and the traces are then treated one after the other, as with 1. -/
theorem Machine.processes_one (m : Machine) (h : m.linux = true) (hc : m.cpus = 1) : m.processes .other = 0 := by
  rw [m.processes_default h .other (by simp), hc]

theorem verbosity_eq (arg : IntArg) : verbosity arg = level arg := by
  cases arg with
  | other => rfl
  | int z =>
    unfold verbosity
    dsimp only
    by_cases h : z > 3 ∨ z < 0
    · rw [if_pos h]
      unfold level
      split <;> simp_all
    · rw [if_neg h]
      have : z = 0 ∨ z = 1 ∨ z = 2 ∨ z = 3 := by omega
      rcases this with rfl | rfl | rfl | rfl <;> rfl

/-! ### What is shown -/

section shown

variable {H R : Type} (kind : ℕ) (save : H → List Char) (savePrism : H → Py (List Char)) (convert : H → Py R) (chain : Bool)
  (step : ℕ → H → Py (H × ℝ)) (mac : Machine) (processes verbose : IntArg) (title : String) (o : Options) (epsilon : ℝ) (maxIt : ℕ) (h : H)

/-- Level 0: nothing. -/
theorem launch_silent (hv : level verbose = 0) : (launch kind save savePrism convert chain step mac processes verbose title o epsilon maxIt h).1 = [] := by
  unfold launch
  rw [verbosity_eq, hv]
  cases fit (step (mac.processes processes)) epsilon maxIt h with
  | error e => simp [shownBefore, shownBar]
  | ok st =>
    show shownBefore mac kind o.storm 0 ++ shownBar title 0 ++ shownAfter _ _ _ 0 st = []
    have : shownAfter savePrism chain { o with storm := o.storm && mac.storm } 0 st = [] := by
      unfold shownAfter
      split <;> simp
    rw [this]
    simp [shownBefore, shownBar]

/-- C107: what is shown is what the documentation says, up to the line that names the kind of model. -/
theorem launch_allowed (x : Shown) (hx : x ∈ (launch kind save savePrism convert chain step mac processes verbose title o epsilon maxIt h).1) :
    Allowed (level verbose) x ∨ Header x := by
  unfold launch at hx
  rw [verbosity_eq] at hx
  have hl : level verbose = 0 ∨ level verbose = 1 ∨ level verbose = 2 ∨ level verbose = 3 := by
    unfold level
    split <;> simp
  have hb : x ∈ shownBefore mac kind o.storm (level verbose) ++ shownBar title (level verbose) →
      Allowed (level verbose) x ∨ Header x := by
    intro hx
    rcases hl with e | e | e | e <;> rw [e] at hx ⊢
    · simp [shownBefore, shownBar] at hx
    all_goals
      simp only [shownBefore, shownBar, Allowed, Header, List.mem_append] at hx ⊢
      rcases hx with (hx | hx) | hx
      · simp at hx; exact Or.inr ⟨_, hx⟩
      · split at hx <;> simp at hx
        simp [hx]
      · simp at hx
        try simp [hx]
  cases hf : fit (step (mac.processes processes)) epsilon maxIt h with
  | error e => rw [hf] at hx; exact hb hx
  | ok st =>
    rw [hf] at hx
    rcases List.mem_append.1 hx with hx | hx
    · exact hb hx
    · left
      unfold shownAfter at hx
      split at hx
      · split at hx
        · rename_i h3
          rw [h3]
          simp at hx
          simp [Allowed, hx]
        · simp at hx
      · simp at hx

/-- The warning is shown exactly when Storm is asked for and not installed, at every level but 0. -/
theorem launch_warning : Shown.noStorm ∈ (launch kind save savePrism convert chain step mac processes verbose title o epsilon maxIt h).1 ↔
    1 ≤ level verbose ∧ o.storm = true ∧ mac.storm = false := by
  have ha : ∀ o' v st, Shown.noStorm ∉ shownAfter (H := H) savePrism chain o' v st := by
    intro o' v st
    unfold shownAfter
    split
    · split <;> simp
    · simp
  have hb : Shown.noStorm ∈ shownBefore mac kind o.storm (level verbose) ++ shownBar title (level verbose) ↔
      1 ≤ level verbose ∧ o.storm = true ∧ mac.storm = false := by
    unfold shownBefore shownBar
    rcases Nat.eq_zero_or_pos (level verbose) with e | e
    · simp [e]
    · have : ¬ level verbose = 0 := by omega
      cases o.storm <;> cases mac.storm <;> by_cases h2 : level verbose < 2 <;> simp [e, h2, Nat.succ_le_of_lt e]
  unfold launch
  rw [verbosity_eq]
  cases fit (step (mac.processes processes)) epsilon maxIt h with
  | error e => exact hb
  | ok st =>
    show Shown.noStorm ∈ _ ++ _ ↔ _
    rw [List.mem_append, hb]
    simp [ha]

/-- The progress bar: levels 2 and 3. -/
theorem launch_bar (t : String) : Shown.bar t ∈ (launch kind save savePrism convert chain step mac processes verbose title o epsilon maxIt h).1 ↔
    2 ≤ level verbose ∧ t = title := by
  have ha : ∀ o' v st, Shown.bar t ∉ shownAfter (H := H) savePrism chain o' v st := by
    intro o' v st
    unfold shownAfter
    split
    · split <;> simp
    · simp
  have hb : Shown.bar t ∈ shownBefore mac kind o.storm (level verbose) ++ shownBar title (level verbose) ↔ 2 ≤ level verbose ∧ t = title := by
    have h1 : Shown.bar t ∉ shownBefore mac kind o.storm (level verbose) := by
      unfold shownBefore
      rw [List.mem_append]
      push Not
      constructor
      · split <;> simp
      · split
        · split <;> simp
        · simp
    rw [List.mem_append]
    simp only [h1, false_or]
    unfold shownBar
    split
    · simp; omega
    · simp; omega
  unfold launch
  rw [verbosity_eq]
  cases fit (step (mac.processes processes)) epsilon maxIt h with
  | error e => exact hb
  | ok st =>
    show Shown.bar t ∈ _ ++ _ ↔ _
    rw [List.mem_append, hb]
    simp [ha]

/-- The recap: level 3, once the iterations and the files are done, with the number of iterations. -/
theorem launch_recap (k : ℕ) : Shown.recap k ∈ (launch kind save savePrism convert chain step mac processes verbose title o epsilon maxIt h).1 ↔
    level verbose = 3 ∧ ∃ st, fit (step (mac.processes processes)) epsilon maxIt h = .ok st ∧ st.counter = k ∧
      (o.prism = true → chain = true → ∃ t, savePrism st.h = .ok t) := by
  have hb : Shown.recap k ∉ shownBefore mac kind o.storm (level verbose) ++ shownBar title (level verbose) := by
    unfold shownBefore shownBar
    simp only [List.mem_append]
    push Not
    refine ⟨⟨?_, ?_⟩, ?_⟩
    · split <;> simp
    · split
      · split <;> simp
      · simp
    · split <;> simp
  unfold launch
  rw [verbosity_eq]
  cases hf : fit (step (mac.processes processes)) epsilon maxIt h with
  | error e => simp only [hb, false_iff]; rintro ⟨_, st, h1, _⟩; simp at h1
  | ok st =>
    show Shown.recap k ∈ _ ++ _ ↔ _
    rw [List.mem_append]
    simp only [hb, false_or, Except.ok.injEq]
    unfold shownAfter
    by_cases hc : (o.prism && chain) = true
    · have hc' := hc
      rw [Bool.and_eq_true] at hc'
      cases hs : savePrism st.h with
      | ok t =>
        simp only [hc, if_true, hs]
        split
        · rename_i h3
          simp only [List.mem_singleton, Shown.recap.injEq]
          constructor
          · intro e; exact ⟨h3, st, rfl, e.symm, fun _ _ => ⟨t, hs⟩⟩
          · rintro ⟨_, st', rfl, e, _⟩; exact e.symm
        · rename_i h3; simp [h3]
      | error e =>
        simp only [hc, if_true, hs]
        simp only [List.not_mem_nil, false_iff]
        rintro ⟨_, st', rfl, _, h4⟩
        obtain ⟨t, ht⟩ := h4 hc'.1 hc'.2
        rw [hs] at ht
        simp at ht
    · have hc' : ¬(o.prism = true ∧ chain = true) := by rwa [Bool.and_eq_true] at hc
      rw [Bool.not_eq_true] at hc
      simp only [hc, Bool.false_eq_true, if_false]
      split
      · rename_i h3
        simp only [List.mem_singleton, Shown.recap.injEq]
        constructor
        · intro e; exact ⟨h3, st, rfl, e.symm, fun a b => absurd ⟨a, b⟩ hc'⟩
        · rintro ⟨_, st', rfl, e, _⟩; exact e.symm
      · rename_i h3; simp [h3]

/-- C107: `verbose` and the title of the bar change nothing in the files and the value. -/
theorem launch_verbose (verbose' : IntArg) (title' : String) :
    (launch kind save savePrism convert chain step mac processes verbose title o epsilon maxIt h).2 =
      (launch kind save savePrism convert chain step mac processes verbose' title' o epsilon maxIt h).2 := by
  unfold launch
  cases fit (step (mac.processes processes)) epsilon maxIt h <;> rfl

/-- The result is the one of `_bw` with the number of processes and Storm as the machine has them. -/
theorem launch_call : (launch kind save savePrism convert chain step mac processes verbose title o epsilon maxIt h).2 =
    call save savePrism convert chain { o with storm := o.storm && mac.storm } (step (mac.processes processes)) epsilon maxIt h := by
  unfold launch call
  cases fit (step (mac.processes processes)) epsilon maxIt h <;> rfl

/-- Two machines. -/
theorem launch_machine (mac' : Machine) (processes' : IntArg) (hs : o.storm = true → mac.storm = mac'.storm)
    (hf : fit (step (mac.processes processes)) epsilon maxIt h = fit (step (mac'.processes processes')) epsilon maxIt h) :
    launch kind save savePrism convert chain step mac processes verbose title o epsilon maxIt h =
      launch kind save savePrism convert chain step mac' processes' verbose title o epsilon maxIt h := by
  have e1 : (o.storm && mac.storm) = (o.storm && mac'.storm) := by
    cases ho : o.storm
    · rfl
    · rw [hs ho]
  have e2 : ∀ v, shownBefore mac kind o.storm v = shownBefore mac' kind o.storm v := by
    intro v
    unfold shownBefore
    cases ho : o.storm
    · rfl
    · rw [hs ho]
  unfold launch
  rw [hf, e1]
  simp only [e2]

end shown

end BW

/-! ### The number of processes does not change a learning -/

namespace MC

variable {L : Type} [DecidableEq L] {n : ℕ}

/-- C107, MC: the whole learning is the same for any two numbers of processes, if the first chain can generate the traces or both numbers are at least 2. -/
theorem fit_processes (p q : ℕ) (S : TSet L) (epsilon : ℝ) (maxIt : ℕ) (M : MC ℝ L n) (hM : M.Stochastic) (hne : ∀ w ∈ S.sequences, w ≠ [])
    (hlen : S.times.length = S.sequences.length) (ht : ∀ t ∈ S.times, 1 ≤ t) (h : (∀ w ∈ S.sequences, M.lik w ≠ 0) ∨ (1 < p ∧ 1 < q)) :
    fit (stepMC p S) epsilon maxIt M = fit (stepMC q S) epsilon maxIt M := by
  refine fit_congr _ _ _ (fun M' => M'.Stochastic ∧ ((∀ w ∈ S.sequences, M'.lik w ≠ 0) ∨ (1 < p ∧ 1 < q))) ?_ ?_ maxIt M ⟨hM, h⟩
  · rintro M' ⟨i1, i2⟩
    exact M'.bw_step_processes p q S i1.2.2.2 hne hlen i2
  · rintro M1 M2 l ⟨i1, i2⟩ hs
    exact ⟨M1.bw_step_keeps_stochastic _ _ _ _ i1 hs,
      i2.imp_left fun i2 w hw => ((M1.bw_step_monotone _ _ _ _ i1 hne hlen ht hs).2.1 w hw).1 (i2 w hw)⟩

end MC

namespace HMM

variable {O : Type} [DecidableEq O] {n : ℕ}

theorem fit_processes (p q : ℕ) (S : TSet O) (epsilon : ℝ) (maxIt : ℕ) (M : HMM ℝ O n) (hnd : M.alphabet.Nodup) (hM : M.Stochastic)
    (hne : ∀ w ∈ S.sequences, w ≠ []) (hlen : S.times.length = S.sequences.length) (ht : ∀ t ∈ S.times, 1 ≤ t)
    (h : (∀ w ∈ S.sequences, M.lik w ≠ 0) ∨ (1 < p ∧ 1 < q)) : fit (stepHMM p S) epsilon maxIt M = fit (stepHMM q S) epsilon maxIt M := by
  refine fit_congr _ _ _ (fun M' => (M'.alphabet.Nodup ∧ M'.Stochastic) ∧ ((∀ w ∈ S.sequences, M'.lik w ≠ 0) ∨ (1 < p ∧ 1 < q))) ?_ ?_ maxIt M
    ⟨⟨hnd, hM⟩, h⟩
  · rintro M' ⟨⟨i0, i1⟩, i2⟩
    exact M'.bw_step_processes p q S i0 i1.2.2.2.1 hne i2
  · rintro M1 M2 l ⟨⟨i0, i1⟩, i2⟩ hs
    exact ⟨⟨by rw [HMM.bw_step_alphabet _ _ _ _ _ hs]; exact i0, M1.bw_step_stochastic _ _ _ _ i0 i1 ht hs⟩,
      i2.imp_left fun i2 w hw => ((M1.bw_step_monotone _ _ _ _ i0 i1 hne hlen ht hs).2.1 w hw).1 (i2 w hw)⟩

end HMM

namespace MDP

variable {L : Type} [DecidableEq L] {n : ℕ}

theorem fit_processes (p q : ℕ) (S : TSet L) (epsilon : ℝ) (maxIt : ℕ) (M : MDP ℝ L n) (hn : M.actions.Nodup) (hM : M.Stochastic)
    (ho : ∀ w ∈ S.sequences, w.length % 2 = 1) (hlen : S.times.length = S.sequences.length) (ht : ∀ t ∈ S.times, 1 ≤ t)
    (h : (∀ w ∈ S.sequences, M.lik w ≠ 0) ∨ (1 < p ∧ 1 < q)) : fit (stepMDP p S) epsilon maxIt M = fit (stepMDP q S) epsilon maxIt M := by
  refine fit_congr _ _ _ (fun M' : MDP ℝ L n => (M'.actions.Nodup ∧ M'.Stochastic) ∧ ((∀ w ∈ S.sequences, M'.lik w ≠ 0) ∨ (1 < p ∧ 1 < q))) ?_ ?_ maxIt M
    ⟨⟨hn, hM⟩, h⟩
  · rintro M' ⟨⟨i0, i1⟩, i2⟩
    exact M'.bw_step_processes p q S i0 ho i2
  · rintro M1 M2 l ⟨⟨i0, i1⟩, i2⟩ hs
    exact ⟨⟨by rw [(M1.bw_step_keeps _ _ _ _ hs).1]; exact i0, (M1.bw_step_stochastic _ _ _ _ i0 i1 ho hs).1⟩,
      i2.imp_left fun i2 w hw => ((M1.bw_step_monotone _ _ _ _ i0 i1 ho hlen ht hs).2.1 w hw).1 (i2 w hw)⟩

end MDP

namespace CTMC

variable {L : Type} [DecidableEq L] {n : ℕ}

theorem fit_processes (p q : ℕ) (fixed : Fin n → Fin n → Bool) (S : TSet (Sym L)) (epsilon : ℝ) (maxIt : ℕ) (M : CTMC ℝ L n) (hM : M.Valid)
    (hS : TimedSet S) (hw : WaitsNonneg S) (hlen : S.times.length = S.sequences.length) (ht : ∀ t ∈ S.times, 1 ≤ t)
    (h : (∀ w ∈ S.sequences, M.density w ≠ 0) ∨ (1 < p ∧ 1 < q)) :
    fit (stepTimed p fixed S) epsilon maxIt M = fit (stepTimed q fixed S) epsilon maxIt M := by
  refine fit_congr _ _ _ (fun M' : CTMC ℝ L n => M'.Valid ∧ ((∀ w ∈ S.sequences, M'.density w ≠ 0) ∨ (1 < p ∧ 1 < q))) ?_ ?_ maxIt M ⟨hM, h⟩
  · rintro M' ⟨i1, i2⟩
    exact M'.bw_step_processes p q fixed S hS i2
  · rintro M1 M2 l ⟨i1, i2⟩ hs
    exact ⟨M1.bw_step_valid _ _ _ _ _ i1 hS hw hs,
      i2.imp_left fun i2 w hm => ((M1.bw_step_monotone _ _ _ _ _ i1 hS hw hlen ht hs).2.1 w hm).1 (i2 w hm)⟩

end CTMC

end Jajapy
