import Verif.Lemmas.LimitMC
import Verif.Props.Loop

/-!
Learning loops whose iterations never decrease a bounded objective, and strictly increase it unless they change nothing.
-/

set_option linter.unusedSectionVars false

namespace Jajapy

open Finset Spec BW Filter Topology

/-- An iteration `step`, which computes `new` and reports `tot * F` of the hypothesis it starts from, climbs the objective `F`
on the hypotheses that satisfy `Inv`. -/
structure Climb {H : Type} (step : H → Py (H × ℝ)) (new : H → H) (Inv : H → Prop) (F : H → ℝ) (tot B : ℝ) : Prop where
  inv : ∀ h, Inv h → Inv (new h)
  ok : ∀ h h' ll, Inv h → step h = .ok (h', ll) → h' = new h ∧ ll = tot * F h
  tot_pos : 0 < tot
  le : ∀ h, Inv h → F h ≤ F (new h)
  fix : ∀ h, Inv h → F (new h) = F h → new h = h
  bound : ∀ h, Inv h → F h ≤ B

/-- If the first iteration can only succeed on a set with a possible trace, a set for which learning succeeded is not empty. -/
theorem fit_pos {H O : Type} {P : List (List O × ℕ)} (step : H → Py (H × ℝ)) (epsilon : ℝ) (h : H) (maxIt : ℕ) (hm : 1 ≤ maxIt)
    (st : LoopState H) (hf : fit step epsilon maxIt h = .ok st) (S : TSet O) (ht : ∀ t ∈ S.times, 1 ≤ t)
    (hP : ∀ x ∈ P, x ∈ S.sequences.zip S.times) (hs : ∀ r l, step h = .ok (r, l) → P ≠ []) : 0 < S.times.sum := by
  obtain ⟨k, hs', ls, a1, a2, _, _, _, _, a7, _⟩ := fit_iterations _ _ _ _ _ hf
  have h1 := a2 0 (a7 hm)
  rw [a1] at h1
  obtain ⟨x, hx⟩ := List.exists_mem_of_ne_nil _ (hs _ _ h1)
  have hx2 := (List.of_mem_zip (hP x hx)).2
  exact List.sum_pos_iff_exists_pos_nat.mpr ⟨_, hx2, ht _ hx2⟩

namespace Climb
variable {H : Type} {step : H → Py (H × ℝ)} {new : H → H} {Inv : H → Prop} {F : H → ℝ} {tot B : ℝ}

/-- The hypothesis after `k` iterations. -/
def iter (new : H → H) (h : H) : ℕ → H
  | 0 => h
  | k + 1 => new (iter new h k)

theorem iter_zero (new : H → H) (h : H) : iter new h 0 = h := rfl
theorem iter_succ (new : H → H) (h : H) (k : ℕ) : iter new h (k + 1) = new (iter new h k) := rfl
attribute [irreducible] iter

theorem iter_inv (C : Climb step new Inv F tot B) (h : H) (h0 : Inv h) (k : ℕ) : Inv (iter new h k) := by
  induction k with
  | zero => rw [iter_zero]; exact h0
  | succ k ih => rw [iter_succ]; exact C.inv _ ih

theorem iter_mono (C : Climb step new Inv F tot B) (h : H) (h0 : Inv h) : Monotone (fun k => F (iter new h k)) := by
  refine monotone_nat_of_le_succ (fun k => ?_)
  rw [iter_succ]
  exact C.le _ (C.iter_inv h h0 k)

theorem iter_gain (C : Climb step new Inv F tot B) (h : H) (h0 : Inv h) :
    Tendsto (fun k => F (new (iter new h k)) - F (iter new h k)) atTop (𝓝 0) := by
  have := gains_vanish _ B (C.iter_mono h h0) (fun k => C.bound _ (C.iter_inv h h0 k))
  simpa only [iter_succ] using this

/-- What the loop returns is an iterate, and each iteration it performed succeeded; if it stopped before its budget was
exhausted, the last gain but one was below the tolerance. -/
theorem fit_iter (C : Climb step new Inv F tot B) (h : H) (h0 : Inv h) (epsilon : ℝ) (maxIt : ℕ) (st : LoopState H)
    (hf : fit step epsilon maxIt h = .ok st) :
    st.h = iter new h st.counter ∧ (1 ≤ st.counter → ∃ ll, step h = .ok (new h, ll)) ∧
    (st.counter = maxIt ∨ ∃ i, st.counter = i + 2 ∧ tot * (F (new (iter new h i)) - F (iter new h i)) < epsilon) := by
  obtain ⟨k, hs, ls, a1, a2, a3, a4, _, _, _, _, a8⟩ := fit_iterations _ _ _ _ _ hf
  have hI : ∀ i ≤ k, hs i = iter new h i := by
    intro i
    induction i with
    | zero => intro _; rw [iter_zero]; exact a1
    | succ i ih =>
      intro hi
      have e := ih (by omega)
      rw [iter_succ, ← e]
      exact (C.ok _ _ _ (by rw [e]; exact C.iter_inv h h0 i) (a2 i (by omega))).1
  have hls : ∀ i < k, ls i = tot * F (iter new h i) := by
    intro i hi
    rw [← hI i hi.le]
    exact (C.ok _ _ _ (by rw [hI i hi.le]; exact C.iter_inv h h0 i) (a2 i hi)).2
  rw [a4]
  refine ⟨by rw [a3, hI k le_rfl], fun hk => ⟨ls 0, ?_⟩, ?_⟩
  · have := a2 0 hk
    rw [a1, hI 1 hk, iter_succ, iter_zero] at this
    exact this
  · rcases a8 with a8 | ⟨i, b1, b2⟩
    · exact Or.inl a8
    · refine Or.inr ⟨i, b1, ?_⟩
      rw [hls i (by omega), hls (i+1) (by omega), ← mul_sub, iter_succ] at b2
      exact b2

/-- With tolerance 0 the loop performs all the iterations of its budget. -/
theorem fit_zero (C : Climb step new Inv F tot B) (h : H) (h0 : Inv h) (k : ℕ) (st : LoopState H)
    (hf : fit step 0 k h = .ok st) : st.counter = k := by
  rcases (C.fit_iter h h0 0 k st hf).2.2 with h1 | ⟨i, _, b2⟩
  · exact h1
  · have := mul_nonneg C.tot_pos.le (sub_nonneg.mpr (C.le _ (C.iter_inv h h0 i)))
    linarith

/-- The hypotheses learned with more and more iterations: the gains tend to 0 and the objective converges. -/
theorem fit_limits (C : Climb step new Inv F tot B) (h : H) (h0 : Inv h) (st : ℕ → LoopState H)
    (hf : ∀ k, fit step 0 k h = .ok (st k)) :
    (∃ ll, step h = .ok (new h, ll)) ∧ (∀ k, Inv (st k).h ∧ F h ≤ F (st k).h) ∧
    Tendsto (fun k => F (new (st k).h) - F (st k).h) atTop (𝓝 0) ∧ ∃ y, Tendsto (fun k => F (st k).h) atTop (𝓝 y) := by
  have hc := fun k => C.fit_zero h h0 k (st k) (hf k)
  have hst : ∀ k, (st k).h = iter new h k := fun k => by rw [(C.fit_iter h h0 0 k (st k) (hf k)).1, hc]
  have hm := C.iter_mono h h0
  refine ⟨(C.fit_iter h h0 0 1 (st 1) (hf 1)).2.1 (by rw [hc]), fun k => ⟨by rw [hst]; exact C.iter_inv h h0 k, ?_⟩, ?_, ?_⟩
  · have := hm (Nat.zero_le k)
    simpa only [hst, iter_zero] using this
  · simp only [hst]
    exact C.iter_gain h h0
  · simp only [hst]
    exact ⟨_, tendsto_atTop_ciSup hm ⟨B, by rintro _ ⟨k, rfl⟩; exact C.bound _ (C.iter_inv h h0 k)⟩⟩

/-- The hypotheses learned with tolerances that tend to 0: the gains tend to 0. -/
theorem fit_tolerances (C : Climb step new Inv F tot B) (h : H) (h0 : Inv h) (eps : ℕ → ℝ) (maxIt : ℕ → ℕ) (st : ℕ → LoopState H)
    (heps : Tendsto eps atTop (𝓝 0)) (hf : ∀ j, fit step (eps j) (maxIt j) h = .ok (st j))
    (hstop : ∀ j, (st j).counter < maxIt j) :
    (∃ ll, step h = .ok (new h, ll)) ∧ (∀ k, Inv (st k).h ∧ F h ≤ F (st k).h) ∧
    Tendsto (fun k => F (new (st k).h) - F (st k).h) atTop (𝓝 0) := by
  have hex : ∀ j, ∃ i, (st j).counter = i + 2 ∧ tot * (F (new (iter new h i)) - F (iter new h i)) < eps j := by
    intro j
    rcases (C.fit_iter h h0 (eps j) (maxIt j) (st j) (hf j)).2.2 with h1 | h1
    · exact absurd (hstop j) (by rw [h1]; exact lt_irrefl _)
    · exact h1
  choose i hi1 hi2 using hex
  have hst : ∀ j, (st j).h = iter new h (i j + 2) := fun j => by
    rw [(C.fit_iter h h0 (eps j) (maxIt j) (st j) (hf j)).1, hi1]
  have hg0 : ∀ k, 0 ≤ F (new (iter new h k)) - F (iter new h k) := fun k => sub_nonneg.mpr (C.le _ (C.iter_inv h h0 k))
  have hgz : ∀ k, F (new (iter new h k)) - F (iter new h k) = 0 →
      F (new (iter new h (k+1))) - F (iter new h (k+1)) = 0 := by
    intro k hk
    have h3 := C.fix _ (C.iter_inv h h0 k) (sub_eq_zero.mp hk)
    rw [iter_succ, h3, h3, sub_self]
  have hsmall : Tendsto (fun j => F (new (iter new h (i j))) - F (iter new h (i j))) atTop (𝓝 0) := by
    have hup : Tendsto (fun j => eps j / tot) atTop (𝓝 0) := by simpa using heps.div_const tot
    refine squeeze_zero (fun j => hg0 _) (fun j => ?_) hup
    rw [le_div_iff₀ C.tot_pos, mul_comm]
    exact (hi2 j).le
  have hlate := gains_later (fun k => F (new (iter new h k)) - F (iter new h k)) hg0 hgz (C.iter_gain h h0) i hsmall
  refine ⟨(C.fit_iter h h0 _ _ _ (hf 0)).2.1 (by rw [hi1]; omega), fun k => ⟨by rw [hst]; exact C.iter_inv h h0 _, ?_⟩, ?_⟩
  · have := C.iter_mono h h0 (Nat.zero_le (i k + 2))
    simpa only [hst, iter_zero] using this
  · simp only [hst]
    exact hlate

end Climb
end Jajapy
