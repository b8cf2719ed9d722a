import Verif.Lemmas.Observable
import Verif.Lemmas.Counts

/-! Baum-Welch tables when each step shows the label of the state it leaves, and the labels are pairwise different. The
second component of an observation is the action (MDP) or the waiting time (CTMC). -/

set_option linter.unusedSectionVars false

namespace Jajapy

open Finset Spec BW

section
variable {K L X : Type} {n : ℕ} [Field K] [DecidableEq L]

/-- The first state of a path given by its steps and its last state. -/
def firstOf : List (Fin n × X) → Fin n → Fin n
  | [], last => last
  | p :: _, _ => p.1

theorem firstOf_cons (p : Fin n × X) (ps : List (Fin n × X)) (last : Fin n) : firstOf (p :: ps) last = p.1 := rfl

/-- The product of the weights along a path. -/
def along (κ : Fin n → X → Fin n → K) : List (Fin n × X) → Fin n → K
  | [], _ => 1
  | p :: ps, last => κ p.1 p.2 (firstOf ps last) * along κ ps last

/-- The moves of a path. -/
def movesOf : List (Fin n × X) → Fin n → List ((Fin n × X) × Fin n)
  | [], _ => []
  | p :: ps, last => (p, firstOf ps last) :: movesOf ps last

/-- The observation of a step. -/
def showStep (lab : Fin n → L) (p : Fin n × X) : L × X := (lab p.1, p.2)

/-- Weights of the form: the label of the state is observed. -/
def obsTau (lab : Fin n → L) (κ : Fin n → X → Fin n → K) (s ss : Fin n) (o : L × X) : K :=
  if lab s = o.1 then κ s o.2 ss else 0

variable (lab : Fin n → L) (κ : Fin n → X → Fin n → K)

theorem obsTau_show (hinj : Function.Injective lab) (p : Fin n × X) (s ss : Fin n) :
    obsTau lab κ s ss (showStep lab p) = if s = p.1 then κ p.1 p.2 ss else 0 := by
  unfold obsTau showStep
  by_cases h : s = p.1
  · subst h; simp
  · rw [if_neg (fun h' => h (hinj h')), if_neg h]

theorem beta_along (hinj : Function.Injective lab) (ps : List (Fin n × X)) (last s : Fin n) :
    beta0 (obsTau lab κ) (fun s => if s = last then 1 else 0) (ps.map (showStep lab)) s =
      if s = firstOf ps last then along κ ps last else 0 := by
  induction ps generalizing s with
  | nil => rfl
  | cons p ps ih =>
    rw [List.map_cons, beta0_cons]
    unfold bwd
    simp only [obsTau_show lab κ hinj, ih, firstOf_cons, along]
    by_cases h : s = p.1
    · simp [h, mul_comm]
    · simp [h]

theorem fwd_along (hinj : Function.Injective lab) (v : Fin n → K) (p : Fin n × X) (ss : Fin n) :
    fwd (obsTau lab κ) v (showStep lab p) ss = v p.1 * κ p.1 p.2 ss := by
  unfold fwd
  simp only [obsTau_show lab κ hinj]
  simp

theorem use_along (hinj : Function.Injective lab) (φ : L × X → K) (c : K) (v : Fin n → K) (ps : List (Fin n × X))
    (last s ss : Fin n) :
    use (obsTau lab κ) v (fun s => if s = last then 1 else 0) φ c (ps.map (showStep lab)) s ss =
      v (firstOf ps last) * along κ ps last * c *
        ((movesOf ps last).map (fun m => if m.1.1 = s ∧ m.2 = ss then φ (showStep lab m.1) else 0)).sum := by
  induction ps generalizing v with
  | nil => simp [movesOf]
  | cons p ps ih =>
    rw [List.map_cons, use_cons, ih, fwd_along lab κ hinj, obsTau_show lab κ hinj, beta_along lab κ hinj]
    simp only [movesOf, List.map_cons, List.sum_cons, firstOf_cons, along]
    by_cases h : s = p.1
    · subst h
      by_cases h' : ss = firstOf ps last
      · subst h'; simp; ring
      · simp [h', Ne.symm h', mul_assoc]
    · simp [h, Ne.symm h, mul_assoc]

theorem vis_along (hinj : Function.Injective lab) (φ : L × X → K) (c : K) (v : Fin n → K) (ps : List (Fin n × X))
    (last s : Fin n) :
    vis (obsTau lab κ) v (fun s => if s = last then 1 else 0) φ c (ps.map (showStep lab)) s =
      v (firstOf ps last) * along κ ps last * c *
        (ps.map (fun p => if p.1 = s then φ (showStep lab p) else 0)).sum := by
  induction ps generalizing v with
  | nil => simp
  | cons p ps ih =>
    rw [List.map_cons, vis_cons, ih, fwd_along lab κ hinj, ← List.map_cons, beta_along lab κ hinj]
    simp only [List.map_cons, List.sum_cons, firstOf_cons, along]
    by_cases h : s = p.1
    · subst h; simp; ring
    · simp [h, Ne.symm h, mul_assoc]

theorem weight_along (hinj : Function.Injective lab) (v : Fin n → K) (ps : List (Fin n × X)) (last : Fin n) :
    totalWeight v (obsTau lab κ) (fun s => if s = last then 1 else 0) (ps.map (showStep lab)) =
      v (firstOf ps last) * along κ ps last := by
  rw [totalWeight_eq]
  simp only [beta_along lab κ hinj]
  simp

theorem expUses_along (hinj : Function.Injective lab) (φ : L × X → K) (v : Fin n → K) (ps : List (Fin n × X))
    (last s ss : Fin n) (hne : v (firstOf ps last) * along κ ps last ≠ 0) :
    expUses v (obsTau lab κ) (fun s => if s = last then 1 else 0) φ (ps.map (showStep lab)) s ss =
      ((movesOf ps last).map (fun m => if m.1.1 = s ∧ m.2 = ss then φ (showStep lab m.1) else 0)).sum := by
  have := expUses_eq (obsTau lab κ) (fun s => if s = last then 1 else 0) v φ (ps.map (showStep lab)) s ss
    (v (firstOf ps last) * along κ ps last) (by rw [← totalWeight_eq, weight_along lab κ hinj]) 1
  rw [one_mul] at this
  rw [← this, use_along lab κ hinj, mul_one_div_cancel hne, one_mul]

theorem expVisits_along (hinj : Function.Injective lab) (φ : L × X → K) (v : Fin n → K) (ps : List (Fin n × X))
    (last s : Fin n) (hne : v (firstOf ps last) * along κ ps last ≠ 0) :
    expVisits v (obsTau lab κ) (fun s => if s = last then 1 else 0) φ (ps.map (showStep lab)) s =
      (ps.map (fun p => if p.1 = s then φ (showStep lab p) else 0)).sum := by
  have := expVisits_eq (obsTau lab κ) (fun s => if s = last then 1 else 0) v φ (ps.map (showStep lab)) s
    (v (firstOf ps last) * along κ ps last) (by rw [← totalWeight_eq, weight_along lab κ hinj]) 1
  rw [one_mul] at this
  rw [← this, vis_along lab κ hinj, mul_one_div_cancel hne, one_mul]

/-- Observations of positive weight come from a path. -/
theorem path_of_beta (f : Fin n → K) (os : List (L × X)) (s : Fin n) (h : beta0 (obsTau lab κ) f os s ≠ 0) :
    ∃ (ps : List (Fin n × X)) (last : Fin n), os = ps.map (showStep lab) ∧ f last ≠ 0 := by
  induction os generalizing s with
  | nil => exact ⟨[], s, rfl, h⟩
  | cons o os ih =>
    rw [beta0_cons] at h
    obtain ⟨ss, _, hss⟩ := Finset.exists_ne_zero_of_sum_ne_zero h
    obtain ⟨ps, last, e, hl⟩ := ih ss (by first | exact right_ne_zero_of_mul hss | exact left_ne_zero_of_mul hss)
    have ht : obsTau lab κ s ss o ≠ 0 := by
      first | exact right_ne_zero_of_mul hss | exact left_ne_zero_of_mul hss
    refine ⟨(s, o.2) :: ps, last, ?_, hl⟩
    rw [List.map_cons, e]
    congr 1
    unfold obsTau at ht
    by_cases hk : lab s = o.1
    · unfold showStep; rw [hk]
    · rw [if_neg hk] at ht; exact absurd rfl ht

theorem path_of_weight (v f : Fin n → K) (os : List (L × X)) (h : totalWeight v (obsTau lab κ) f os ≠ 0) :
    ∃ (ps : List (Fin n × X)) (last : Fin n), os = ps.map (showStep lab) ∧ f last ≠ 0 := by
  rw [totalWeight_eq] at h
  obtain ⟨s, _, hs⟩ := Finset.exists_ne_zero_of_sum_ne_zero h
  exact path_of_beta lab κ f os s (right_ne_zero_of_mul hs)

theorem along_ne_zero (ps : List (Fin n × X)) (last : Fin n) :
    along κ ps last ≠ 0 ↔ ∀ m ∈ movesOf ps last, κ m.1.1 m.1.2 m.2 ≠ 0 := by
  induction ps with
  | nil => simp [along, movesOf]
  | cons p ps ih => simp only [along, movesOf, mul_ne_zero_iff, List.forall_mem_cons, ih]

end

theorem log_along {X : Type} {n : ℕ} (κ : Fin n → X → Fin n → ℝ) (ps : List (Fin n × X)) (last : Fin n)
    (h : along κ ps last ≠ 0) :
    Real.log (along κ ps last) = ((movesOf ps last).map (fun m => Real.log (κ m.1.1 m.1.2 m.2))).sum := by
  induction ps with
  | nil => simp [along, movesOf]
  | cons p ps ih =>
    simp only [along, movesOf, List.map_cons, List.sum_cons] at h ⊢
    rw [Real.log_mul (left_ne_zero_of_mul h) (right_ne_zero_of_mul h), ih (right_ne_zero_of_mul h)]

end Jajapy
