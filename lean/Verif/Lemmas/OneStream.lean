import Verif.Lemmas.GenerateLaw
import Verif.Lemmas.Draws
import Mathlib.Logic.Equiv.Fin.Basic

/-!
Consecutive calls of a simulator that reads a fixed number of random numbers, from one sequence of random numbers.
-/

set_option linter.unusedSectionVars false

namespace Jajapy

open MeasureTheory ProbabilityTheory Spec Filter Topology

/-- Almost surely all the draws are in `[0,1)`. -/
theorem draws_in_range : ∀ᵐ d ∂drawsLaw, ∀ k, 0 ≤ d k ∧ d k < 1 := by
  rw [ae_all_iff]
  intro k
  have h := (measurePreserving_eval_infinitePi (fun _ : ℕ => uniform) k).quasiMeasurePreserving.ae
    (p := fun r => 0 ≤ r ∧ r < 1) (by
      unfold uniform
      filter_upwards [ae_restrict_mem measurableSet_Ico] with r hr
      exact hr)
  exact h

/-- The law of `c` independent uniform numbers. -/
noncomputable def blockLaw (c : ℕ) : Measure (Fin c → ℝ) := Measure.infinitePi (fun _ => uniform)

instance (c : ℕ) : IsProbabilityMeasure (blockLaw c) := by unfold blockLaw; infer_instance

/-- The numbers cut into blocks of `c`. -/
def blocks (c : ℕ) (d : ℕ → ℝ) : ℕ → Fin c → ℝ := fun j i => d (j * c + i)

/-- The blocks of `c` numbers of one sequence are independent. -/
theorem blocks_law (c : ℕ) (hc : 0 < c) : MeasurePreserving (blocks c) drawsLaw (callsLaw (blockLaw c)) := by
  haveI : NeZero c := ⟨hc.ne'⟩
  have h1 := Measure.infinitePi_map_piCongrLeft (fun _ : ℕ × Fin c => uniform) (Nat.divModEquiv c)
  have h2 := Measure.infinitePi_map_curry (fun (_ : ℕ) (_ : Fin c) => uniform)
  have e : blocks c = (MeasurableEquiv.curry ℕ (Fin c) ℝ) ∘ (MeasurableEquiv.piCongrLeft (fun _ => ℝ) (Nat.divModEquiv c)) := by
    funext d j i
    simp only [Function.comp, blocks]
    rw [MeasurableEquiv.coe_piCongrLeft]
    change _ = (Equiv.piCongrLeft (fun _ => ℝ) (Nat.divModEquiv c)) d (j, i)
    have hji : (j, i) = Nat.divModEquiv c (j * c + i) := ((Nat.divModEquiv c).apply_symm_apply (j, i)).symm
    rw [hji, Equiv.piCongrLeft_apply_apply]
  refine ⟨?_, ?_⟩
  · unfold blocks
    fun_prop
  · rw [e, ← Measure.map_map (by fun_prop) (by fun_prop)]
    unfold drawsLaw callsLaw blockLaw
    rw [h1, h2]

/-- The first `c` numbers, then zeros. -/
def padZero (c : ℕ) (v : Fin c → ℝ) : ℕ → ℝ := fun i => if h : i < c then v ⟨i, h⟩ else 0

theorem measurable_padZero (c : ℕ) : Measurable (padZero c) := by
  unfold padZero
  refine measurable_pi_lambda _ (fun i => ?_)
  by_cases h : i < c
  · simp only [h, dif_pos]
    exact measurable_pi_apply _
  · simp only [h, dif_neg, not_false_iff]
    exact measurable_const

theorem first_law (c : ℕ) (hc : 0 < c) : MeasurePreserving (fun (d : ℕ → ℝ) (i : Fin c) => d i) drawsLaw (blockLaw c) := by
  have h := (measurePreserving_eval_infinitePi (fun _ : ℕ => blockLaw c) 0).comp (blocks_law c hc)
  have e : (fun (d : ℕ → ℝ) (i : Fin c) => d i) = (fun x : ℕ → Fin c → ℝ => x 0) ∘ blocks c := by
    funext d i
    simp [blocks]
  rw [e]
  exact h

variable {O : Type} [DecidableEq O] {sim : (ℕ → ℝ) → Py (List O)} {W : Set (List O)}

/-- The simulator reads only the first `c` numbers. -/
def Reads (sim : (ℕ → ℝ) → Py (List O)) (c : ℕ) : Prop := ∀ d d' : ℕ → ℝ, (∀ i < c, d i = d' i) → sim d = sim d'

theorem Reads.block {c : ℕ} (hr : Reads sim c) (d : ℕ → ℝ) (j : ℕ) :
    sim (padZero c (blocks c d j)) = sim (fun i => d (j * c + i)) := by
  apply hr
  intro i hi
  simp [padZero, blocks, hi]

theorem Reads.law {c : ℕ} (hc : 0 < c) (hr : Reads sim c) (A : Py (List O) → Prop) (hA : MeasurableSet {d | A (sim d)}) :
    blockLaw c {v | A (sim (padZero c v))} = drawsLaw {d | A (sim d)} := by
  have h1 : MeasurableSet {v | A (sim (padZero c v))} := (measurable_padZero c) hA
  rw [← (first_law c hc).measure_preimage h1.nullMeasurableSet]
  congr 1
  ext d
  simp only [Set.mem_preimage, Set.mem_ofPred_eq]
  rw [hr _ d (fun i hi => by simp [padZero, hi])]

theorem Simulates.block {c : ℕ} (hc : 0 < c) (hr : Reads sim c) (h : Simulates drawsLaw sim W) :
    Simulates (blockLaw c) (fun v => sim (padZero c v)) W where
  countable := h.countable
  mem := fun _ _ hw => h.mem _ _ hw
  meas := fun w => (measurable_padZero c) (h.meas w)
  total := by
    rw [hr.law hc (fun r => ∃ w, r = .ok w) h.meas_ok]
    exact h.total

/-- The binomial law, with consecutive calls that read one sequence of numbers. -/
theorem Simulates.binomial_stream {gen : (ℕ → Py (List O)) → ℕ → Py (TSet O)} (hgen : CountsTraces gen W)
    (h : Simulates drawsLaw sim W) {c : ℕ} (hc : 0 < c) (hr : Reads sim c) (w : List O) (p : ℝ) (hp0 : 0 ≤ p)
    (hp : drawsLaw {d | sim d = .ok w} = ENNReal.ofReal p) (N m : ℕ) :
    drawsLaw {d | ∃ S, gen (fun j => sim (fun i => d (j * c + i))) N = .ok S ∧ S.mult w = m}
      = ENNReal.ofReal (N.choose m * (p ^ m * (1 - p) ^ (N - m))) := by
  have hb := h.block hc hr
  have h1 := hb.binomial hgen w p hp0 (by rw [hr.law hc (fun r => r = .ok w) (h.meas w), hp]) N m
  rw [← h1, ← (blocks_law c hc).measure_preimage]
  · congr 1
    ext d
    simp only [Set.mem_preimage, Set.mem_ofPred_eq, hr.block]
  · refine (hb.measurable_occ w N m).nullMeasurableSet.congr ?_
    exact (hb.ae_mult hgen w N m).symm

/-- The frequencies, with consecutive calls that read one sequence of numbers. -/
theorem Simulates.frequencies_stream {gen : (ℕ → Py (List O)) → ℕ → Py (TSet O)} (hgen : CountsTraces gen W)
    (h : Simulates drawsLaw sim W) {c : ℕ} (hc : 0 < c) (hr : Reads sim c) :
    ∀ᵐ d ∂drawsLaw, ∃ S : ℕ → TSet O, (∀ N, gen (fun j => sim (fun i => d (j * c + i))) N = .ok (S N) ∧ (S N).Countable ∧
        (S N).times.sum = N ∧ ∀ w ∈ (S N).sequences, w ∈ W) ∧
      ∀ w, Tendsto (fun N : ℕ => ((S N).mult w : ℝ) / N) atTop (𝓝 (drawsLaw {d | sim d = .ok w}).toReal) := by
  have h1 := (blocks_law c hc).quasiMeasurePreserving.ae ((h.block hc hr).frequencies hgen)
  filter_upwards [h1] with d hd
  obtain ⟨S, h2, h3⟩ := hd
  refine ⟨S, fun N => ?_, fun w => ?_⟩
  · have := h2 N
    simp only [hr.block] at this
    exact this
  · rw [← hr.law hc (fun r => r = .ok w) (h.meas w)]
    exact h3 w

end Jajapy
