import Verif.Lemmas.TimedEval
import Verif.Spec.PCTMCEval
import Verif.Props.PCTMCSim
import Verif.Props.GenerateLaw

set_option linter.unusedSectionVars false

namespace Jajapy

open MeasureTheory ProbabilityTheory Spec Finset Tools BW

theorem asTrace_injective : Function.Injective asTrace := by
  refine List.map_injective_iff.2 ?_
  intro x y h
  cases x <;> cases y <;> simp_all

theorem count_map_injective {α β : Type} [DecidableEq α] [DecidableEq β] (f : List α → List β) (hf : Function.Injective f) (l : List (List α)) (x : List α) :
    (l.map f).count (f x) = l.count x := List.count_map_of_injective _ _ hf _

namespace TSet

theorem asTraces_mult (S : TSet (Sym String)) (w : List (Sym String)) : S.asTraces.mult (asTrace w) = S.mult w := by
  unfold mult asTraces
  simp only
  generalize S.times = ts
  induction S.sequences generalizing ts with
  | nil => rfl
  | cons u l ih =>
    cases ts with
    | nil => rfl
    | cons t ts =>
      simp only [List.map_cons, List.zip_cons_cons, List.filter_cons]
      have := ih ts
      by_cases h : u = w
      · subst h
        simp [this]
      · have h' : ¬ asTrace u = asTrace w := fun hc => h (asTrace_injective hc)
        simp [h, h', this]

/-- A set of finite timed traces, read. -/
theorem exists_read (S : TSet (String ⊕ WithTop ℝ)) (h : ∀ w ∈ S.sequences, ∃ u, asTrace u = w) : ∃ S' : TSet (Sym String), S = S'.asTraces := by
  have e : ∃ l : List (List (Sym String)), l.map asTrace = S.sequences := by
    generalize S.sequences = q at h
    induction q with
    | nil => exact ⟨[], rfl⟩
    | cons w q ih =>
      obtain ⟨u, hu⟩ := h w (by simp)
      obtain ⟨l, hl⟩ := ih (fun w hw => h w (by simp [hw]))
      exact ⟨u :: l, by rw [List.map_cons, hu, hl]⟩
  obtain ⟨l, hl⟩ := e
  obtain ⟨a, b, c, d⟩ := S
  exact ⟨⟨l, b, c, d⟩, by simp only [asTraces]; rw [hl]⟩

theorem asTraces_countable (S : TSet (Sym String)) : S.asTraces.Countable ↔ S.Countable := by
  unfold Countable WF asTraces
  simp only [List.length_map, List.nodup_map_iff asTrace_injective]

theorem asTraces_mem (S : TSet (Sym String)) (w : List (Sym String)) : asTrace w ∈ S.asTraces.sequences ↔ w ∈ S.sequences := by
  unfold asTraces
  simp only [List.mem_map]
  constructor
  · rintro ⟨u, hu, e⟩
    exact asTrace_injective e ▸ hu
  · intro h
    exact ⟨w, h, rfl⟩

theorem asTraces_injective : Function.Injective asTraces := by
  rintro ⟨a, b, c, d⟩ ⟨a', b', c', d'⟩ h
  simp only [asTraces, mk.injEq] at h
  obtain ⟨h1, rfl, rfl, rfl⟩ := h
  rw [List.map_injective_iff.2 asTrace_injective h1]

end TSet

/-- Almost surely no draw is negative. -/
theorem draws_nonneg (n : ℕ) : ∀ᵐ p ∂simLaw n, ∀ k i, 0 ≤ p.2 k i := by
  have h1 : ∀ᵐ x ∂expLaw, 0 ≤ x := by
    have e : {x : ℝ | ¬ 0 ≤ x} = Set.Iio 0 := by ext x; simp
    rw [ae_iff, e]
    show (volume.withDensity (exponentialPDF 1)) (Set.Iio 0) = 0
    rw [withDensity_apply _ measurableSet_Iio]
    exact lintegral_exponentialPDF_of_nonpos le_rfl
  have h2 : ∀ᵐ d ∂stepLaw n, ∀ i, 0 ≤ d i := by
    rw [ae_all_iff]
    intro i
    exact (Measure.quasiMeasurePreserving_eval (fun _ : Fin n => expLaw) i).ae h1
  have h3 : ∀ᵐ d ∂clocksLaw n, ∀ k i, 0 ≤ d k i := infinitePi_ae (stepLaw n) _ h2
  have q2 : Measure.QuasiMeasurePreserving Prod.snd (simLaw n) (clocksLaw n) := Measure.quasiMeasurePreserving_snd
  exact q2.ae h3

namespace PCTMC
variable {M : PCTMC ℝ} {ρ : String → ℝ}

/-- The trace of a simulation. -/
theorem run_timedTrace (h : M.Sim ρ) (hp : ∀ s, ∃ j, 0 < (M.chain ρ).matrix s j) (k : ℕ) (d : ℕ → Fin M.matrix.length → ℝ) (hd : ∀ k i, 0 ≤ d k i)
    (c : Fin M.matrix.length) : ∃ o ∈ (M.chain ρ).shown k, ∃ ts : Fin k → ℝ, (∀ i, 0 ≤ ts i) ∧
      M.runTimedLoop k (fun k => pad (d k)) c = .ok (asTrace (timedTrace o.1 ts o.2)) := by
  induction k generalizing d c with
  | zero =>
    exact ⟨(fun i => i.elim0, (M.chain ρ).labelling c), (CTMC.mem_shown _ _).2 ⟨fun i => i.elim0, c, rfl⟩, fun i => i.elim0, fun i => i.elim0, rfl⟩
  | succ k ih =>
    obtain ⟨j, e1, e2, -, -⟩ := M.next_spec h.wf h.full ρ h.ext c (h.nonneg c) (hp c) (pad (d 0))
    obtain ⟨o, ho, ts, h0, h1⟩ := ih (fun k => d (k+1)) (fun k i => hd (k+1) i) j
    rw [CTMC.mem_shown] at ho
    refine ⟨(Fin.cons ((M.chain ρ).labelling c) o.1, o.2), (CTMC.mem_shown _ _).2 ⟨fun i => ?_, ho.2⟩,
      Fin.cons (1 / (M.chain ρ).matrix c j * pad (d 0) j) ts, fun i => ?_, ?_⟩
    · exact Fin.cases ⟨c, rfl⟩ (fun i => ho.1 i) i
    · refine Fin.cases ?_ (fun i => h0 i) i
      rw [pad_fin]
      exact mul_nonneg (one_div_pos.2 e2).le (hd 0 j)
    · simp only [runTimedLoop, e1, Bind.bind, Except.bind, h1, timedTrace, asTrace, List.map_cons]
      rfl

theorem measurable_runTimed (h : M.Sim ρ) (hp : ∀ s, ∃ j, 0 < (M.chain ρ).matrix s j) {k : ℕ} (o : (Fin k → String) × String) (A : Fin k → Set ℝ)
    (hA : ∀ i, MeasurableSet (A i)) :
    MeasurableSet (boxSet (fun p : ℝ × (ℕ → Fin M.matrix.length → ℝ) => M.runTimed k p.1 (fun k => pad (p.2 k))) (fun os ts last => asTrace (timedTrace os ts last)) o A) := by
  have e : boxSet (fun p : ℝ × (ℕ → Fin M.matrix.length → ℝ) => M.runTimed k p.1 (fun k => pad (p.2 k))) (fun os ts last => asTrace (timedTrace os ts last)) o A
      = ⋃ i, {r | pick (M.chain ρ).initialState r = .ok i} ×ˢ M.timedSet o.1 A o.2 i := by
    ext p
    simp only [boxSet, Set.mem_ofPred_eq, runTimed, timedSet, Set.mem_iUnion, Set.mem_prod]
    constructor
    · rintro ⟨ts, hts, hr⟩
      rw [Except.bind_eq_ok] at hr
      obtain ⟨k, hk, h2⟩ := hr
      obtain ⟨i, rfl, hi⟩ := (initial_iff h.wf _ _).1 hk
      exact ⟨i, hi, ts, hts, h2⟩
    · rintro ⟨i, hi, ts, hts, h2⟩
      refine ⟨ts, hts, ?_⟩
      rw [Except.bind_eq_ok]
      exact ⟨i, (initial_iff h.wf _ _).2 ⟨i, rfl, hi⟩, h2⟩
  rw [e]
  exact MeasurableSet.iUnion (fun i => (measurable_pick _ i).prod (measurable_timedSet h hp o.1 A hA o.2 i))

theorem timedRun (h : M.Sim ρ) (hp : ∀ s, ∃ j, 0 < (M.chain ρ).matrix s j) (h0 : ∀ x ∈ M.initialState, 0 ≤ x) (h1 : M.initialState.sum = 1) (k : ℕ) :
    TimedRun (simLaw M.matrix.length) (fun p => M.runTimed k p.1 (fun k => pad (p.2 k))) (fun os ts last => asTrace (timedTrace os ts last))
      ((M.chain ρ).shown k) where
  inj := fun o o' ts ts' e => timedTrace_inj o o' ts ts' (asTrace_injective e)
  meas := fun o A hA => measurable_runTimed h hp o A hA
  total := by
    have u1 : ∀ᵐ r ∂uniform, ∃ c, pick (M.chain ρ).initialState r = .ok c ∧ 0 < (M.chain ρ).initialState c := by
      have : ∀ᵐ r ∂uniform, r ∈ Set.Ico (0:ℝ) 1 := ae_restrict_mem measurableSet_Ico
      filter_upwards [this] with r hr
      exact pick_total _ (fun s => run_law_partial.initial_nonneg h.wf h0 s) (by rw [run_law_partial.initial_sum h.wf, h1]) r hr.1 hr.2
    have q1 : Measure.QuasiMeasurePreserving Prod.fst (simLaw M.matrix.length) uniform := Measure.quasiMeasurePreserving_fst
    filter_upwards [q1.ae u1, draws_nonneg M.matrix.length] with p b1 b2
    obtain ⟨c, hc, -⟩ := b1
    obtain ⟨o, ho, ts, e1, e2⟩ := run_timedTrace h hp k p.2 b2 c
    refine ⟨o, ho, ts, e1, ?_⟩
    unfold runTimed
    rw [(initial_iff h.wf _ _).2 ⟨c, rfl, hc⟩]
    exact e2

end PCTMC
end Jajapy
