import Verif.Props.FinishOthers
import Verif.Props.FinishEx

/-!
C80: concrete cases.
-/

namespace Jajapy

open Finset Spec BW Files Spec.Storm Tools Create

/-! ### Alergia and IOAlergia -/

/-- Hypotheses of `Alergia.call_storm_generates_partial`. -/
example : ∃ Z, Alergia.call ℝ Alergia.same false true Alergia.exSet = .ok (some (.inr Z)) ∧
    ∀ t ∈ Alergia.exSet.sequences, ∃ k < Z.states.length, Spec.Storm.labels Z k = ["init"] ∧ 0 < prob Z k (Spec.Alergia.withInit t) :=
  Alergia.call_storm_generates_partial Alergia.same Alergia.exSet Alergia.exSet_countable Alergia.exSet_labels Alergia.exSet_first
    (by unfold Spec.Alergia.Labels; decide +kernel) Alergia.same_total

/-- Hypothesis of `Alergia.call_eq` and `Alergia.call_prism_error`. -/
example (storm : Bool) : Alergia.call ℝ Alergia.same true storm Alergia.exSet = .error .attributeError := by
  obtain ⟨states, M, h, _⟩ := Alergia.fit_generates_partial (K := ℝ) Alergia.exSet Alergia.exSet_countable Alergia.exSet_labels Alergia.exSet_first Alergia.same Alergia.same_total
  exact Alergia.call_prism_error _ _ storm h

/-- Hypotheses of `IOAlergia.call_returns`. -/
example : ∃ red, ∃ M : MDP ℝ String (red.length + 1), M.Stochastic ∧ IOAlergia.call ℝ IOAlergia.half false false IOAlergia.sampleCounts = .ok (some (.inl ⟨red, M⟩)) := by
  obtain ⟨red, M, _, h2, h3, _⟩ := IOAlergia.call_returns IOAlergia.half IOAlergia.sampleCounts IOAlergia.sampleCounts_training IOAlergia.half_total ⟨_, List.mem_cons_self, by decide⟩
  exact ⟨red, M, h2, h3⟩

/-- Hypotheses of `IOAlergia.call_prism_error`. -/
example (storm : Bool) : IOAlergia.call ℝ IOAlergia.half true storm IOAlergia.sampleCounts = .error .attributeError :=
  IOAlergia.call_prism_error IOAlergia.half IOAlergia.sampleCounts IOAlergia.sampleCounts_training IOAlergia.half_total ⟨_, List.mem_cons_self, by decide⟩ storm

/-! ### Active learning -/

namespace Active

/-- `walk` is deterministic: an MDP with the same actions, labels, initial distribution, impossible transitions and possible actions is `walk`. -/
theorem walk_only (M : MDP ℝ String 2) (h1 : M.actions = walk.actions) (h2 : M.labelling = walk.labelling) (h3 : M.initialState = walk.initialState)
    (h4 : ∀ s x s', walk.prob s x s' = 0 → M.prob s x s' = 0) (h5 : ∀ s x, ∑ s', M.prob s x s' = ∑ s', walk.prob s x s') : M = walk := by
  obtain ⟨acts, mat, lab, ini⟩ := M
  simp only at h1 h2 h3
  subst h1 h2 h3
  have hp : ∀ (s i s' : Fin 2), (⟨walk.actions, mat, walk.labelling, walk.initialState⟩ : MDP ℝ String 2).prob s (["go", "stay"][i]) s' = mat s i s' :=
    fun s i s' => MDP.prob_getElem (⟨walk.actions, mat, walk.labelling, walk.initialState⟩ : MDP ℝ String 2) (by show walk.actions.Nodup; decide) s i s'
  have : mat = walk.matrix := by
    funext s i s'
    change Fin 2 at i
    have z : ∀ (s i s' : Fin 2), walk.matrix s i s' = 0 → mat s i s' = 0 := fun s i s' h => by
      rw [← hp]
      exact h4 _ _ _ (by rw [walk_prob]; exact h)
    have t : ∀ (s i : Fin 2), mat s i 0 + mat s i 1 = walk.matrix s i 0 + walk.matrix s i 1 := fun s i => by
      have := h5 s (["go", "stay"][i])
      simpa only [Fin.sum_univ_two, hp, walk_prob] using this
    have z00 := z 0 0 0 rfl
    have z01 := z 0 1 1 rfl
    have z10 := z 1 0 0 rfl
    have z11 := z 1 1 0 rfl
    have z12 := z 1 1 1 rfl
    have t00 := t 0 0
    have t01 := t 0 1
    have t10 := t 1 0
    simp only [walk, Matrix.cons_val_zero, Matrix.cons_val_one] at t00 t01 t10
    fin_cases s <;> fin_cases i <;> fin_cases s' <;> simp [walk] <;> first | assumption | linarith
  subst this
  rfl

theorem walk_learns (S : TSet String) (ho : ∀ w ∈ S.sequences, w.length % 2 = 1) (ht : ∀ t ∈ S.times, 1 ≤ t) (hl : S.times.length = S.sequences.length)
    (hw : ["init", "stay", "init", "go", "a"] ∈ S.sequences) (maxIt : ℕ) : ∃ st, BW.fit (stepMDP 2 S) (1/100) maxIt walk = .ok st ∧ st.h = walk := by
  have hn : walk.actions.Nodup := by decide
  obtain ⟨st, hst⟩ := walk.fit_total 2 (by norm_num) S (1/100) maxIt hn walk_stochastic ho hl ht _ hw (by rw [walk_lik]; norm_num)
  obtain ⟨s0, s1, s2, s3⟩ := MDP.fit_structure _ _ _ _ _ hn ho _ hst
  exact ⟨st, hst, walk_only _ s0 s1 s2 s3 (MDP.fit_stochastic _ _ _ _ _ hn walk_stochastic ho _ hst).2⟩

/-- A new trace, sampled in each of two rounds. -/
def walkNew : TSet String := ⟨[["init", "go", "a", "go", "a"]], [1], false, some 1⟩

def walkSamples : List (MDP ℝ String 2 → TSet String → Py (TSet String)) := [fun _ _ => .ok walkNew, fun _ _ => .ok walkNew]

def walkTotal (k : ℕ) : TSet String := ⟨[["init", "stay", "init", "go", "a"], ["init", "go", "a", "go", "a"]], [2, k], false, some 1⟩

theorem walkSamples_ok : Samples walkSamples := by
  intro f hf M S T hT
  have : f = fun _ _ => .ok walkNew := by simpa [walkSamples] using hf
  subst this
  injection hT with hT
  subst hT
  refine ⟨⟨⟨rfl, by decide⟩, by decide, rfl⟩, rfl, by decide⟩

theorem walk_learn (k m : ℕ) : learn 2 (1/100) (k + 1) (m + 1) (.const 0) walkSamples walk walkSet = .ok ⟨[walk], 0, walkTotal 2⟩ := by
  obtain ⟨st0, h0, e0⟩ := walk_learns walkSet (by decide) (by decide) (by decide) (by decide) (k + 1)
  obtain ⟨st1, h1, e1⟩ := walk_learns (walkTotal 1) (by decide) (by decide) (by decide) (by decide) (m + 1)
  obtain ⟨st2, h2, e2⟩ := walk_learns (walkTotal 2) (by decide) (by decide) (by decide) (by decide) (m + 1)
  have a1 : walkSet.addSet walkNew = .ok (walkTotal 1) := by decide +kernel
  have a2 : (walkTotal 1).addSet walkNew = .ok (walkTotal 2) := by decide +kernel
  have t0 : (BW.fit (stepMDP 2 walkSet) (1/100) (k + 1) walk).map (·.h) = .ok walk := by rw [h0, ← e0]; rfl
  have t1 : (BW.fit (stepMDP 2 (walkTotal 1)) (1/100) (m + 1) walk).map (·.h) = .ok walk := by rw [h1, ← e1]; rfl
  have t2 : (BW.fit (stepMDP 2 (walkTotal 2)) (1/100) (m + 1) walk).map (·.h) = .ok walk := by rw [h2, ← e2]; rfl
  unfold learn fit superFit
  simp only [List.getElem?_cons_zero, t0]
  unfold walkSamples
  show rounds _ _ [_, _] ⟨[walk], 0, walkSet⟩ = _
  have r1 : round (fun S M => (BW.fit (BW.stepMDP 2 S) (1/100) (m + 1) M).map (·.h)) (fun _ _ => .ok walkNew) (.const 0) ⟨[walk], 0, walkSet⟩ = .ok ⟨[walk], 0, walkTotal 1⟩ := by
    unfold round superFit
    simp only [List.getElem?_cons_zero, bind, Except.bind, a1, t1, if_true]
    rfl
  have r2 : round (fun S M => (BW.fit (BW.stepMDP 2 S) (1/100) (m + 1) M).map (·.h)) (fun _ _ => .ok walkNew) (.const 0) ⟨[walk], 0, walkTotal 1⟩ = .ok ⟨[walk], 0, walkTotal 2⟩ := by
    unfold round superFit
    simp only [List.getElem?_cons_zero, bind, Except.bind, a2, t2, if_true]
    rfl
  simp only [rounds, r1, r2, bind, Except.bind]

/-- Hypotheses of `call_file`, `call_prism_partial` and `call_returns_partial`. -/
example (printable : Char → Bool) (cpus k m : ℕ) : ∃ t t' P start x Z,
    (callBW printable realIO "m".toList cpus ⟨true, true, true, false⟩ 2 (1/100) (k + 1) (m + 1) (.const 0) walkSamples walk walkSet).file = some t ∧
    loadMDP realIO t = .ok ("m".toList, ⟨2, walk⟩) ∧
    (callBW printable realIO "m".toList cpus ⟨true, true, true, false⟩ 2 (1/100) (k + 1) (m + 1) (.const 0) walkSamples walk walkSet).prism = some t' ∧
    Spec.Prism.readPrism realIO.parse (Spec.Prism.literal realIO.parse) t' = some P ∧
    Spec.Prism.Describes P .mdp start (Spec.Prism.mdpChoices walk) walk.labelling ∧
    (callBW printable realIO "m".toList cpus ⟨true, true, true, false⟩ 2 (1/100) (k + 1) (m + 1) (.const 0) walkSamples walk walkSet).result = .ok x ∧
    x.model = .inr Z ∧ ∀ (s : Fin 2) (a : Fin 2) (s' : Fin 2), value Z s a s' = walk.matrix s a s' := by
  have hn : walk.actions.Nodup := by decide
  have ho : ∀ w ∈ walkSet.sequences, w.length % 2 = 1 := by decide
  have hi : ∃ s, walk.initialState s = 1 := ⟨0, rfl⟩
  have hm : ∀ i a j, realIO.dom (walk.matrix i a j) := by
    intro i a j
    change Fin 2 at a
    fin_cases i <;> fin_cases a <;> fin_cases j <;> first | exact realIO_one | exact realIO_zero
  have h := walk_learn k m
  obtain ⟨M1, a0, a1, _⟩ := call_file (printable := printable) (IO := realIO) (cpus := cpus) (o := ⟨true, true, true, false⟩) walkSamples_ok _ _ _ walk_mk hn walk_stochastic ho (Nat.succ_pos k) (Nat.succ_pos m) (fun _ => hi)
    (name := "m".toList) (by constructor <;> decide) h
  obtain rfl : walk = M1 := by simpa using a0
  obtain ⟨t, a1, a2⟩ := a1 hm (by intro s; fin_cases s; exacts [realIO_one, realIO_zero]) rfl
  obtain ⟨M2, b0, b1⟩ := call_prism_partial (printable := printable) (IO := realIO) (cpus := cpus) (o := ⟨true, true, true, false⟩) walkSamples_ok hn walk_stochastic ho (Nat.succ_pos k) (Nat.succ_pos m) hi
    (name := "m".toList) (by decide) realIO_decimal (by
      intro a ha
      simp only [walk, List.mem_cons, List.not_mem_nil, or_false] at ha
      rcases ha with rfl | rfl <;> decide) (by
      intro s; fin_cases s
      · intro h; exact absurd rfl h
      · intro _; show Spec.Prism.IsName "a".toList; decide) rfl h
  obtain rfl : walk = M2 := by simpa using b0
  obtain ⟨t', P, start, b1, b2, _, _, b3⟩ := b1 hm
  obtain ⟨M3, x, c0, c1, _, _, c2⟩ := call_returns_partial (printable := printable) (IO := realIO) (cpus := cpus) (o := ⟨true, true, true, false⟩) (name := "m".toList)
    walkSamples_ok hn walk_stochastic ho (Nat.succ_pos k) (Nat.succ_pos m) (fun _ => hi) rfl h
  obtain rfl : walk = M3 := by simpa using c0
  obtain ⟨Z, c2, _, _, _, c3⟩ := c2 rfl
  exact ⟨t, t', P, start, x, Z, a1, a2, b1, b2, b3, c1, c2, c3⟩

/-- Hypotheses of `call_data`. -/
example (printable : Char → Bool) (IO : FloatIO ℝ) (k m : ℕ) : ∃ x,
    (callBW printable IO "m".toList 4 ⟨false, false, false, true⟩ 2 (1/100) (k + 1) (m + 1) (.const 0) walkSamples walk walkSet).result = .ok x ∧
    x.model = .inl walk ∧ x.ll = some (avgLogLik walk.lik (walkTotal 2)) := by
  obtain ⟨M1, x, a0, a1, a2, a3, _⟩ := call_data (printable := printable) (IO := IO) (cpus := 4) (o := ⟨false, false, false, true⟩) (name := "m".toList) walkSamples_ok (by decide)
    walk_stochastic ⟨⟨rfl, by decide⟩, by decide, rfl⟩ (by decide) rfl (by decide) (Nat.succ_pos k) (Nat.succ_pos m) (fun h => by cases h) rfl rfl (by norm_num) (walk_learn k m)
  obtain rfl : walk = M1 := by simpa using a0
  exact ⟨x, a1, a2, a3⟩

/-- Hypotheses of `call_data_error`. -/
example (printable : Char → Bool) (IO : FloatIO ℝ) (k m : ℕ) :
    (callBW printable IO "m".toList 4 ⟨false, false, true, true⟩ 2 (1/100) (k + 1) (m + 1) (.const 0) walkSamples walk walkSet).result = .error .attributeError :=
  call_data_error walkSamples_ok (by decide) walk_stochastic (by decide) (Nat.succ_pos k) (Nat.succ_pos m) (fun h => by cases h) rfl rfl (walk_learn k m)

/-- Hypotheses of `call_prism_raises`: two initial states. -/
example : ∃ M : MDP ℝ String 2, M.actions.Nodup ∧ (∀ w ∈ walkSet.sequences, w.length % 2 = 1) ∧ ∀ s, M.initialState s ≠ 1 :=
  ⟨{ walk with labelling := ![ "init", "init"], initialState := ![1/2, 1/2] }, by show (["go", "stay"]).Nodup; decide, by decide,
    by intro s; fin_cases s <;> simp⟩

/-- Hypotheses of `sampled_length`. -/
example : sequenceLength none walkSet = .ok 2 ∧ walkSet.sequences = [["init", "stay", "init", "go", "a"]] := ⟨rfl, rfl⟩

end Active
end Jajapy
