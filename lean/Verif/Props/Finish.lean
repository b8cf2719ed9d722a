import Verif.Model.Finish
import Verif.Props.BWLearn
import Verif.Props.BWLearnHMM
import Verif.Props.BWMDP
import Verif.Props.BWCTMC
import Verif.Props.BWGoHMM
import Verif.Props.ModelFiles
import Verif.Props.PrismRound
import Verif.Props.Storm

/-!
C79: what `fit` writes and returns is the learnt model.
-/

set_option linter.unusedSectionVars false

namespace Jajapy

open Finset Spec BW Files Spec.Storm Tools Create

/-! ### The end of `_bw` -/

section
variable {H R : Type} (save : H → List Char) (savePrism : H → Py (List Char)) (convert : H → Py R) (chain : Bool) (o : Options)
  (step : H → Py (H × ℝ)) (epsilon : ℝ) (maxIt : ℕ) (h : H)

theorem call_eq {st : LoopState H} (hst : fit step epsilon maxIt h = .ok st) :
    call save savePrism convert chain o step epsilon maxIt h = finish save savePrism convert chain o st := by
  unfold call
  rw [hst]

theorem finish_file (st : LoopState H) : (finish save savePrism convert chain o st).file = if o.file then some (save st.h) else none := by
  unfold finish
  dsimp only
  split_ifs <;> try rfl
  all_goals cases savePrism st.h <;> rfl

theorem finish_prism (st : LoopState H) : (finish save savePrism convert chain o st).prism =
    if o.prism && chain then (savePrism st.h).toOption else none := by
  unfold finish
  dsimp only
  split_ifs <;> try rfl
  all_goals cases savePrism st.h <;> rfl

theorem finish_result {st : LoopState H} (hp : o.prism = true → chain = true → ∃ t, savePrism st.h = .ok t) :
    (finish save savePrism convert chain o st).result = finishStorm convert chain o st := by
  unfold finish
  by_cases h : (o.prism && chain) = true
  · rw [if_pos h]
    rw [Bool.and_eq_true] at h
    obtain ⟨t, ht⟩ := hp h.1 h.2
    rw [ht]
  · rw [if_neg h]

/-- The loop has run at least once. -/
theorem loop_ll {fuel : ℕ} {st st' : LoopState H} (hst : loop step epsilon fuel st = .ok st') (h : st.ll.isSome ∨ 0 < fuel) : st'.ll.isSome := by
  induction fuel generalizing st with
  | zero =>
    rw [loop_zero] at hst
    injection hst with hst
    subst hst
    simpa using h
  | succ fuel ih =>
    cases hs : step st.h with
    | error e =>
      unfold loop at hst
      rw [hs] at hst
      cases hst
    | ok r =>
      rw [loop_succ _ _ _ _ r.1 r.2 hs] at hst
      split_ifs at hst
      · injection hst with hst
        subst hst
        rfl
      · exact ih hst (Or.inl rfl)

theorem fit_ll {st : LoopState H} (hst : fit step epsilon maxIt h = .ok st) (hm : 0 < maxIt) : ∃ ll, st.ll = some ll :=
  Option.isSome_iff_exists.1 (loop_ll step epsilon hst (Or.inr hm))

theorem fit_no_ll {st : LoopState H} (hst : fit step epsilon 0 h = .ok st) : st.ll = none := by
  unfold fit at hst
  rw [loop_zero] at hst
  injection hst with hst
  subst hst
  rfl

/-- C79: the results of a call, for any model class. The hypothesis on `savePrism` and the one on `max_it` cannot be dropped. -/
theorem call_result {st : LoopState H} (hst : fit step epsilon maxIt h = .ok st) (hp : o.prism = true → chain = true → ∃ t, savePrism st.h = .ok t)
    (hd : o.data = true → 0 < maxIt) (r : R) (hr : chain = true → convert st.h = .ok r) :
    ∃ x, (call save savePrism convert chain o step epsilon maxIt h).result = .ok x ∧
      x.model = (if o.storm = true ∧ chain = true then .inr r else .inl st.h) ∧
      (o.data = false → x.info = none) ∧ (o.data = true → ∃ ll, st.ll = some ll ∧ x.info = some (st.counter, ll)) := by
  rw [call_eq _ _ _ _ _ _ _ _ _ hst, finish_result _ _ _ _ _ hp]
  have key : ∀ m : H ⊕ R, ∃ x, returned o.data st m = .ok x ∧ x.model = m ∧
      (o.data = false → x.info = none) ∧ (o.data = true → ∃ ll, st.ll = some ll ∧ x.info = some (st.counter, ll)) := by
    intro m
    unfold returned
    cases hdt : o.data with
    | false => exact ⟨_, rfl, rfl, fun _ => rfl, fun h => by cases h⟩
    | true =>
      obtain ⟨ll, hll⟩ := fit_ll _ _ _ _ hst (hd hdt)
      rw [hll]
      exact ⟨_, rfl, rfl, fun h => (by cases h), fun _ => ⟨ll, rfl, rfl⟩⟩
  unfold finishStorm
  by_cases hs : o.storm = true ∧ chain = true
  · rw [if_pos (by rw [Bool.and_eq_true]; exact hs), hr hs.2, if_pos hs]
    exact key (.inr r)
  · rw [if_neg (by rw [Bool.and_eq_true]; exact hs), if_neg hs]
    exact key (.inl st.h)

/-- C79, violation: with `max_it=0` and `return_data=True` the call raises an UnboundLocalError. -/
theorem call_no_iteration (hd : o.data = true) : ∃ e, (call save savePrism convert chain o step epsilon 0 h).result = .error e := by
  have hst : fit step epsilon 0 h = .ok ⟨h, 0, none⟩ := by unfold fit; rw [loop_zero]
  rw [call_eq _ _ _ _ _ _ _ _ _ hst]
  have key : ∃ e, finishStorm convert chain o ⟨h, 0, none⟩ = .error e := by
    have hr : ∀ m : H ⊕ R, returned o.data ⟨h, 0, none⟩ m = .error .unboundLocalError := by
      intro m
      unfold returned
      rw [if_pos hd]
    unfold finishStorm
    by_cases hc : (o.storm && chain) = true
    · rw [if_pos hc]
      dsimp only
      cases convert h with
      | error e => exact ⟨e, rfl⟩
      | ok r => exact ⟨_, hr _⟩
    · rw [if_neg hc]
      exact ⟨_, hr _⟩
  obtain ⟨e, he⟩ := key
  unfold finish
  by_cases hc : (o.prism && chain) = true
  · rw [if_pos hc]
    cases savePrism h with
    | error e => exact ⟨e, rfl⟩
    | ok t => exact ⟨e, he⟩
  · rw [if_neg hc]
    exact ⟨e, he⟩

end

variable (printable : Char → Bool) (IO : FloatIO ℝ) {n : ℕ}

/-! ### Storm models -/

theorem listProb_cast {K O : Type} [Field K] {N n : ℕ} (h : N = n) (π : Fin n → K) (a : Fin n → Fin n → K) (b : Fin n → O → K) :
    listProb (fun s : Fin N => π (s.cast h)) (fun s s' => a (s.cast h) (s'.cast h)) (fun s => b (s.cast h)) = listProb π a b := by
  subst h
  rfl

theorem name_single {l : String} (h : l ≠ "deadlock") : name [l] = l := by
  rw [← (Storm.labelOf_eq (l := [l]) (by simp)).1, Storm.labelOf_single h]

/-- The trace probabilities of the Storm model are those of the chain. -/
theorem prob_ofMC (M : MC ℝ String n) (k : Fin n) (hk : ∀ s, M.initialState s = if s = k then 1 else 0) (hd : ∀ s, M.labelling s ≠ "deadlock")
    (w : List String) : prob (Storm.ofMC M) k w = M.lik w := by
  obtain ⟨hlen, hV, h1, hlab, _⟩ := Storm.ofMC_spec M
  unfold prob MC.lik
  rw [← listProb_cast hlen]
  congr 1
  · funext s
    rw [hk]
    congr 1
    rw [eq_iff_iff]
    constructor
    · intro h; exact Fin.ext h
    · intro h; exact congrArg Fin.val h
  · funext s s'
    rw [Storm.value_eq hV h1 s.2]
    have : Storm.row (Storm.ofMC M) s = Storm.sparseRow (M.matrix (s.cast hlen)) := by
      have hs : s.val < n := by have := s.2; omega
      simp [Storm.row, Storm.ofMC, hs]
      rfl
    rw [this]
    exact Storm.denseRow_sparseRow _ (s'.cast hlen)
  · funext s x
    have := hlab (s.cast hlen)
    rw [show ((s.cast hlen : Fin n) : ℕ) = s.val from rfl] at this
    rw [this, name_single (hd _)]

theorem save_ok {K : Type} [Field K] [LinearOrder K] (kind name : List Char) (init : Fin n → K) (c : List Char) (l : List String) (h : ∃ s, init s = 1) :
    ∃ t, Prism.savePrismText kind name (List.ofFn init) c l = .ok t := by
  obtain ⟨i, hi⟩ := Prism.initialIndex_ok init h
  unfold Prism.savePrismText
  rw [hi]
  exact ⟨_, rfl⟩

/-! ### Markov chains -/

section
variable (matrix : Fin n → Fin n → ℝ) (lab : List String) (M : MC ℝ String n) (name : List Char) (o : Options) (processes : ℕ) (S : TSet String)
  (epsilon : ℝ) (maxIt : ℕ) (st : LoopState (MC ℝ String n))

theorem MC.learnt_ok (hM : mkMC matrix lab = .ok M) (hS : M.Stochastic) (hst : fit (stepMC processes S) epsilon maxIt M = .ok st) :
    mkMC st.h.matrix lab = .ok st.h := by
  obtain ⟨a, b, _, _, e⟩ := (mkMC_ok_iff _ _ _).1 hM
  obtain ⟨s1, s2, _⟩ := MC.fit_structure _ _ _ _ _ _ hst
  have hS' := MC.fit_stochastic _ _ _ _ _ hS _ hst
  refine (mkMC_ok_iff _ _ _).2 ⟨a, b, fun i => Or.inl ?_, rfl, ?_⟩
  · rw [hS'.2.2.2 i]
    norm_num
  · rw [s1, s2]
    exact e

/-- C79, MC: the file given by `output_file` is loaded back as the learnt chain; without `output_file` there is no file. The numbers of the learnt chain are
supposed to be floats. -/
theorem MC.call_file (hM : mkMC matrix lab = .ok M) (hS : M.Stochastic) (hst : fit (stepMC processes S) epsilon maxIt M = .ok st) (hn : OneLine name)
    (hm : ∀ i j, IO.dom (st.h.matrix i j)) (hi : ∀ s, IO.dom (st.h.initialState s)) :
    (o.file = true → ∃ t, (callMC printable IO name o processes S epsilon maxIt M).file = some t ∧ loadMC IO t = .ok (name, ⟨n, st.h⟩)) ∧
    (o.file = false → (callMC printable IO name o processes S epsilon maxIt M).file = none) := by
  unfold callMC
  rw [call_eq _ _ _ _ _ _ _ _ _ hst, finish_file]
  constructor
  · intro h
    rw [if_pos h]
    exact ⟨_, rfl, loadMC_saveMC printable IO _ lab _ (MC.learnt_ok _ _ _ _ _ _ _ _ hM hS hst) name hn hm hi⟩
  · intro h
    rw [h]
    rfl

/-- C79, MC: the file given by `output_file_prism` is a Prism program for the learnt chain. -/
theorem MC.call_prism_partial (hS : M.Stochastic) (hst : fit (stepMC processes S) epsilon maxIt M = .ok st) (hn : Spec.Prism.IsName name)
    (hIO : ∀ x, IO.dom x → 0 < x → Prism.Decimal (IO.repr x)) (hm : ∀ i j, IO.dom (st.h.matrix i j))
    (hl : ∀ s, M.labelling s ≠ "init" → Spec.Prism.IsName (M.labelling s).toList) (hi : ∃ s, M.initialState s = 1) (hp : o.prism = true) :
    ∃ t P start, (callMC printable IO name o processes S epsilon maxIt M).prism = some t ∧
      Spec.Prism.readPrism IO.parse (Spec.Prism.literal IO.parse) t = some P ∧ P.name = name ∧ M.initialState start = 1 ∧
      Spec.Prism.Describes P .dtmc start (Spec.Prism.chainChoices st.h.matrix) M.labelling := by
  obtain ⟨s1, s2, _⟩ := MC.fit_structure _ _ _ _ _ _ hst
  have hS' := MC.fit_stochastic _ _ _ _ _ hS _ hst
  obtain ⟨t, P, start, h1, h2, h3, h4, h5⟩ := Prism.saveMC_describes IO hIO st.h hn (by rw [s1]; exact hl) (fun i j => ⟨hS'.2.2.1 i j, hm i j⟩) (by rw [s2]; exact hi)
  refine ⟨t, P, start, ?_, h2, h3, by rw [← s2]; exact h4, by rw [← s1]; exact h5⟩
  unfold callMC
  rw [call_eq _ _ _ _ _ _ _ _ _ hst, finish_prism, if_pos (by rw [hp]; rfl), h1]
  rfl

/-- C79, violation: with `output_file_prism`, if no state has the initial probability 1, the call raises an exception after the learning, whatever the training
set and the other options: nothing is returned. -/
theorem MC.call_prism_raises (hi : ∀ s, M.initialState s ≠ 1) (hp : o.prism = true) :
    ∃ e, (callMC printable IO name o processes S epsilon maxIt M).result = .error e := by
  unfold callMC
  cases hst : fit (stepMC processes S) epsilon maxIt M with
  | error e => exact ⟨e, by unfold call; rw [hst]⟩
  | ok st =>
    obtain ⟨_, s2, _⟩ := MC.fit_structure _ _ _ _ _ _ hst
    refine ⟨.indexError, ?_⟩
    rw [call_eq _ _ _ _ _ _ _ _ _ hst]
    unfold finish
    rw [if_pos (by rw [hp]; rfl)]
    dsimp only
    rw [Prism.save_no_initial IO st.h (by rw [s2]; exact hi)]

/-- C79, MC: the call returns the learnt chain, or a Storm model that is converted back to the learnt chain and gives the same probability to every trace.
(Missing: see `MC.call_prism_raises`, `call_no_iteration` and `Storm.deadlock_lost`.) -/
theorem MC.call_returns_partial (hM : mkMC matrix lab = .ok M) (hS : M.Stochastic) (hst : fit (stepMC processes S) epsilon maxIt M = .ok st)
    (hp : o.prism = true → ∃ s, M.initialState s = 1) (hd : o.data = true → 0 < maxIt) (hl : ∀ s, M.labelling s ≠ "deadlock") :
    ∃ x, (callMC printable IO name o processes S epsilon maxIt M).result = .ok x ∧ (o.storm = false → x.model = .inl st.h) ∧
      (o.storm = true → ∃ Z, x.model = .inr Z ∧ Storm.toMC Z = .ok ⟨n, st.h⟩ ∧
        ∀ k, (∀ s, M.initialState s = if s = k then 1 else 0) → ∀ w, prob Z k w = st.h.lik w) ∧
      (o.data = false → x.info = none) ∧ (o.data = true → ∃ ll, st.ll = some ll ∧ x.info = some (st.counter, ll)) := by
  obtain ⟨s1, s2, _⟩ := MC.fit_structure _ _ _ _ _ _ hst
  obtain ⟨a, b, c, _, e⟩ := (mkMC_ok_iff _ _ _).1 (MC.learnt_ok _ _ _ _ _ _ _ _ hM hS hst)
  have hl' : ∀ s, st.h.labelling s ≠ "deadlock" := by rw [s1]; exact hl
  obtain ⟨x, h1, h2, h3⟩ := call_result (fun M => saveMC printable IO M name) (fun M => Prism.saveMC IO M name) (fun M => .ok (Storm.ofMC M)) true o
    (stepMC processes S) epsilon maxIt M hst (fun h _ => save_ok _ _ _ _ _ (by rw [s2]; exact hp h)) hd _ (fun _ => rfl)
  refine ⟨x, h1, fun h => by rw [h2, h]; rfl, fun h => ⟨_, by rw [h2, h]; rfl, ?_, ?_⟩, h3⟩
  · refine Storm.mc_round_trip_partial st.h ?_ c e.2 hl'
    obtain ⟨i, hi, hi'⟩ := List.mem_iff_getElem.1 a
    refine ⟨⟨i, b ▸ hi⟩, ?_⟩
    have := e.1 ⟨i, b ▸ hi⟩
    rw [Fin.getElem?_fin, List.getElem?_eq_getElem hi, hi'] at this
    exact (Option.some.inj this).symm
  · intro k hk w
    exact prob_ofMC st.h k (by rw [s2]; exact hk) hl' w

/-- C79, MC: the Storm model that `fit` returns by default gives the training set at least the likelihood of the initial model. -/
theorem MC.call_storm_monotone_partial (hM : mkMC matrix lab = .ok M) (hS : M.Stochastic) (hst : fit (stepMC processes S) epsilon maxIt M = .ok st)
    (hl : ∀ s, M.labelling s ≠ "deadlock") (k : Fin n) (hk : ∀ s, M.initialState s = if s = k then 1 else 0) (hne : ∀ w ∈ S.sequences, w ≠ [])
    (hlen : S.times.length = S.sequences.length) (ht : ∀ t ∈ S.times, 1 ≤ t) :
    ∃ x Z, (callMC printable IO name ⟨false, false, true, false⟩ processes S epsilon maxIt M).result = .ok x ∧ x.model = .inr Z ∧
      avgLogLik M.lik S ≤ avgLogLik (prob Z k) S := by
  obtain ⟨x, h1, _, h2, _⟩ := MC.call_returns_partial printable IO matrix lab M name ⟨false, false, true, false⟩ processes S epsilon maxIt st hM hS hst
    (fun h => by cases h) (fun h => by cases h) hl
  obtain ⟨Z, h3, _, h4⟩ := h2 rfl
  refine ⟨x, Z, h1, h3, ?_⟩
  rw [show prob Z k = st.h.lik from funext (h4 k hk)]
  exact MC.fit_monotone _ _ _ _ _ hS hne hlen ht _ hst

end

/-! ### Markov decision processes -/

theorem value_ofMDP (M : MDP ℝ String n) (s : Fin n) (a : Fin M.actions.length) (s' : Fin n) : value (Storm.ofMDP M) s a s' = M.matrix s a s' := by
  have h : ((Storm.ofMDP M).states[s.val]?.map (·.actions)).getD [] = List.ofFn (fun a => Storm.sparseRow (M.matrix s a)) := by simp [Storm.ofMDP]
  unfold value
  rw [h, List.getElem?_ofFn, dif_pos a.2]
  show (((Storm.sparseRow (M.matrix s a)).filter (fun q => q.1 = s'.val)).map (·.2)).sum = _
  rw [← Storm.denseRow_sum (Storm.nodup_sparseRow _), Storm.denseRow_sparseRow]

section
variable (actions : List String) (matrix : Fin n → Fin actions.length → Fin n → ℝ) (lab : List String) (M : MDP ℝ String n) (name : List Char) (o : Options)
  (processes : ℕ) (S : TSet String) (epsilon : ℝ) (maxIt : ℕ) (st : LoopState (MDP ℝ String n))

theorem MDP.learnt_ok (hM : mkMDP actions matrix lab = .ok M) (hn : M.actions.Nodup) (hS : M.Stochastic) (ho : ∀ w ∈ S.sequences, w.length % 2 = 1)
    (hst : fit (stepMDP processes S) epsilon maxIt M = .ok st) : mkMDP st.h.actions st.h.matrix lab = .ok st.h := by
  obtain ⟨a, b, _, _, e⟩ := (mkMDP_ok_iff _ _ _ _).1 hM
  obtain ⟨_, s1, s2, _⟩ := MDP.fit_structure _ _ _ _ _ hn ho _ hst
  have hS' := (MDP.fit_stochastic _ _ _ _ _ hn hS ho _ hst).1
  refine (mkMDP_ok_iff _ _ _ _).2 ⟨a, b, fun i x => ?_, ⟨rfl, fun _ _ _ => rfl⟩, ?_⟩
  · rcases hS'.2.2.2 i x with h | h
    · left
      rw [h]
      norm_num
    · right
      rw [h]
      norm_num
  · rw [s1, s2]
    exact e

/-- C79, MDP: the file given by `output_file`. -/
theorem MDP.call_file (hM : mkMDP actions matrix lab = .ok M) (hn : M.actions.Nodup) (hS : M.Stochastic) (ho : ∀ w ∈ S.sequences, w.length % 2 = 1)
    (hst : fit (stepMDP processes S) epsilon maxIt M = .ok st) (hname : OneLine name)
    (hm : ∀ i a j, IO.dom (st.h.matrix i a j)) (hi : ∀ s, IO.dom (st.h.initialState s)) :
    (o.file = true → ∃ t, (callMDP printable IO name o processes S epsilon maxIt M).file = some t ∧ loadMDP IO t = .ok (name, ⟨n, st.h⟩)) ∧
    (o.file = false → (callMDP printable IO name o processes S epsilon maxIt M).file = none) := by
  unfold callMDP
  rw [call_eq _ _ _ _ _ _ _ _ _ hst, finish_file]
  constructor
  · intro h
    rw [if_pos h]
    exact ⟨_, rfl, loadMDP_saveMDP printable IO _ _ lab _ (MDP.learnt_ok _ _ _ _ _ _ _ _ _ hM hn hS ho hst) name hname hm hi⟩
  · intro h
    rw [h]
    rfl

/-- C79, MDP: the file given by `output_file_prism`. -/
theorem MDP.call_prism_partial (hn : M.actions.Nodup) (hS : M.Stochastic) (ho : ∀ w ∈ S.sequences, w.length % 2 = 1)
    (hst : fit (stepMDP processes S) epsilon maxIt M = .ok st) (hname : Spec.Prism.IsName name)
    (hIO : ∀ x, IO.dom x → 0 < x → Prism.Decimal (IO.repr x)) (hm : ∀ i a j, IO.dom (st.h.matrix i a j)) (ha : ∀ a ∈ M.actions, Spec.Prism.IsName a.toList)
    (hl : ∀ s, M.labelling s ≠ "init" → Spec.Prism.IsName (M.labelling s).toList) (hi : ∃ s, M.initialState s = 1) (hp : o.prism = true) :
    ∃ t P start, (callMDP printable IO name o processes S epsilon maxIt M).prism = some t ∧
      Spec.Prism.readPrism IO.parse (Spec.Prism.literal IO.parse) t = some P ∧ P.name = name ∧ M.initialState start = 1 ∧
      Spec.Prism.Describes P .mdp start (Spec.Prism.mdpChoices st.h) M.labelling := by
  obtain ⟨s0, s1, s2, _⟩ := MDP.fit_structure _ _ _ _ _ hn ho _ hst
  have hS' := (MDP.fit_stochastic _ _ _ _ _ hn hS ho _ hst).1
  obtain ⟨t, P, start, h1, h2, h3, h4, h5⟩ := Prism.saveMDP_describes IO hIO st.h hname (by rw [s0]; exact ha) (by rw [s1]; exact hl)
    (fun i a j => ⟨hS'.2.2.1 i a j, hm i a j⟩) (by rw [s2]; exact hi)
  refine ⟨t, P, start, ?_, h2, h3, by rw [← s2]; exact h4, by rw [← s1]; exact h5⟩
  unfold callMDP
  rw [call_eq _ _ _ _ _ _ _ _ _ hst, finish_prism, if_pos (by rw [hp]; rfl), h1]
  rfl

/-- C79, violation: MDP: with `output_file_prism`, if no state has the initial probability 1, the call raises an exception after the learning, whatever the training
set and the other options: nothing is returned. -/
theorem MDP.call_prism_raises (hn : M.actions.Nodup) (ho : ∀ w ∈ S.sequences, w.length % 2 = 1) (hi : ∀ s, M.initialState s ≠ 1) (hp : o.prism = true) :
    ∃ e, (callMDP printable IO name o processes S epsilon maxIt M).result = .error e := by
  unfold callMDP
  cases hst : fit (stepMDP processes S) epsilon maxIt M with
  | error e => exact ⟨e, by unfold call; rw [hst]⟩
  | ok st =>
    obtain ⟨_, _, s2, _⟩ := MDP.fit_structure _ _ _ _ _ hn ho _ hst
    refine ⟨.indexError, ?_⟩
    rw [call_eq _ _ _ _ _ _ _ _ _ hst]
    unfold finish
    rw [if_pos (by rw [hp]; rfl)]
    dsimp only
    rw [Prism.save_no_initial_MDP IO st.h (by rw [s2]; exact hi)]

/-- C79, MDP: the call returns the learnt model, or a Storm model with the same states, labels and probabilities, where the choices of a state are the actions
in the order of the learnt model. (Missing: as for MCs, and the names of the actions, see `Storm.choices_unlabelled`.) -/
theorem MDP.call_returns_partial (hn : M.actions.Nodup) (ho : ∀ w ∈ S.sequences, w.length % 2 = 1)
    (hst : fit (stepMDP processes S) epsilon maxIt M = .ok st)
    (hp : o.prism = true → ∃ s, M.initialState s = 1) (hd : o.data = true → 0 < maxIt) :
    ∃ x, (callMDP printable IO name o processes S epsilon maxIt M).result = .ok x ∧ (o.storm = false → x.model = .inl st.h) ∧
      (o.storm = true → ∃ Z, x.model = .inr Z ∧ Z.states.length = n ∧ (∀ s : Fin n, labels Z s = [M.labelling s]) ∧ (∀ s ∈ Z.states, s.actions.length = M.actions.length) ∧
        ∀ (s : Fin n) (a : Fin st.h.actions.length) (s' : Fin n), value Z s a s' = st.h.matrix s a s') ∧
      (o.data = false → x.info = none) ∧ (o.data = true → ∃ ll, st.ll = some ll ∧ x.info = some (st.counter, ll)) := by
  obtain ⟨s0, s1, s2, _⟩ := MDP.fit_structure _ _ _ _ _ hn ho _ hst
  obtain ⟨x, h1, h2, h3⟩ := call_result (fun M => saveMDP printable IO M name) (fun M => Prism.saveMDP IO M name) (fun M => .ok (Storm.ofMDP M)) true o
    (stepMDP processes S) epsilon maxIt M hst (fun h _ => save_ok _ _ _ _ _ (by rw [s2]; exact hp h)) hd _ (fun _ => rfl)
  obtain ⟨k1, _, k2, k3, _⟩ := Storm.ofMDP_spec st.h
  refine ⟨x, h1, fun h => by rw [h2, h]; rfl, fun h => ⟨_, by rw [h2, h]; rfl, k1, ?_, ?_, value_ofMDP st.h⟩, h3⟩
  · rw [← s1]; exact k2
  · rw [← s0]; exact k3

end

/-! ### CTMCs -/

/-- A state that is left is still left after an iteration. -/
theorem newCT_exit (M : CTMC ℝ String n) (hM : M.Valid) (fixed : Fin n → Fin n → Bool) (S : TSet (Sym String)) (hw : WaitsNonneg S) (s : Fin n) (h : 0 < M.e s) :
    0 < (newCT M fixed S).e s := by
  have hV := newCT_valid M hM fixed S hw
  have hn := numCT_nonneg M hM S s
  suffices ∃ ss, 0 < (newCT M fixed S).matrix s ss by
    obtain ⟨ss, hss⟩ := this
    exact lt_of_lt_of_le hss (Finset.single_le_sum (f := fun j => (newCT M fixed S).matrix s j) (fun j _ => hV.2 s j) (Finset.mem_univ ss))
  by_cases h0 : denCT M S s = 0
  · obtain ⟨ss, _, hss⟩ := Finset.exists_lt_of_sum_lt (s := univ) (f := fun _ => (0 : ℝ)) (g := fun j => M.matrix s j) (by rw [Finset.sum_const_zero]; exact h)
    refine ⟨ss, ?_⟩
    simp only [newCT, h0, if_true]
    split_ifs <;> linarith
  · have hd : 0 < denCT M S s := lt_of_le_of_ne (denCT_nonneg M hM S hw s) (Ne.symm h0)
    rw [denCT_eq_sum] at h0
    obtain ⟨ss, _, hss⟩ := Finset.exists_ne_zero_of_sum_ne_zero h0
    have hnum : numCT M S s ss ≠ 0 := by
      intro hz
      apply hss
      unfold numCT at hz
      have hall : ∀ y ∈ (possCT M S).map (fun x => use M.rateStep M.initialState (M.lastMask x.1) (fun _ => 1) (x.2 / M.density x.1) (timedSteps x.1) s ss), y = 0 := by
        intro y hy
        refine List.all_zero_of_le_zero_le_of_sum_eq_zero ?_ hz hy
        intro y hy
        obtain ⟨x, _, rfl⟩ := List.mem_map.1 hy
        exact use_nonneg _ _ _ (M.rateStep_nonneg hM.2) hM.1 (M.lastMask_nonneg _) _ _
          (div_nonneg (Nat.cast_nonneg _) (M.density_nonneg hM _)) _ (fun _ _ => zero_le_one) _ _
      apply List.sum_eq_zero
      intro y hy
      obtain ⟨x, hx, rfl⟩ := List.mem_map.1 hy
      exact use_zero_of_one _ _ _ (M.rateStep_nonneg hM.2) hM.1 (M.lastMask_nonneg _) _
          (div_nonneg (Nat.cast_nonneg _) (M.density_nonneg hM _)) _ _ _ (hall _ (List.mem_map_of_mem hx)) _
    have hmat : 0 < M.matrix s ss := lt_of_le_of_ne (hM.2 s ss) (fun h => hnum (numCT_zero M S s ss h.symm))
    refine ⟨ss, ?_⟩
    simp only [newCT, if_neg hd.ne']
    split_ifs
    · exact hmat
    · exact div_pos (lt_of_le_of_ne (hn ss) (Ne.symm hnum)) hd

section
variable (matrix : Fin n → Fin n → ℝ) (lab : List String) (M : CTMC ℝ String n) (name : List Char) (o : Options)
  (processes : ℕ) (fixed : Fin n → Fin n → Bool) (S : TSet (Sym String)) (epsilon : ℝ) (maxIt : ℕ) (st : LoopState (CTMC ℝ String n))

/-- C79, CTMC: the learning makes no state absorbing, and no absorbing state leaves. -/
theorem CTMC.fit_exit (hM : M.Valid) (hS : TimedSet S) (hw : WaitsNonneg S) (hst : fit (stepTimed processes fixed S) epsilon maxIt M = .ok st) (s : Fin n) :
    st.h.e s = 0 ↔ M.e s = 0 := by
  constructor
  · intro h
    by_contra hne
    have h0 : M.Valid ∧ 0 < M.e s := ⟨hM, lt_of_le_of_ne (Finset.sum_nonneg (fun j _ => hM.2 s j)) (Ne.symm hne)⟩
    have := loop_invariant _ _ (fun M' : CTMC ℝ String n => M'.Valid ∧ 0 < M'.e s) ?_ _ _ _ h0 hst
    · exact absurd h this.2.ne'
    · rintro M1 M2 ll ⟨i1, i2⟩ hs
      obtain ⟨h1, _, _⟩ := stepTimed_ok _ _ _ _ _ _ hS hs
      subst h1
      exact ⟨newCT_valid M1 i1 fixed S hw, newCT_exit M1 i1 fixed S hw s i2⟩
  · intro h
    obtain ⟨_, _, s3⟩ := CTMC.fit_structure _ _ _ _ _ _ hS _ hst
    unfold CTMC.e at h ⊢
    have := (Finset.sum_eq_zero_iff_of_nonneg (fun j _ => hM.2 s j)).1 h
    exact Finset.sum_eq_zero (fun j hj => s3 s j (this j hj))

/-- C79, CTMC: the file given by `output_file`. -/
theorem CTMC.call_file (hM : mkCTMC matrix lab = .ok M) (hS : TimedSet S) (hst : fit (stepTimed processes fixed S) epsilon maxIt M = .ok st) (hn : OneLine name)
    (hm : ∀ i j, IO.dom (st.h.matrix i j)) (hi : ∀ s, IO.dom (st.h.initialState s)) :
    (o.file = true → ∃ t, (callCTMC printable IO name o processes fixed S epsilon maxIt M).file = some t ∧ loadCTMC IO t = .ok (name, ⟨n, st.h⟩)) ∧
    (o.file = false → (callCTMC printable IO name o processes fixed S epsilon maxIt M).file = none) := by
  obtain ⟨a, b, _, e⟩ := (mkCTMC_ok_iff _ _ _).1 hM
  obtain ⟨s1, s2, _⟩ := CTMC.fit_structure _ _ _ _ _ _ hS _ hst
  unfold callCTMC
  rw [call_eq _ _ _ _ _ _ _ _ _ hst, finish_file]
  constructor
  · intro h
    rw [if_pos h]
    exact ⟨_, rfl, loadCTMC_saveCTMC printable IO st.h.matrix lab _ ((mkCTMC_ok_iff _ _ _).2 ⟨a, b, rfl, by rw [s1, s2]; exact e⟩) name hn hm hi⟩
  · intro h
    rw [h]
    rfl

/-- C79, CTMC: the file given by `output_file_prism`. -/
theorem CTMC.call_prism_partial (hV : M.Valid) (hS : TimedSet S) (hw : WaitsNonneg S) (hst : fit (stepTimed processes fixed S) epsilon maxIt M = .ok st)
    (hn : Spec.Prism.IsName name)
    (hIO : ∀ x, IO.dom x → 0 < x → Prism.Decimal (IO.repr x)) (hm : ∀ i j, IO.dom (st.h.matrix i j))
    (hl : ∀ s, M.labelling s ≠ "init" → Spec.Prism.IsName (M.labelling s).toList) (hi : ∃ s, M.initialState s = 1) (hp : o.prism = true) :
    ∃ t P start, (callCTMC printable IO name o processes fixed S epsilon maxIt M).prism = some t ∧
      Spec.Prism.readPrism IO.parse (Spec.Prism.literal IO.parse) t = some P ∧ P.name = name ∧ M.initialState start = 1 ∧
      Spec.Prism.Describes P .ctmc start (Spec.Prism.chainChoices st.h.matrix) M.labelling := by
  obtain ⟨s1, s2, _⟩ := CTMC.fit_structure _ _ _ _ _ _ hS _ hst
  have hV' := CTMC.fit_valid _ _ _ _ _ _ hV hS hw _ hst
  obtain ⟨t, P, start, h1, h2, h3, h4, h5⟩ := Prism.saveCTMC_describes IO hIO st.h hn (by rw [s1]; exact hl) (fun i j => ⟨hV'.2 i j, hm i j⟩) (by rw [s2]; exact hi)
  refine ⟨t, P, start, ?_, h2, h3, by rw [← s2]; exact h4, by rw [← s1]; exact h5⟩
  unfold callCTMC
  rw [call_eq _ _ _ _ _ _ _ _ _ hst, finish_prism, if_pos (by rw [hp]; rfl), h1]
  rfl

/-- C79, violation: CTMC: with `output_file_prism`, if no state has the initial probability 1, the call raises an exception after the learning, whatever the training
set and the other options: nothing is returned. -/
theorem CTMC.call_prism_raises (hS : TimedSet S) (hi : ∀ s, M.initialState s ≠ 1) (hp : o.prism = true) :
    ∃ e, (callCTMC printable IO name o processes fixed S epsilon maxIt M).result = .error e := by
  unfold callCTMC
  cases hst : fit (stepTimed processes fixed S) epsilon maxIt M with
  | error e => exact ⟨e, by unfold call; rw [hst]⟩
  | ok st =>
    obtain ⟨_, s2, _⟩ := CTMC.fit_structure _ _ _ _ _ _ hS _ hst
    refine ⟨.indexError, ?_⟩
    rw [call_eq _ _ _ _ _ _ _ _ _ hst]
    unfold finish
    rw [if_pos (by rw [hp]; rfl)]
    dsimp only
    rw [Prism.save_no_initial_CTMC IO st.h (by rw [s2]; exact hi)]

/-- C79, CTMC: the call returns the learnt model, or a Storm model that is converted back to the learnt model, if every state of the initial model is left.
(Missing: as for MCs, and see `CTMC.call_storm_nan`.) -/
theorem CTMC.call_returns_partial (hM : mkCTMC matrix lab = .ok M) (hV : M.Valid) (hS : TimedSet S) (hw : WaitsNonneg S)
    (hst : fit (stepTimed processes fixed S) epsilon maxIt M = .ok st)
    (hp : o.prism = true → ∃ s, M.initialState s = 1) (hd : o.data = true → 0 < maxIt) (hl : ∀ s, M.labelling s ≠ "deadlock") :
    ∃ x, (callCTMC printable IO name o processes fixed S epsilon maxIt M).result = .ok x ∧ (o.storm = false → x.model = .inl st.h) ∧
      (o.storm = true → (∀ s, M.e s ≠ 0) → ∃ Z, x.model = .inr Z ∧ Storm.toCTMC Z false = .ok (some ⟨n, st.h⟩)) ∧
      (o.data = false → x.info = none) ∧ (o.data = true → ∃ ll, st.ll = some ll ∧ x.info = some (st.counter, ll)) := by
  obtain ⟨s1, s2, _⟩ := CTMC.fit_structure _ _ _ _ _ _ hS _ hst
  obtain ⟨a, b, _, e⟩ := (mkCTMC_ok_iff _ _ _).1 hM
  rw [← s1, ← s2] at e
  have hl' : ∀ s, st.h.labelling s ≠ "deadlock" := by rw [s1]; exact hl
  obtain ⟨x, h1, h2, h3⟩ := call_result (fun M => saveCTMC printable IO M name) (fun M => Prism.saveCTMC IO M name) (fun M => .ok (Storm.ofCTMC M)) true o
    (stepTimed processes fixed S) epsilon maxIt M hst (fun h _ => save_ok _ _ _ _ _ (by rw [s2]; exact hp h)) hd _ (fun _ => rfl)
  refine ⟨x, h1, fun h => by rw [h2, h]; rfl, fun h he => ⟨_, by rw [h2, h]; rfl, ?_⟩, h3⟩
  refine Storm.ctmc_round_trip_partial st.h ?_ (fun s hs => he s ((CTMC.fit_exit _ _ _ _ _ _ _ hV hS hw hst s).1 hs)) e.2 hl'
  obtain ⟨i, hi, hi'⟩ := List.mem_iff_getElem.1 a
  refine ⟨⟨i, b ▸ hi⟩, ?_⟩
  have := e.1 ⟨i, b ▸ hi⟩
  rw [Fin.getElem?_fin, List.getElem?_eq_getElem hi, hi'] at this
  exact (Option.some.inj this).symm

/-- C79, violation: if a state of the initial model is never left, the Storm model that `fit` returns has transitions with the value `nan`, whatever the training
set. -/
theorem CTMC.call_storm_nan (hV : M.Valid) (hS : TimedSet S) (hw : WaitsNonneg S)
    (hst : fit (stepTimed processes fixed S) epsilon maxIt M = .ok st) (s : Fin n) (he : M.e s = 0) :
    ∃ x Z, (callCTMC printable IO name ⟨false, false, true, false⟩ processes fixed S epsilon maxIt M).result = .ok x ∧ x.model = .inr Z ∧
      ∀ j : Fin n, Entry Z s 0 j none := by
  obtain ⟨x, h1, h2, _⟩ := call_result (fun M => saveCTMC printable IO M name) (fun M => Prism.saveCTMC IO M name) (fun M => .ok (Storm.ofCTMC M)) true
    ⟨false, false, true, false⟩ (stepTimed processes fixed S) epsilon maxIt M hst (fun h _ => by cases h) (fun h => by cases h) _ (fun _ => rfl)
  refine ⟨x, _, h1, by rw [h2]; rfl, ?_⟩
  intro j
  refine ⟨⟨[st.h.labelling s], [Storm.jumpRow st.h s]⟩, Storm.jumpRow st.h s, by simp [Storm.ofCTMC], rfl, ?_⟩
  unfold Storm.jumpRow
  rw [if_pos ((CTMC.fit_exit _ _ _ _ _ _ _ hV hS hw hst s).2 he)]
  exact List.mem_map.2 ⟨j, List.mem_finRange j, rfl⟩

end

/-! ### HMMs and GoHMMs -/

/-- C79, HMM: the file given by `output_file`. -/
theorem HMM.call_file (M : HMM ℝ String n) (name : List Char) (o : Options) (processes : ℕ) (S : TSet String) (epsilon : ℝ) (maxIt : ℕ)
    (st : LoopState (HMM ℝ String n)) (hnd : M.alphabet.Nodup) (hS : M.Stochastic) (ht : ∀ t ∈ S.times, 1 ≤ t)
    (hst : fit (stepHMM processes S) epsilon maxIt M = .ok st) (hn : OneLine name)
    (hm : ∀ i j, IO.dom (st.h.matrix i j)) (ho : ∀ i k, IO.dom (st.h.output i k)) (hi : ∀ s, IO.dom (st.h.initialState s)) :
    (o.file = true → ∃ t, (callHMM printable IO name o processes S epsilon maxIt M).file = some t ∧
      loadHMM IO t = .ok (name, ⟨n, ⟨st.h.matrix, st.h.alphabet, st.h.output, List.ofFn st.h.initialState⟩⟩)) ∧
    (o.file = false → (callHMM printable IO name o processes S epsilon maxIt M).file = none) := by
  have hS' := HMM.fit_stochastic _ _ _ _ _ hnd hS ht _ hst
  unfold callHMM
  rw [call_eq _ _ _ _ _ _ _ _ _ hst, finish_file]
  constructor
  · intro h
    rw [if_pos h]
    have hok : mkHMM st.h.matrix st.h.alphabet st.h.output (.list (List.ofFn st.h.initialState)) = .ok (HMMObj.of st.h) := by
      unfold mkHMM modelInit
      have h1 : roundHalfEven (List.ofFn st.h.initialState).sum = 1 := by
        rw [roundHalfEven_eq_one, List.sum_ofFn, hS'.2.1]
        norm_num
      simp only [checkRow']
      rw [if_neg (by rw [h1]; simp)]
      simp only [bind, Except.bind]
      rw [if_neg, if_neg]
      · rfl
      · push Not
        intro i
        left
        rw [hS'.2.2.2.2.2 i]
        norm_num
      · push Not
        intro i
        left
        rw [hS'.2.2.2.1 i]
        norm_num
    refine ⟨_, rfl, loadHMM_saveHMM printable IO _ _ _ _ _ hok name hn hm ho ?_⟩
    intro y hy
    obtain ⟨i, rfl⟩ := List.mem_ofFn.1 hy
    exact hi i
  · intro h
    rw [h]
    rfl

/-- C79, HMM: no Prism file is written, whatever the options, and the call returns the learnt model. -/
theorem HMM.call_returns_partial (M : HMM ℝ String n) (name : List Char) (o : Options) (processes : ℕ) (S : TSet String) (epsilon : ℝ) (maxIt : ℕ)
    (st : LoopState (HMM ℝ String n)) (hst : fit (stepHMM processes S) epsilon maxIt M = .ok st) (hd : o.data = true → 0 < maxIt) :
    (callHMM printable IO name o processes S epsilon maxIt M).prism = none ∧
    ∃ x, (callHMM printable IO name o processes S epsilon maxIt M).result = .ok x ∧ x.model = .inl st.h ∧
      (o.data = false → x.info = none) ∧ (o.data = true → ∃ ll, st.ll = some ll ∧ x.info = some (st.counter, ll)) := by
  constructor
  · unfold callHMM
    rw [call_eq _ _ _ _ _ _ _ _ _ hst, finish_prism, Bool.and_false]
    rfl
  unfold callHMM call
  rw [hst]
  dsimp only
  rw [finish_result _ _ _ _ _ (fun _ h => by cases h)]
  unfold finishStorm
  rw [Bool.and_false, if_neg (by simp)]
  unfold returned
  cases hdt : o.data with
  | false => exact ⟨_, rfl, rfl, fun _ => rfl, fun h => by cases h⟩
  | true =>
    obtain ⟨ll, hll⟩ := fit_ll _ _ _ _ hst (hd hdt)
    rw [hll]
    exact ⟨_, rfl, rfl, fun h => (by cases h), fun _ => ⟨ll, rfl, rfl⟩⟩

/-- C79, GoHMM: the file given by `output_file`. -/
theorem GoHMM.call_file {d : ℕ} (hnp : 0 < n) (hdp : 0 < d) (M : GoHMM n d) (name : List Char) (o : Options) (processes : ℕ) (S : TSet (Fin d → ℝ)) (epsilon : ℝ)
    (maxIt : ℕ) (st : LoopState (GoHMM n d)) (hV : M.Valid) (ht : ∀ t ∈ S.times, 1 ≤ t)
    (hst : fit (stepGoHMM processes S) epsilon maxIt M = .ok st) (hn : OneLine name)
    (hm : ∀ i j, IO.dom (st.h.matrix i j)) (ho : ∀ i j, IO.dom (st.h.mu i j) ∧ IO.dom (st.h.sigma i j)) (hi : ∀ s, IO.dom (st.h.initialState s)) :
    (o.file = true → ∃ t, (callGoHMM printable IO name o processes S epsilon maxIt M).file = some t ∧
      loadGoHMM IO t = .ok (name, ⟨n, d, ⟨st.h.matrix, st.h.mu, st.h.sigma, List.ofFn st.h.initialState⟩⟩)) ∧
    (o.file = false → (callGoHMM printable IO name o processes S epsilon maxIt M).file = none) := by
  have hV' := GoHMM.fit_valid _ _ _ _ _ hV ht _ hst
  unfold callGoHMM
  rw [call_eq _ _ _ _ _ _ _ _ _ hst, finish_file]
  constructor
  · intro h
    rw [if_pos h]
    have hok : mkGoHMM st.h.matrix st.h.mu st.h.sigma (.list (List.ofFn st.h.initialState)) = .ok (GoHMMObj.of st.h) := by
      unfold mkGoHMM modelInit
      have h1 : roundHalfEven (List.ofFn st.h.initialState).sum = 1 := by
        rw [roundHalfEven_eq_one, List.sum_ofFn, hV'.2.1]
        norm_num
      simp only [checkRow']
      rw [if_neg hnp.ne', if_neg, if_neg (by rw [h1]; simp)]
      · simp only [bind, Except.bind]
        rw [if_neg]
        · rfl
        · push Not
          intro i
          left
          rw [hV'.2.2.2.1 i]
          norm_num
      · push Not
        exact ⟨hdp.ne', hV'.2.2.2.2⟩
    refine ⟨_, rfl, loadGoHMM_saveGoHMM printable IO _ _ _ _ _ hok name hn hm ho ?_⟩
    intro y hy
    obtain ⟨i, rfl⟩ := List.mem_ofFn.1 hy
    exact hi i
  · intro h
    rw [h]
    rfl

/-- C79, GoHMM: no Prism file is written, whatever the options, and the call returns the learnt model. -/
theorem GoHMM.call_returns_partial {d : ℕ} (M : GoHMM n d) (name : List Char) (o : Options) (processes : ℕ) (S : TSet (Fin d → ℝ)) (epsilon : ℝ) (maxIt : ℕ)
    (st : LoopState (GoHMM n d)) (hst : fit (stepGoHMM processes S) epsilon maxIt M = .ok st) (hd : o.data = true → 0 < maxIt) :
    (callGoHMM printable IO name o processes S epsilon maxIt M).prism = none ∧
    ∃ x, (callGoHMM printable IO name o processes S epsilon maxIt M).result = .ok x ∧ x.model = .inl st.h ∧
      (o.data = false → x.info = none) ∧ (o.data = true → ∃ ll, st.ll = some ll ∧ x.info = some (st.counter, ll)) := by
  constructor
  · unfold callGoHMM
    rw [call_eq _ _ _ _ _ _ _ _ _ hst, finish_prism, Bool.and_false]
    rfl
  unfold callGoHMM call
  rw [hst]
  dsimp only
  rw [finish_result _ _ _ _ _ (fun _ h => by cases h)]
  unfold finishStorm
  rw [Bool.and_false, if_neg (by simp)]
  unfold returned
  cases hdt : o.data with
  | false => exact ⟨_, rfl, rfl, fun _ => rfl, fun h => by cases h⟩
  | true =>
    obtain ⟨ll, hll⟩ := fit_ll _ _ _ _ hst (hd hdt)
    rw [hll]
    exact ⟨_, rfl, rfl, fun h => (by cases h), fun _ => ⟨ll, rfl, rfl⟩⟩

end Jajapy
