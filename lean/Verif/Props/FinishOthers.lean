import Verif.Model.FinishOthers
import Verif.Props.Finish
import Verif.Props.Alergia
import Verif.Props.IOAlergia
import Verif.Props.Active

/-!
C80: what `fit` of Alergia, IOAlergia and Active_BW_MDP writes and returns.
-/

set_option linter.unusedSectionVars false

namespace Jajapy

open Finset Spec BW Files Spec.Storm Tools Create

/-! ### Alergia -/

theorem prob_eq_sufProb {n : ℕ} (M : MC ℝ String n) (hd : ∀ s, M.labelling s ≠ "deadlock") (k : Fin n) (w : List String) (hw : w ≠ []) :
    prob (Storm.ofMC M) k w = sufProb M.matrix (fun s o => if M.labelling s = o then 1 else 0) k w := by
  have := prob_ofMC { M with initialState := fun s => if s = k then 1 else 0 } k (fun _ => rfl) hd w
  rw [show prob (Storm.ofMC M) k w = prob (Storm.ofMC { M with initialState := fun s => if s = k then 1 else 0 }) k w from rfl, this]
  obtain ⟨o, os, rfl⟩ := List.exists_cons_of_ne_nil hw
  unfold MC.lik
  rw [listProb_eq_sufProb]
  simp

/-- The probability of a trace in a chain is the mean of its probabilities in the Storm model from each state. -/
theorem lik_eq_prob {n : ℕ} (M : MC ℝ String n) (hd : ∀ s, M.labelling s ≠ "deadlock") (w : List String) (hw : w ≠ []) :
    M.lik w = ∑ k, M.initialState k * prob (Storm.ofMC M) k w := by
  have h := fun k => prob_eq_sufProb M hd k w hw
  obtain ⟨o, os, rfl⟩ := List.exists_cons_of_ne_nil hw
  unfold MC.lik
  rw [listProb_eq_sufProb]
  exact Finset.sum_congr rfl (fun k _ => by rw [h])

namespace Alergia
open Spec.Alergia
variable (bound : ℕ → ℕ → ℕ → ℕ → Py Bool) (S : TSet String)

/-- C80, Alergia: without `output_file_prism`, `fit` returns the learnt chain, or its conversion. -/
theorem call_eq {K : Type} [Field K] [LinearOrder K] [FloorRing K] (storm : Bool) {m : Σ states : List ℕ, MC K String states.length} (h : fit K bound S = .ok (some m)) :
    call K bound false storm S = .ok (some (if storm then .inr (Storm.ofMC m.2) else .inl m)) := by
  unfold call
  rw [h]
  cases storm <;> rfl

/-- C80, violation: with `output_file_prism`, Alergia never returns a model: the file is not written, and when the learning succeeds the call raises an
AttributeError. -/
theorem call_prism_raises {K : Type} [Field K] [LinearOrder K] [FloorRing K] (storm : Bool) :
    ∀ m, call K bound true storm S ≠ .ok (some m) := by
  intro m h
  unfold call at h
  cases hf : fit K bound S with
  | error e => rw [hf] at h; cases h
  | ok r =>
    rw [hf] at h
    cases r with
    | none => cases h
    | some r => cases h

/-- The exception, when the learning succeeds. -/
theorem call_prism_error {K : Type} [Field K] [LinearOrder K] [FloorRing K] (storm : Bool) {m : Σ states : List ℕ, MC K String states.length}
    (h : fit K bound S = .ok (some m)) : call K bound true storm S = .error .attributeError := by
  unfold call
  rw [h]
  rfl

/-- C80, Alergia: the Storm model that `fit` returns by default generates every training trace with a positive probability from a state with the label 'init'.
(As C62: the label 'init' is only used as in `InitFirst`, no label is empty; moreover no label is 'deadlock'.) -/
theorem call_storm_generates_partial (hS : S.Countable) (hne : ¬ Labels S "") (hinit : InitFirst S) (hdl : ¬ Labels S "deadlock")
    (hb : ∀ a b c d, ∃ v, bound a b c d = .ok v) :
    ∃ Z, call ℝ bound false true S = .ok (some (.inr Z)) ∧
      ∀ t ∈ S.sequences, ∃ k < Z.states.length, labels Z k = ["init"] ∧ 0 < prob Z k (withInit t) := by
  obtain ⟨states, M, e1, e2⟩ := fit_generates_partial (K := ℝ) S hS hne hinit bound hb
  obtain h | ⟨states', M', e, e3, _, e4, _, e5⟩ := fit_wellFormed (K := ℝ) S hS.1 bound hb
  · rw [e1] at h; cases h.1
  rw [e1] at e
  injection e with e
  injection e with e
  obtain ⟨rfl, e⟩ := Sigma.mk.inj e
  obtain rfl := eq_of_heq e
  have hd : ∀ s, M.labelling s ≠ "deadlock" := by
    intro s hs
    rcases e4 s with h | h
    · rw [hs] at h; simp at h
    · rw [hs] at h; exact hdl h
  obtain ⟨hlen, _, _, hlab, _⟩ := Storm.ofMC_spec M
  refine ⟨Storm.ofMC M, by rw [call_eq bound S true e1]; rfl, ?_⟩
  intro t ht
  have hp := e2 t ht
  have hw : withInit t ≠ [] := by
    unfold withInit
    split_ifs with h
    · rintro rfl; cases h
    · simp
  rw [lik_eq_prob M hd _ hw] at hp
  obtain ⟨k, _, hk⟩ := Finset.exists_ne_zero_of_sum_ne_zero hp.ne'
  refine ⟨k, by rw [hlen]; exact k.2, ?_, ?_⟩
  · rw [hlab, e5] at *
    by_contra hne
    rw [if_neg (fun h => hne (by rw [h])), zero_mul] at hk
    exact hk rfl
  · refine lt_of_le_of_ne ?_ (Ne.symm (right_ne_zero_of_mul hk))
    rw [prob_eq_sufProb M hd k _ hw]
    exact sufProb_nonneg _ _ e3 (fun s o => by split_ifs <;> norm_num) _ _

end Alergia

/-! ### IOAlergia -/

namespace IOAlergia
open Spec.IOAlergia
variable (bound : ℕ → ℕ → ℕ → ℕ → Py Bool) (S : TSet String)

/-- C80, IOAlergia: without `output_file_prism`, `fit` returns a MDP (C66), or a Storm model with the same states, labels and probabilities, where the choices
of a state are the actions in the order of the MDP. -/
theorem call_returns (hS : Training S) (hb : ∀ a b c d, ∃ v, bound a b c d = .ok v) (hact : ∃ t ∈ S.sequences, 2 ≤ t.length) :
    ∃ red, ∃ M : MDP ℝ String (red.length + 1), fit ℝ bound S = .ok (some ⟨red, M⟩) ∧ M.Stochastic ∧
      call ℝ bound false false S = .ok (some (.inl ⟨red, M⟩)) ∧
      ∃ Z, call ℝ bound false true S = .ok (some (.inr Z)) ∧ Z.states.length = red.length + 1 ∧ (∀ s : Fin (red.length + 1), Spec.Storm.labels Z s = [M.labelling s]) ∧
        (∀ s ∈ Z.states, s.actions.length = M.actions.length) ∧
        ∀ (s : Fin (red.length + 1)) (a : Fin M.actions.length) (s' : Fin (red.length + 1)), value Z s a s' = M.matrix s a s' := by
  obtain ⟨A, red, M, h1, _, h2, _⟩ := fit_returns (K := ℝ) hS hb hact
  obtain ⟨k1, _, k2, k3, _⟩ := Storm.ofMDP_spec M
  refine ⟨red, M, h1, h2, ?_, Storm.ofMDP M, ?_, k1, k2, k3, value_ofMDP M⟩
  all_goals
    unfold call
    rw [h1]
    rfl

/-- C80, violation: with `output_file_prism`, IOAlergia never returns a model. -/
theorem call_prism_raises {K : Type} [Field K] [LinearOrder K] [FloorRing K] (storm : Bool) :
    ∀ m, call K bound true storm S ≠ .ok (some m) := by
  intro m h
  unfold call at h
  cases hf : fit K bound S with
  | error e => rw [hf] at h; cases h
  | ok r =>
    rw [hf] at h
    cases r with
    | none => cases h
    | some r => cases h

/-- The exception, on every training set with an action. -/
theorem call_prism_error (hS : Training S) (hb : ∀ a b c d, ∃ v, bound a b c d = .ok v) (hact : ∃ t ∈ S.sequences, 2 ≤ t.length) (storm : Bool) :
    call ℝ bound true storm S = .error .attributeError := by
  obtain ⟨A, red, M, h1, _⟩ := fit_returns (K := ℝ) hS hb hact
  unfold call
  rw [h1]
  rfl

end IOAlergia

/-! ### Active learning -/

namespace Active
variable (printable : Char → Bool) (IO : FloatIO ℝ) {n : ℕ} (name : List Char) (cpus : ℕ) (o : Options) (processes : ℕ) (epsilon : ℝ) (maxIt0 maxIt : ℕ) (lr : Rate ℝ)
  (samples : List (MDP ℝ String n → TSet String → Py (TSet String))) (M : MDP ℝ String n) (S : TSet String)

theorem train_eq (h : 0 < maxIt) : train (n := n) processes epsilon maxIt = fun S M => (BW.fit (stepMDP processes S) epsilon maxIt M).map (·.h) := by
  funext S M
  unfold train
  cases hst : BW.fit (stepMDP processes S) epsilon maxIt M with
  | error e => rfl
  | ok st =>
    obtain ⟨ll, hll⟩ := fit_ll _ _ _ _ hst h
    show (do let _ ← BW.returned (R := Empty) true st (.inl st.h); return st.h : Py (MDP ℝ String n)) = .ok st.h
    unfold BW.returned
    rw [hll]
    rfl

/-- The learning without the options for the results (C54). -/
noncomputable def learn (processes : ℕ) (epsilon : ℝ) (maxIt0 maxIt : ℕ) (lr : Rate ℝ) (samples : List (MDP ℝ String n → TSet String → Py (TSet String)))
    (M : MDP ℝ String n) (S : TSet String) : Py (Learning ℝ String n) :=
  fit (fun S M => (BW.fit (BW.stepMDP processes S) epsilon maxIt0 M).map (·.h)) (fun S M => (BW.fit (BW.stepMDP processes S) epsilon maxIt M).map (·.h))
      lr samples ⟨[M], 0, S⟩

/-- The sampled sets: traces with actions, counted. -/
def Samples (samples : List (MDP ℝ String n → TSet String → Py (TSet String))) : Prop :=
  ∀ f ∈ samples, ∀ M S T, f M S = .ok T → T.Countable ∧ T.type = some 1 ∧ ∀ w ∈ T.sequences, w.length % 2 = 1

variable {printable IO name cpus o processes epsilon maxIt0 maxIt lr samples M S} {W : Learning ℝ String n}

/-- The call is the learning of C54 followed by `finish`. -/
theorem callBW_eq (hs : Samples samples) (hn : M.actions.Nodup) (hM : M.Stochastic) (ho : ∀ w ∈ S.sequences, w.length % 2 = 1) (h0 : 0 < maxIt0) (h1 : 0 < maxIt)
    (hp : o.prism = true → ∃ s, M.initialState s = 1) (h : learn processes epsilon maxIt0 maxIt lr samples M S = .ok W) :
    ∃ M', W.models = [M'] ∧ W.h = 0 ∧ M'.Stochastic ∧ M'.actions = M.actions ∧ M'.labelling = M.labelling ∧ M'.initialState = M.initialState ∧
      callBW printable IO name cpus o processes epsilon maxIt0 maxIt lr samples M S =
        finish (fun M => saveMDP printable IO M name) (fun M => Prism.saveMDP IO M name) cpus o W.total M' := by
  obtain ⟨M', a1, a2, a3, a4, a5, a6, _⟩ := fit_stochastic processes epsilon maxIt0 maxIt lr samples (fun f hf M S T hT => (hs f hf M S T hT).2.2) M hn hM S ho W h
  refine ⟨M', a1, a2, a3, a4, a5, a6, ?_⟩
  have ht : trainings (fun M => Prism.saveMDP IO M name) o (train processes epsilon maxIt0) (train processes epsilon maxIt) lr samples ⟨[M], 0, S⟩ = .ok W := by
    unfold learn fit at h
    obtain ⟨q, hq, h⟩ := (Except.bind_eq_ok _ _ _).1 h
    unfold trainings
    rw [train_eq _ _ _ h0, train_eq _ _ _ h1]
    dsimp only
    rw [hq]
    obtain ⟨M0, M1, hM0, hM1, rfl⟩ := superFit_eq hq
    have e0 : M = M0 := by simpa using hM0
    subst e0
    have hf : firstPrism (fun M => Prism.saveMDP IO M name) o ([M].set 0 M1, 0).1 ([M].set 0 M1, 0).2 = .ok () := by
      unfold firstPrism
      by_cases hc : o.prism = true
      · rw [if_pos hc]
        have hi : M1.initialState = M.initialState := by
          cases hst : BW.fit (BW.stepMDP processes S) epsilon maxIt0 M with
          | error e => rw [hst] at hM1; cases hM1
          | ok st =>
            rw [hst] at hM1
            injection hM1 with hM1
            subst hM1
            exact (MDP.fit_structure _ _ _ _ _ hn ho _ hst).2.2.1
        obtain ⟨t, ht⟩ : ∃ t, Prism.saveMDP IO M1 name = .ok t := save_ok _ _ _ _ _ (by rw [hi]; exact hp hc)
        simp only [List.set_cons_zero, List.getElem?_cons_zero, ht]
        rfl
      · rw [if_neg hc]
    show (do firstPrism (fun M => Prism.saveMDP IO M name) o ([M].set 0 M1, 0).1 ([M].set 0 M1, 0).2; rounds _ lr samples _ : Py _) = _
    rw [hf]
    exact h
  unfold callBW call
  rw [ht]
  dsimp only
  rw [a1, a2]
  rfl

theorem finish_file (save : MDP ℝ String n → List Char) (savePrism : MDP ℝ String n → Py (List Char)) (total : TSet String) :
    (finish save savePrism cpus o total M).file = if o.file then some (save M) else none := by
  unfold finish
  dsimp only
  split_ifs <;> try rfl
  all_goals cases savePrism M <;> rfl

theorem finish_prism (save : MDP ℝ String n → List Char) (savePrism : MDP ℝ String n → Py (List Char)) (total : TSet String) :
    (finish save savePrism cpus o total M).prism = if o.prism then (savePrism M).toOption else none := by
  unfold finish
  dsimp only
  split_ifs <;> try rfl
  all_goals cases savePrism M <;> rfl

theorem finish_result (save : MDP ℝ String n → List Char) (savePrism : MDP ℝ String n → Py (List Char)) (total : TSet String)
    (hp : o.prism = true → ∃ t, savePrism M = .ok t) : (finish save savePrism cpus o total M).result = returned cpus o total M := by
  unfold finish
  by_cases h : o.prism = true
  · rw [if_pos h]
    obtain ⟨t, ht⟩ := hp h
    rw [ht]
  · rw [if_neg h]

/-- C80, active learning: the file given by `output_file` is loaded back as the final hypothesis; without `output_file` there is no file. -/
theorem call_file (hs : Samples samples) (actions : List String) (matrix : Fin n → Fin actions.length → Fin n → ℝ) (lab : List String)
    (hmk : mkMDP actions matrix lab = .ok M) (hn : M.actions.Nodup) (hM : M.Stochastic) (ho : ∀ w ∈ S.sequences, w.length % 2 = 1)
    (h0 : 0 < maxIt0) (h1 : 0 < maxIt) (hp : o.prism = true → ∃ s, M.initialState s = 1) (hname : OneLine name)
    (h : learn processes epsilon maxIt0 maxIt lr samples M S = .ok W) :
    ∃ M', W.models = [M'] ∧ ((∀ i a j, IO.dom (M'.matrix i a j)) → (∀ s, IO.dom (M.initialState s)) → o.file = true →
        ∃ t, (callBW printable IO name cpus o processes epsilon maxIt0 maxIt lr samples M S).file = some t ∧ loadMDP IO t = .ok (name, ⟨n, M'⟩)) ∧
      (o.file = false → (callBW printable IO name cpus o processes epsilon maxIt0 maxIt lr samples M S).file = none) := by
  obtain ⟨M', a1, a2, a3, a4, a5, a6, e⟩ := callBW_eq (printable := printable) (IO := IO) (name := name) (cpus := cpus) hs hn hM ho h0 h1 hp h
  refine ⟨M', a1, ?_, ?_⟩
  · intro hm hi hf
    rw [e, finish_file, if_pos hf]
    refine ⟨_, rfl, loadMDP_saveMDP printable IO M'.actions M'.matrix lab _ ?_ name hname hm (by rw [a6]; exact hi)⟩
    obtain ⟨b1, b2, _, _, b3⟩ := (mkMDP_ok_iff _ _ _ _).1 hmk
    refine (mkMDP_ok_iff _ _ _ _).2 ⟨b1, b2, fun i x => ?_, ⟨rfl, fun _ _ _ => rfl⟩, ?_⟩
    · rcases a3.2.2.2 i x with h | h
      · left
        rw [h]
        norm_num
      · right
        rw [h]
        norm_num
    · rw [a5, a6]
      exact b3
  · intro hf
    rw [e, finish_file, hf]
    rfl

/-- C80, active learning: the file given by `output_file_prism` is a Prism program for the final hypothesis. -/
theorem call_prism_partial (hs : Samples samples) (hn : M.actions.Nodup) (hM : M.Stochastic) (ho : ∀ w ∈ S.sequences, w.length % 2 = 1)
    (h0 : 0 < maxIt0) (h1 : 0 < maxIt) (hi : ∃ s, M.initialState s = 1) (hname : Spec.Prism.IsName name)
    (hIO : ∀ x, IO.dom x → 0 < x → Prism.Decimal (IO.repr x)) (ha : ∀ a ∈ M.actions, Spec.Prism.IsName a.toList)
    (hl : ∀ s, M.labelling s ≠ "init" → Spec.Prism.IsName (M.labelling s).toList) (hp : o.prism = true)
    (h : learn processes epsilon maxIt0 maxIt lr samples M S = .ok W) :
    ∃ M', W.models = [M'] ∧ ((∀ i a j, IO.dom (M'.matrix i a j)) →
      ∃ t P start, (callBW printable IO name cpus o processes epsilon maxIt0 maxIt lr samples M S).prism = some t ∧
        Spec.Prism.readPrism IO.parse (Spec.Prism.literal IO.parse) t = some P ∧ P.name = name ∧ M.initialState start = 1 ∧
        Spec.Prism.Describes P .mdp start (Spec.Prism.mdpChoices M') M.labelling) := by
  obtain ⟨M', a1, a2, a3, a4, a5, a6, e⟩ := callBW_eq (printable := printable) (IO := IO) (name := name) (cpus := cpus) hs hn hM ho h0 h1 (fun _ => hi) h
  refine ⟨M', a1, fun hm => ?_⟩
  obtain ⟨t, P, start, k1, k2, k3, k4, k5⟩ := Prism.saveMDP_describes IO hIO M' hname (by rw [a4]; exact ha) (by rw [a5]; exact hl)
    (fun i a j => ⟨a3.2.2.1 i a j, hm i a j⟩) (by rw [a6]; exact hi)
  refine ⟨t, P, start, ?_, k2, k3, by rw [← a6]; exact k4, by rw [← a5]; exact k5⟩
  rw [e, finish_prism, if_pos hp, k1]
  rfl

/-- C80, active learning: the call returns the final hypothesis, or a Storm model with the same states, labels and probabilities. (Without `return_data`; for the
names of the actions see `Storm.choices_unlabelled`.) -/
theorem call_returns_partial (hs : Samples samples) (hn : M.actions.Nodup) (hM : M.Stochastic) (ho : ∀ w ∈ S.sequences, w.length % 2 = 1)
    (h0 : 0 < maxIt0) (h1 : 0 < maxIt) (hp : o.prism = true → ∃ s, M.initialState s = 1) (hd : o.data = false)
    (h : learn processes epsilon maxIt0 maxIt lr samples M S = .ok W) :
    ∃ M' x, W.models = [M'] ∧ (callBW printable IO name cpus o processes epsilon maxIt0 maxIt lr samples M S).result = .ok x ∧ x.ll = none ∧
      (o.storm = false → x.model = .inl M') ∧
      (o.storm = true → ∃ Z, x.model = .inr Z ∧ Z.states.length = n ∧ (∀ s : Fin n, labels Z s = [M.labelling s]) ∧
        (∀ s ∈ Z.states, s.actions.length = M.actions.length) ∧
        ∀ (s : Fin n) (a : Fin M'.actions.length) (s' : Fin n), value Z s a s' = M'.matrix s a s') := by
  obtain ⟨M', a1, a2, a3, a4, a5, a6, e⟩ := callBW_eq (printable := printable) (IO := IO) (name := name) (cpus := cpus) hs hn hM ho h0 h1 hp h
  obtain ⟨k1, _, k2, k3, _⟩ := Storm.ofMDP_spec M'
  refine ⟨M', ⟨if o.storm then .inr (Storm.ofMDP M') else .inl M', none⟩, a1, ?_, rfl, ?_, ?_⟩
  · rw [e, finish_result _ _ _ (fun h => save_ok _ _ _ _ _ (by rw [a6]; exact hp h))]
    unfold returned
    rw [hd]
    rfl
  · intro h; rw [h]; rfl
  · intro h
    refine ⟨Storm.ofMDP M', by rw [h]; rfl, k1, by rw [← a5]; exact k2, by rw [← a4]; exact k3, value_ofMDP M'⟩

/-- C80, active learning: with `return_data` and without the conversion to Storm, the returned log-likelihood is the one of the final hypothesis on the caller's
traces and all sampled traces, and the caller's set holds all of them. -/
theorem call_data (hs : Samples samples) (hn : M.actions.Nodup) (hM : M.Stochastic) (hS : S.Countable) (hne : S.sequences ≠ []) (hty : S.type = some 1)
    (ho : ∀ w ∈ S.sequences, w.length % 2 = 1)
    (h0 : 0 < maxIt0) (h1 : 0 < maxIt) (hp : o.prism = true → ∃ s, M.initialState s = 1) (hd : o.data = true) (hst : o.storm = false) (hc : 2 ≤ cpus)
    (h : learn processes epsilon maxIt0 maxIt lr samples M S = .ok W) :
    ∃ M' x, W.models = [M'] ∧ (callBW printable IO name cpus o processes epsilon maxIt0 maxIt lr samples M S).result = .ok x ∧ x.model = .inl M' ∧
      x.ll = some (avgLogLik M'.lik W.total) ∧
      ∃ Ts : List (TSet String), Ts.length = samples.length ∧ (∀ k (hk : k < Ts.length) (hk' : k < samples.length), ∃ M S, samples[k] M S = .ok Ts[k]) ∧
        ∀ tr, W.total.mult tr = S.mult tr + (Ts.map (fun T => T.mult tr)).sum := by
  obtain ⟨M', a1, a2, a3, a4, a5, a6, e⟩ := callBW_eq (printable := printable) (IO := IO) (name := name) (cpus := cpus) hs hn hM ho h0 h1 hp h
  obtain ⟨Ts, t1, t2, t3⟩ := fit_total _ _ _ _ _ _ h
  have hTs : ∀ T ∈ Ts, T.Countable ∧ T.type = some 1 ∧ ∀ w ∈ T.sequences, w.length % 2 = 1 := by
    intro T hT
    obtain ⟨k, hk, rfl⟩ := List.mem_iff_getElem.1 hT
    obtain ⟨M, S, hk'⟩ := t3 k hk (by omega)
    exact hs _ (List.getElem_mem _) M S _ hk'
  obtain ⟨T, u1, u2, u3, u4⟩ := TSet.addSets_spec Ts S ⟨hS.1, hS.2.1⟩ (fun T hT => ⟨(hTs T hT).2.1.trans hty.symm, (hTs T hT).1.2.1⟩)
  rw [u1] at t2
  injection t2 with t2
  rw [t2] at u3 u4
  have hodd : ∀ w ∈ W.total.sequences, w.length % 2 = 1 := by
    intro w hw
    rw [TSet.mem_iff_mult_pos _ u3.1 u3.2, u4] at hw
    by_cases hz : 0 < S.mult w
    · exact ho w ((TSet.mem_iff_mult_pos _ hS.1 hS.2.1 w).2 hz)
    · obtain ⟨x, hx, hx0⟩ : ∃ x ∈ Ts.map (fun T => T.mult w), x ≠ 0 := by
        by_contra hcon
        push Not at hcon
        rw [List.sum_eq_zero hcon] at hw
        omega
      obtain ⟨T, hT, rfl⟩ := List.mem_map.1 hx
      exact (hTs T hT).2.2 w ((TSet.mem_iff_mult_pos _ (hTs T hT).1.1 (hTs T hT).1.2.1 w).2 (Nat.pos_of_ne_zero hx0))
  have hsum : W.total.times.sum ≠ 0 := by
    obtain ⟨w, l, hw⟩ := List.exists_cons_of_ne_nil hne
    have hmem : w ∈ W.total.sequences := by
      rw [TSet.mem_iff_mult_pos _ u3.1 u3.2, u4]
      have := (TSet.mem_iff_mult_pos _ hS.1 hS.2.1 w).1 (by rw [hw]; simp)
      omega
    intro hz
    have hl : W.total.times = [] := by
      cases ht : W.total.times with
      | nil => rfl
      | cons t l =>
        have := u3.2 t (by rw [ht]; simp)
        rw [ht, List.sum_cons] at hz
        omega
    have := u3.1.1
    rw [hl] at this
    have hnil : W.total.sequences = [] := List.eq_nil_of_length_eq_zero (by simpa using this.symm)
    rw [hnil] at hmem
    cases hmem
  refine ⟨M', ⟨.inl M', some (avgLogLik M'.lik W.total)⟩, a1, ?_, rfl, rfl, Ts, t1, t3, u4⟩
  rw [e, finish_result _ _ _ (fun h => save_ok _ _ _ _ _ (by rw [a6]; exact hp h))]
  unfold returned
  rw [if_pos hd, hst, if_neg (by simp), M'.logLikelihood_spec (by rw [a4]; exact hn) a3.1 a3.2.2.1 cpus hc W.total hsum hodd]
  rfl

/-- C80, violation: with the default `stormpy_output=True` (and Storm) and `return_data=True` the call never returns, whatever the other arguments. -/
theorem call_data_raises (hst : o.storm = true) (hd : o.data = true) :
    ∃ e, (callBW printable IO name cpus o processes epsilon maxIt0 maxIt lr samples M S).result = .error e := by
  unfold callBW call
  cases trainings (fun M => Prism.saveMDP IO M name) o (train processes epsilon maxIt0) (train processes epsilon maxIt) lr samples ⟨[M], 0, S⟩ with
  | error e => exact ⟨e, rfl⟩
  | ok W' =>
    dsimp only
    cases W'.models[W'.h]? with
    | none => exact ⟨_, rfl⟩
    | some M' =>
      dsimp only
      have hr : returned cpus o W'.total M' = .error .attributeError := by
        unfold returned
        rw [if_pos hd, if_pos hst]
      unfold finish
      by_cases hp : o.prism = true
      · rw [if_pos hp]
        cases hsv : Prism.saveMDP IO M' name with
        | error e => exact ⟨e, by dsimp only; rw [hsv]⟩
        | ok t => exact ⟨_, by dsimp only; rw [hsv]; exact hr⟩
      · rw [if_neg hp]
        exact ⟨_, hr⟩

/-- The exception, when the learning succeeds: AttributeError. The files are written. -/
theorem call_data_error (hs : Samples samples) (hn : M.actions.Nodup) (hM : M.Stochastic) (ho : ∀ w ∈ S.sequences, w.length % 2 = 1)
    (h0 : 0 < maxIt0) (h1 : 0 < maxIt) (hp : o.prism = true → ∃ s, M.initialState s = 1) (hst : o.storm = true) (hd : o.data = true)
    (h : learn processes epsilon maxIt0 maxIt lr samples M S = .ok W) :
    (callBW printable IO name cpus o processes epsilon maxIt0 maxIt lr samples M S).result = .error .attributeError := by
  obtain ⟨M', a1, a2, a3, a4, a5, a6, e⟩ := callBW_eq (printable := printable) (IO := IO) (name := name) (cpus := cpus) hs hn hM ho h0 h1 hp h
  rw [e, finish_result _ _ _ (fun h => save_ok _ _ _ _ _ (by rw [a6]; exact hp h))]
  unfold returned
  rw [if_pos hd, if_pos hst]

/-- C80, violation: with `output_file_prism`, if no state has the initial probability 1, the call raises an exception during the trainings. -/
theorem call_prism_raises (hn : M.actions.Nodup) (ho : ∀ w ∈ S.sequences, w.length % 2 = 1) (hi : ∀ s, M.initialState s ≠ 1) (hp : o.prism = true) :
    ∃ e, trainings (fun M => Prism.saveMDP IO M name) o (train processes epsilon maxIt0) (train processes epsilon maxIt) lr samples ⟨[M], 0, S⟩ = .error e ∧
      (callBW printable IO name cpus o processes epsilon maxIt0 maxIt lr samples M S).result = .error e := by
  suffices ∃ e, trainings (fun M => Prism.saveMDP IO M name) o (train processes epsilon maxIt0) (train processes epsilon maxIt) lr samples ⟨[M], 0, S⟩ = .error e by
    obtain ⟨e, he⟩ := this
    refine ⟨e, he, ?_⟩
    unfold callBW call
    rw [he]
  unfold trainings
  cases hq : superFit (train processes epsilon maxIt0) S [M] 0 with
  | error e => exact ⟨e, by dsimp only; rfl⟩
  | ok q =>
    refine ⟨.indexError, ?_⟩
    dsimp only
    obtain ⟨M0, M1, hM0, hM1, rfl⟩ := superFit_eq hq
    have e0 : M = M0 := by simpa using hM0
    subst e0
    have hi1 : M1.initialState = M.initialState := by
      unfold train at hM1
      obtain ⟨st, hst, hM1⟩ := (Except.bind_eq_ok _ _ _).1 hM1
      obtain ⟨_, _, hM1⟩ := (Except.bind_eq_ok _ _ _).1 hM1
      injection hM1 with hM1
      subst hM1
      exact (MDP.fit_structure _ _ _ _ _ hn ho _ hst).2.2.1
    have hf : firstPrism (fun M => Prism.saveMDP IO M name) o ([M].set 0 M1, 0).1 ([M].set 0 M1, 0).2 = .error .indexError := by
      unfold firstPrism
      rw [if_pos hp]
      simp only [List.set_cons_zero, List.getElem?_cons_zero]
      rw [Prism.save_no_initial_MDP IO M1 (by rw [hi1]; exact hi)]
      rfl
    show (do firstPrism (fun M => Prism.saveMDP IO M name) o ([M].set 0 M1, 0).1 ([M].set 0 M1, 0).2; rounds _ lr samples _ : Py _) = _
    rw [hf]
    rfl

/-- C80, violation: `max_it=0` raises an exception in the first training. -/
theorem call_no_iteration : ∃ e, (callBW printable IO name cpus o processes epsilon 0 maxIt lr samples M S).result = .error e := by
  have ht : train processes epsilon 0 S M = .error .unboundLocalError := by
    unfold train BW.fit
    rw [loop_zero]
    rfl
  have : trainings (fun M => Prism.saveMDP IO M name) o (train processes epsilon 0) (train processes epsilon maxIt) lr samples ⟨[M], 0, S⟩ =
      .error .unboundLocalError := by
    unfold trainings superFit
    simp only [List.getElem?_cons_zero, ht]
    rfl
  unfold callBW call
  rw [this]
  exact ⟨_, rfl⟩

/-- C80: by default the sampled traces are as long as the first trace of the caller's set. -/
theorem sampled_length {L : Type} (S : TSet L) (w : List L) (l : List (List L)) (hS : S.sequences = w :: l) (ho : w.length % 2 = 1) :
    ∃ k, sequenceLength none S = .ok k ∧ 2 * k + 1 = w.length := by
  refine ⟨w.length / 2, ?_, by omega⟩
  unfold sequenceLength
  rw [hS]

/-- C80: with `sequence_length` the sampled traces have this number of actions, and an empty set is refused only by the default. -/
theorem sampled_length_given {L : Type} (S : TSet L) (k : ℕ) : sequenceLength (some k) S = .ok k := rfl

theorem sampled_length_empty {L : Type} (S : TSet L) (hS : S.sequences = []) : sequenceLength none S = .error .indexError := by
  unfold sequenceLength
  rw [hS]

/-- C80, violation: a list of traces, which the documentation allows, always raises an exception: if the first training succeeds, the AttributeError comes after it, unless
`sequence_length` is given, there are no rounds and no `return_data`. -/
theorem callList_raises {A : Type} (first : Py A) (given : Option ℕ) (iterations : ℕ) (data : Bool) (rest : A → Py A)
    (h : given = none ∨ 0 < iterations ∨ data = true) :
    ∃ e, callList first given iterations data rest = .error e ∧ ∀ a, first = .ok a → e = .attributeError := by
  cases first with
  | error e => exact ⟨e, rfl, fun a h => by cases h⟩
  | ok a =>
    refine ⟨.attributeError, ?_, fun _ _ => rfl⟩
    cases given with
    | none => rfl
    | some k =>
      have e : callList (.ok a) (some k) iterations data rest = if 0 < iterations then .error .attributeError else if data then .error .attributeError else rest a := rfl
      rw [e]
      rcases h with h | h | h
      · cases h
      · rw [if_pos h]
      · by_cases h1 : 0 < iterations
        · rw [if_pos h1]
        · rw [if_neg h1, if_pos h]

end Active
end Jajapy
