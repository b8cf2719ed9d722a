import Verif.Model.StormCalls
import Verif.Props.StormImport
import Verif.Props.FinishPCTMC

/-!
Property C122: models given to Storm and Storm models given to the learner.
-/

set_option autoImplicit false
set_option linter.unusedSectionVars false

namespace Jajapy

open Finset Spec BW Files Spec.Storm Tools Create Storm

namespace Storm

section
variable {K : Type} [Field K] [LinearOrder K] [IsStrictOrderedRing K] [FloorRing K]

/-- The models for which the conversion is claimed to be faithful: they are as the constructors make them, no state has the label 'deadlock' and every state of a (P)CTMC is left. -/
def Regular : Obj K → Prop
  | .mc _ M => (∃ s, M.labelling s = "init") ∧ (∀ s, RowOK (M.matrix s)) ∧
      (∀ s, M.initialState s = if M.labelling s = "init" then 1 / ((univ.filter (fun s => M.labelling s = "init")).card : K) else 0) ∧
      ∀ s, M.labelling s ≠ "deadlock"
  | .mdp _ M => (∃ s, M.labelling s = "init") ∧ (∀ s a, RowOK (M.matrix s a)) ∧
      (∀ s, M.initialState s = if M.labelling s = "init" then 1 / ((univ.filter (fun s => M.labelling s = "init")).card : K) else 0) ∧
      ∀ s, M.labelling s ≠ "deadlock"
  | .ctmc _ M => (∃ s, M.labelling s = "init") ∧ (∀ s, M.e s ≠ 0) ∧
      (∀ s, M.initialState s = if M.labelling s = "init" then 1 / ((univ.filter (fun s => M.labelling s = "init")).card : K) else 0) ∧
      ∀ s, M.labelling s ≠ "deadlock"
  | .pctmc M => M.WF ∧ "init" ∈ M.labelling ∧ M.initialState = M.labelling.map (fun i => if i = "init" then 1 / (M.labelling.count "init" : K) else 0) ∧
      M.Full ∧ "deadlock" ∉ M.labelling ∧ ∀ ρ, Extends ρ M.values → ∀ s, (M.chain ρ).e s ≠ 0
  | .hmm _ _ => False
  | .gohmm _ _ _ => False

/-- What a model is after the conversion to Storm and back: the same MC or CTMC; the CTMC of the rates of a PCTMC; a MDP with the same states and probabilities,
where the actions have got the names a0, a1, ... in some order. -/
def Becomes : Obj K → Obj K → Prop
  | .mc n M, y => y = .mc n M
  | .ctmc n M, y => y = .ctmc n M
  | .pctmc M, y => ∀ ρ, Extends ρ M.values → y = .ctmc _ (M.chain ρ)
  | .mdp n M, y => ∃ M' : MDP K String n, y = .mdp n M' ∧ M'.labelling = M.labelling ∧ M'.initialState = M.initialState ∧
      M'.actions.Perm ((List.range M.actions.length).map (fun a => "a" ++ toString a)) ∧
      ∃ h : M'.actions.length = M.actions.length, ∀ s a s', M'.matrix s a s' = M.matrix s (a.cast h) s'
  | .hmm _ _, _ => False
  | .gohmm _ _ _, _ => False

theorem toMDP_states {S S' : Sparse K} (h : S.states = S'.states) (order : List String) : toMDP S order = toMDP S' order := by
  cases S; cases S'
  dsimp only at h
  subst h
  rfl

/-- A MDP converted to Storm and back without the names of its actions. -/
theorem mdp_unnamed {n : ℕ} (M : MDP K String n) (hi : ∃ s, M.labelling s = "init") (hrow : ∀ s a, RowOK (M.matrix s a))
    (hinit : ∀ s, M.initialState s = if M.labelling s = "init" then 1 / ((univ.filter (fun s => M.labelling s = "init")).card : K) else 0)
    (hd : ∀ s, M.labelling s ≠ "deadlock") {order : List String} (ho : SetOrder order (allNames (ofMDP M) [])) :
    ∃ M' : MDP K String n, toMDP (ofMDP M) order = .ok ⟨n, M'⟩ ∧ M'.labelling = M.labelling ∧ M'.initialState = M.initialState ∧
      M'.actions.Perm ((List.range M.actions.length).map (fun a => "a" ++ toString a)) ∧
      ∃ h : M'.actions.length = M.actions.length, ∀ s a s', M'.matrix s a s' = M.matrix s (a.cast h) s' := by
  have hl : ((List.range M.actions.length).map (actionName [])).length = M.actions.length := by simp
  let N : MDP K String n := ⟨(List.range M.actions.length).map (actionName []), fun s a s' => M.matrix s (a.cast hl) s', M.labelling, M.initialState⟩
  have hst : (ofMDP N).states = (ofMDP M).states := by
    simp only [ofMDP]
    congr 1
    funext s
    congr 1
    apply List.ext_getElem
    · simp [N]
    · intro i h1 h2
      simp only [List.getElem_ofFn, N]
      rfl
  have hnd : N.actions.Nodup := (List.nodup_map_iff_inj_on List.nodup_range).2 (fun a _ b _ h => actionName_default h)
  have ho' : SetOrder order (allNames (ofMDP N) N.actions) := by
    refine ⟨ho.1, fun x => ?_⟩
    rw [ho.2, mem_allNames, mem_allNames]
    have : ∀ a, a < M.actions.length → actionName N.actions a = actionName [] a := by
      intro a ha
      conv_lhs => unfold actionName
      rw [if_neg (by show ¬ _ ≤ _; rw [show N.actions.length = M.actions.length from hl]; omega), List.getD_eq_getElem _ _ (by rw [show N.actions.length = M.actions.length from hl]; exact ha)]
      simp [N]
    have e : N.actions.length = M.actions.length := hl
    rw [e]
    constructor
    · rintro ⟨h, a, ha, rfl⟩; exact ⟨h, a, ha, (this a ha).symm⟩
    · rintro ⟨h, a, ha, rfl⟩; exact ⟨h, a, ha, this a ha⟩
  obtain ⟨M', h1, h2, h3, h4, h5, h6, h7⟩ := mdp_round_trip_partial N hi (fun s a => hrow s _) hinit hd hnd ho'
  refine ⟨M', (toMDP_states hst order) ▸ h1, h4, h5, ?_, h6.trans hl, fun s a s' => h7 s a s'⟩
  rw [h2]
  exact h3

/-- C122, to Storm and back: the conversion succeeds and its inverse gives the model again, with the exceptions stated in `Becomes`. (Missing: the names of the actions of a MDP,
the parameters of a PCTMC, and what is excluded by `Regular`.) -/
theorem convert_back_partial (x : Obj K) (h : Regular x) :
    ∃ Z, convert x = .ok Z ∧ ∀ order, (∀ n M, x = .mdp n M → SetOrder order (allNames (ofMDP M) [])) → ∃ y, back order Z = .ok (some y) ∧ Becomes x y := by
  cases x with
  | mc n M =>
    obtain ⟨h1, h2, h3, h4⟩ := h
    refine ⟨_, rfl, fun order _ => ⟨.mc n M, ?_, rfl⟩⟩
    simp only [back]
    rw [mc_round_trip_partial M h1 h2 h3 h4]
    rfl
  | mdp n M =>
    obtain ⟨h1, h2, h3, h4⟩ := h
    refine ⟨_, rfl, fun order ho => ?_⟩
    obtain ⟨M', e1, e2, e3, e4, e5⟩ := mdp_unnamed M h1 h2 h3 h4 (ho n M rfl)
    refine ⟨.mdp n M', ?_, M', rfl, e2, e3, e4, e5⟩
    simp only [back]
    rw [e1]
    rfl
  | ctmc n M =>
    obtain ⟨h1, h2, h3, h4⟩ := h
    refine ⟨_, rfl, fun order _ => ⟨.ctmc n M, ?_, rfl⟩⟩
    simp only [back]
    rw [ctmc_round_trip_partial M h1 h2 h3 h4]
    rfl
  | pctmc M =>
    obtain ⟨hM, hin, hini, hF, hl, he⟩ := h
    have key : ∀ ρ, Extends ρ M.values → ofPCTMC M = .ok (ofCTMC (M.chain ρ)) ∧ toCTMC (ofCTMC (M.chain ρ)) false = .ok (some ⟨_, M.chain ρ⟩) := by
      intro ρ hρ
      have hmk := (M.toCTMC_spec hM ⟨hin, hini⟩ ρ hρ).1 hF
      refine ⟨by unfold ofPCTMC; rw [hmk]; rfl, ?_⟩
      unfold PCTMC.toCTMC at hmk
      split_ifs at hmk
      obtain ⟨res, _, hmk⟩ := (Except.bind_eq_ok _ _ _).1 hmk
      split_ifs at hmk
      obtain ⟨a, b, _, e⟩ := (mkCTMC_ok_iff _ _ _).1 hmk
      refine ctmc_round_trip_partial _ ?_ (he ρ hρ) e.2 ?_
      · obtain ⟨i, hi, hi'⟩ := List.mem_iff_getElem.1 hin
        refine ⟨⟨i, hM.labels ▸ hi⟩, ?_⟩
        show M.labelling.getD i "" = "init"
        simp [hi, hi']
      · intro s hs
        have hs2 : s.val < M.labelling.length := by rw [hM.labels]; exact s.2
        have : M.labelling.getD s "" = "deadlock" := hs
        rw [List.getD_eq_getElem?_getD, List.getElem?_eq_getElem hs2, Option.getD_some] at this
        exact hl (by rw [← this]; exact List.getElem_mem _)
    have h0 : Extends (fun p => (M.values.lookup p).getD 0) M.values := fun p x hx => by simp [hx]
    obtain ⟨k1, k2⟩ := key _ h0
    refine ⟨.ctmc (ofCTMC (M.chain _)), by simp only [convert]; rw [k1]; rfl, fun order _ => ⟨.ctmc _ (M.chain (fun p => (M.values.lookup p).getD 0)), ?_, ?_⟩⟩
    · simp only [back]
      rw [k2]
      rfl
    · intro ρ hρ
      have e := (key ρ hρ).1
      rw [k1] at e
      injection e with e
      have := (key ρ hρ).2
      rw [← e, k2] at this
      injection this with this
      injection this with this
      injection this with _ this
      rw [this]
  | hmm n M => exact h.elim
  | gohmm n d M => exact h.elim

/-- C122: the method `toStormpy` of a MC, CTMC or MDP is the conversion, if stormpy is installed. -/
theorem toStormpy_spec (x : Obj K) (h : Regular x) (hp : ∀ M, x ≠ .pctmc M) : toStormpy true x = convert x ∧ toStormpy false x = .error .runtimeError := by
  cases x with
  | mc n M => exact ⟨rfl, rfl⟩
  | mdp n M => exact ⟨rfl, rfl⟩
  | ctmc n M => exact ⟨rfl, rfl⟩
  | pctmc M => exact absurd rfl (hp M)
  | hmm n M => exact h.elim
  | gohmm n d M => exact h.elim

/-- C122, violation: an instantiated PCTMC can be converted, but it has no method `toStormpy`. -/
theorem pctmc_no_method (installed : Bool) (M : PCTMC K) (h : Regular (.pctmc M)) : toStormpy installed (.pctmc M) = .error .attributeError ∧ ∃ Z, convert (.pctmc M) = .ok Z := by
  obtain ⟨Z, hZ, _⟩ := convert_back_partial (.pctmc M) h
  exact ⟨rfl, Z, hZ⟩

/-- C122: a PCTMC with a parameter without value is refused. -/
theorem pctmc_refused (M : PCTMC K) (hM : M.WF) (hi : "init" ∈ M.labelling ∧
      M.initialState = M.labelling.map (fun i => if i = "init" then 1 / (M.labelling.count "init" : K) else 0)) (hF : ¬ M.Full) :
    convert (.pctmc M) = .error .valueError := by
  simp only [convert, ofPCTMC]
  rw [(M.toCTMC_spec hM hi (fun p => (M.values.lookup p).getD 0) (fun p x hx => by simp [hx])).2 hF]
  rfl

/-- C122: HMMs and GoHMMs are refused, and they have no method `toStormpy`. -/
theorem hmm_refused (installed : Bool) (x : Obj K) (h : (∃ n M, x = .hmm n M) ∨ ∃ n d M, x = .gohmm n d M) :
    convert x = .error .typeError ∧ toStormpy installed x = .error .attributeError := by
  rcases h with ⟨n, M, rfl⟩ | ⟨n, d, M, rfl⟩ <;> exact ⟨rfl, rfl⟩

/-- C122, the initial model of `fit`: the learning starts from the model that the Storm model was made from, as if this one had been given, with the exceptions stated in `Becomes`. -/
theorem initial_model_partial (x : Obj K) (h : Regular x) (nb : Option ℕ) : ∃ Z, convert x = .ok Z ∧ initialModel false [] (.storm Z) nb = .error .runtimeError ∧
    ∀ order, (∀ n M, x = .mdp n M → SetOrder order (allNames (ofMDP M) [])) → ∃ y, initialModel true order (.storm Z) nb = .ok (.model y) ∧ Becomes x y := by
  obtain ⟨Z, h1, h2⟩ := convert_back_partial x h
  refine ⟨Z, h1, rfl, fun order ho => ?_⟩
  obtain ⟨y, h3, h4⟩ := h2 order ho
  refine ⟨y, ?_, h4⟩
  simp only [initialModel, h3]
  rfl

/-- C122, MCs and CTMCs: giving the Storm model is the same as giving the model. -/
theorem initial_model_same (x : Obj K) (h : Regular x) (hx : (∃ n M, x = .mc n M) ∨ ∃ n M, x = .ctmc n M) (nb : Option ℕ) (order : List String) :
    ∃ Z, toStormpy true x = .ok Z ∧ initialModel true order (.storm Z) nb = initialModel true order (.jajapy x) nb := by
  obtain ⟨Z, h1, -, h2⟩ := initial_model_partial x h nb
  refine ⟨Z, ?_, ?_⟩
  · rw [(toStormpy_spec x h (by rintro M rfl; rcases hx with ⟨_, _, h⟩ | ⟨_, _, h⟩ <;> cases h)).1, h1]
  · obtain ⟨y, h3, h4⟩ := h2 order (by rintro n M rfl; rcases hx with ⟨_, _, h⟩ | ⟨_, _, h⟩ <;> cases h)
    rw [h3]
    rcases hx with ⟨n, M, rfl⟩ | ⟨n, M, rfl⟩
    · rw [show y = _ from h4]; rfl
    · rw [show y = _ from h4]; rfl

/-- C122: a chain that was built by Storm, with one initial state, as the initial model: the learning starts from a chain with the same trace probabilities, after a state 'init'
if the initial state has another label. -/
theorem initial_dtmc {S : Sparse K} (hS : Valid S) (h1 : OneAction S) {k : ℕ} (hk : OnlyInit S k)
    (hsum : ∀ i < S.states.length, ∑ j : Fin S.states.length, value S i 0 j = 1) (order : List String) (nb : Option ℕ) :
    ∃ n, ∃ M : MC K String n, initialModel true order (.storm (.dtmc S)) nb = .ok (.model (.mc n M)) ∧
      (Named (labels S k) → n = S.states.length + 1 ∧ ∀ w ≠ [], M.lik ("init" :: w) = prob S k w) ∧
      (¬ Named (labels S k) → n = S.states.length ∧ ∀ w, M.lik w = prob S k w) := by
  obtain ⟨n, M, e, h⟩ := toMC_spec hS h1 hk hsum
  refine ⟨n, M, ?_, h⟩
  simp only [initialModel, back, e]
  rfl

/-- C122: a parametric CTMC that was built by Storm, with one initial state, as the initial model: the learning starts from a PCTMC with the same expressions, whose parameters have no
value. (Missing: 65535 transitions or more.) -/
theorem initial_parametric_partial {S : Sparse (Expr K)} (hS : Valid S) (h1 : OneAction S) {k : ℕ} (hk : OnlyInit S k) (hts : (transitions S).length + 1 < 65536)
    (order : List String) (nb : Option ℕ) :
    ∃ M : PCTMC K, initialModel true order (.storm (.pctmc S)) nb = .ok (.model (.pctmc M)) ∧
      (∀ i j e, Entry S i 0 j e → M.transitionExpression i j = .ok e) ∧
      (∀ i j : Fin S.states.length, (∀ e, ¬ Entry S i 0 j e) → M.transitionExpression i j = .ok (.num 0)) ∧
      (∀ p, p ∈ M.names ↔ ∃ i j e, Entry S i 0 j e ∧ p ∈ e.free) ∧ M.values = [] := by
  obtain ⟨M, e, -, -, h3, h4, -, h5, -, h6, -⟩ := toPCTMC_spec_partial hS h1 hk hts
  refine ⟨M, ?_, h3, h4, h5, h6⟩
  simp only [initialModel, back, e]
  rfl

/-- C122: what is refused: a Storm model of another kind, and no initial model without a number of states. -/
theorem initial_refused (installed : Bool) (order : List String) (nb : Option ℕ) : back (K := K) order .other = .error .typeError ∧
    initialModel (K := K) true order (.storm .other) nb = .error .typeError ∧ initialModel (K := K) installed order .nothing none = .error .runtimeError :=
  ⟨rfl, rfl, rfl⟩

/-- C122: the given model is used whatever `nb_states`; without one the model is random with `nb_states` states. -/
theorem initial_given (installed : Bool) (order : List String) (nb : Option ℕ) (x : Obj K) (k : ℕ) : initialModel installed order (.jajapy x) nb = .ok (.model x) ∧
    initialModel (K := K) installed order .nothing (some k) = .ok (.random k) :=
  ⟨rfl, rfl⟩

/-- C122, violation: a MDP given to `fit` as a Storm model loses its actions: an action whose name is not `a` and a number is not an action of the model that the learning starts from. -/
theorem initial_mdp_renamed {n : ℕ} (M : MDP K String n) (h : Regular (.mdp n M)) {order : List String} (ho : SetOrder order (allNames (ofMDP M) [])) (nb : Option ℕ)
    (a : String) (ha : ∀ k : ℕ, a ≠ "a" ++ toString k) :
    ∃ Z M', toStormpy true (.mdp n M) = .ok Z ∧ initialModel true order (.storm Z) nb = .ok (.model (.mdp n M')) ∧ a ∉ M'.actions := by
  obtain ⟨Z, h1, -, h2⟩ := initial_model_partial _ h nb
  obtain ⟨y, h3, M', rfl, -, -, h4, -⟩ := h2 order (by rintro n' M' e; cases e; exact ho)
  refine ⟨Z, M', h1, h3, fun hm => ?_⟩
  obtain ⟨k, -, hk⟩ := List.mem_map.1 (h4.mem_iff.1 hm)
  exact ha k hk.symm

end

/-! ### Learning in two calls with a Storm model in between -/

section
variable (printable : Char → Bool) (IO : FloatIO ℝ) {n : ℕ} (name : List Char) (processes : ℕ) (epsilon : ℝ) (maxIt : ℕ)

/-- C122, MCs: the Storm model that `fit` returns, given to `fit` again, is the learnt model. -/
theorem continue_mc (matrix : Fin n → Fin n → ℝ) (lab : List String) (M : MC ℝ String n) (S : TSet String) (st : LoopState (MC ℝ String n))
    (hM : mkMC matrix lab = .ok M) (hV : M.Stochastic) (hst : fit (stepMC processes S) epsilon maxIt M = .ok st) (hl : ∀ s, M.labelling s ≠ "deadlock")
    (order : List String) (nb : Option ℕ) :
    ∃ x Z, (callMC printable IO name ⟨false, false, true, false⟩ processes S epsilon maxIt M).result = .ok x ∧ x.model = .inr Z ∧
      initialModel true order (.storm (.dtmc Z)) nb = .ok (.model (.mc n st.h)) := by
  obtain ⟨x, h1, -, h2, -⟩ := MC.call_returns_partial printable IO matrix lab M name ⟨false, false, true, false⟩ processes S epsilon maxIt st hM hV hst (by simp) (by simp) hl
  obtain ⟨Z, h3, h4, -⟩ := h2 rfl
  refine ⟨x, Z, h1, h3, ?_⟩
  simp only [initialModel, back, h4]
  rfl

/-- C122, CTMCs: the Storm model that `fit` returns, given to `fit` again, is the learnt model. -/
theorem continue_ctmc (matrix : Fin n → Fin n → ℝ) (lab : List String) (M : CTMC ℝ String n) (fixed : Fin n → Fin n → Bool) (S : TSet (Sym String)) (st : LoopState (CTMC ℝ String n))
    (hM : mkCTMC matrix lab = .ok M) (hV : M.Valid) (hS : CTMC.TimedSet S) (hw : WaitsNonneg S) (he : ∀ s, M.e s ≠ 0)
    (hst : fit (stepTimed processes fixed S) epsilon maxIt M = .ok st) (hl : ∀ s, M.labelling s ≠ "deadlock") (order : List String) (nb : Option ℕ) :
    ∃ x Z, (callCTMC printable IO name ⟨false, false, true, false⟩ processes fixed S epsilon maxIt M).result = .ok x ∧ x.model = .inr Z ∧
      initialModel true order (.storm (.ctmc Z)) nb = .ok (.model (.ctmc n st.h)) := by
  obtain ⟨x, h1, -, h2, -⟩ := CTMC.call_returns_partial printable IO matrix lab M name ⟨false, false, true, false⟩ processes fixed S epsilon maxIt st hM hV hS hw hst (by simp) (by simp) hl
  obtain ⟨Z, h3, h4⟩ := h2 rfl he
  refine ⟨x, Z, h1, h3, ?_⟩
  simp only [initialModel, back, h4]
  rfl

end

/-! ### The hypotheses can be met -/

/-- A MC with two initial states, a CTMC and a MDP. -/
example : Regular (K := ℚ) (.mc 3 ⟨fun _ s' => if s' = 2 then 1/2 else 1/4, fun s => if s = 2 then "x" else "init", fun s => if s = 2 then 0 else 1/2⟩) ∧
    Regular (K := ℚ) (.ctmc 2 ⟨fun s _ => if s = 0 then 3 else 1/2, fun s => if s = 0 then "init" else "x", fun s => if s = 0 then 1 else 0⟩) ∧ Regular (.mdp 2 abMDP) :=
  ⟨⟨⟨0, by decide⟩, by decide +kernel, by decide +kernel, by decide⟩, ⟨⟨0, by decide⟩, by decide +kernel, by decide +kernel, by decide⟩,
    ⟨0, by decide⟩, by decide +kernel, by decide +kernel, by decide⟩

/-- A PCTMC with two parameters. -/
theorem exModel_regular : Regular (K := ℚ) (.pctmc (PCTMC.exModel ℚ [("x", 1/2), ("y", 3)])) := by
  refine ⟨PCTMC.exModel_wf _, by decide, by decide +kernel, PCTMC.exModel_full _ _, by decide, fun ρ hρ s => ?_⟩
  have hx := hρ "x" (1/2) (by decide +kernel)
  have hy := hρ "y" 3 (by decide +kernel)
  have he : ((PCTMC.exModel ℚ [("x", 1/2), ("y", 3)]).chain ρ).e s = ∑ j : Fin 3, ((PCTMC.exModel ℚ [("x", 1/2), ("y", 3)]).rateExpr s.val j.val).den ρ := rfl
  rw [he, Fin.sum_univ_three]
  obtain ⟨s, hs⟩ := s
  have hs : s < 3 := hs
  interval_cases s <;> simp [PCTMC.rateExpr, PCTMC.exModel, Expr.den, hx, hy]

/-- `abMDP` has the actions 'a' and 'b'; the model that the learning starts from has 'a0' and 'a1' and cannot read its traces. -/
example : SetOrder ["a0", "a1"] (allNames (ofMDP abMDP) []) ∧ "b" ∈ abMDP.actions ∧ (∀ k : ℕ, "b" ≠ "a" ++ toString k) ∧
    (match initialModel true ["a0", "a1"] (.storm (.mdp (ofMDP abMDP))) none with | .ok (.model (.mdp _ M)) => M.actions | _ => []) = ["a0", "a1"] := by
  refine ⟨⟨by decide, fun x => ?_⟩, by decide, fun k h => ?_, by decide +kernel⟩
  · rw [show allNames (ofMDP abMDP) [] = ["a0", "a1", "a0", "a1"] by decide +kernel]
    simp only [List.mem_cons, List.not_mem_nil, or_false]
    tauto
  · have := congrArg String.toList h
    rw [String.toList_append] at this
    simp at this

end Storm
end Jajapy
