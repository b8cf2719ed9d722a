import Verif.Model.FinishPCTMC
import Verif.Lemmas.Compose
import Verif.Props.Finish
import Verif.Props.Loop
import Verif.Props.PFit
import Verif.Props.PFiles
import Verif.Props.PrismPCTMC

/-!
C79 for PCTMCs: what `fit`, `fit_parameters` and `fit_nonInstantiatedParameters` write and return is the learnt model.
-/

set_option linter.unusedSectionVars false

namespace Jajapy

open Finset Spec BW Files Spec.Storm Tools Create

namespace PCTMC

/-! ### The dictionary of values -/

section
variable {K : Type} [Field K] [LinearOrder K]

theorem dictSet_nodup (v : Valuation K) (p : String) (x : K) (h : (v.map Prod.fst).Nodup) : ((dictSet v p x).map Prod.fst).Nodup := by
  unfold dictSet
  split_ifs with hs
  · have : (v.map (fun q => if q.1 = p then (p, x) else q)).map Prod.fst = v.map Prod.fst := by
      rw [List.map_map]
      refine List.map_congr_left (fun q _ => ?_)
      simp only [Function.comp]
      split_ifs with hq
      · exact hq.symm
      · rfl
    rw [this]
    exact h
  · rw [List.map_append, List.nodup_append]
    refine ⟨h, by simp, ?_⟩
    intro a ha b hb hab
    simp only [List.map_cons, List.map_nil, List.mem_singleton] at hb
    subst hb hab
    obtain ⟨q, hq, hq'⟩ := List.mem_map.1 ha
    refine hs ?_
    rw [isSome_known]
    exact ⟨q.2, by rw [← hq']; exact hq⟩

/-- The new dictionary has the old keys and the given ones, once each. -/
theorem newValues_keys (M : PCTMC K) (ps : List String) (xs : List K) :
    ((M.values.map Prod.fst).Nodup → ((M.newValues ps xs).map Prod.fst).Nodup) ∧
    ∀ p, Known (M.newValues ps xs) p ↔ Known M.values p ∨ p ∈ (ps.zip xs).map Prod.fst := by
  unfold newValues
  generalize ps.zip xs = l
  generalize M.values = v
  induction l generalizing v with
  | nil => exact ⟨id, fun p => by simp⟩
  | cons q l ih =>
    obtain ⟨h1, h2⟩ := ih (dictSet v q.1 q.2)
    rw [List.foldl_cons]
    refine ⟨fun h => h1 (dictSet_nodup _ _ _ h), fun p => ?_⟩
    rw [h2, Compose.known_dictSet, List.map_cons, List.mem_cons]
    tauto

theorem instantiate_keys (M : PCTMC K) (ps : List String) (xs : List K) (b : Bool) (M' : PCTMC K) (h : M.instantiate ps xs = .ok (b, M')) :
    ((M.values.map Prod.fst).Nodup → (M'.values.map Prod.fst).Nodup) ∧ (∀ p, Known M.values p → Known M'.values p) ∧
    (b = true → ps.length = xs.length → ∀ p ∈ ps, Known M'.values p) := by
  unfold instantiate at h
  obtain ⟨c, _, h⟩ := (Except.bind_eq_ok _ _ _).1 h
  obtain ⟨k1, k2⟩ := M.newValues_keys ps xs
  split_ifs at h
  · simp only [pure, Except.pure, Except.ok.injEq, Prod.mk.injEq] at h
    obtain ⟨_, rfl⟩ := h
    refine ⟨k1, fun p hp => (k2 p).2 (Or.inl hp), fun _ hl p hp => (k2 p).2 (Or.inr ?_)⟩
    rw [List.map_fst_zip (le_of_eq hl)]
    exact hp
  · simp only [pure, Except.pure, Except.ok.injEq, Prod.mk.injEq] at h
    obtain ⟨rfl, rfl⟩ := h
    exact ⟨id, fun _ h => h, fun h => by cases h⟩

theorem instantiateLoop_keys (M : PCTMC K) (ps : List String) (lo hi : K) (rounds : List (List K)) (M' : PCTMC K)
    (h : M.instantiateLoop ps lo hi rounds = .ok (some M')) :
    ((M.values.map Prod.fst).Nodup → (M'.values.map Prod.fst).Nodup) ∧ (∀ p, Known M.values p → Known M'.values p) ∧
    ((∀ r ∈ rounds, r.length = ps.length) → ∀ p ∈ ps, Known M'.values p) := by
  induction rounds generalizing M with
  | nil => simp [instantiateLoop] at h
  | cons r rounds ih =>
    unfold instantiateLoop at h
    obtain ⟨⟨b, N⟩, hN, h⟩ := (Except.bind_eq_ok _ _ _).1 h
    obtain ⟨k1, k2, k3⟩ := M.instantiate_keys _ _ _ _ hN
    dsimp only at h
    split_ifs at h with hb
    · simp only [pure, Except.pure, Except.ok.injEq, Option.some.injEq] at h
      subst h
      exact ⟨k1, k2, fun hl => k3 hb (by rw [List.length_map, hl r (by simp)])⟩
    · obtain ⟨i1, i2, i3⟩ := ih N h
      exact ⟨fun hh => i1 (k1 hh), fun p hp => i2 p (k2 p hp), fun hl => i3 (fun r hr => hl r (List.mem_cons_of_mem _ hr))⟩

end

theorem fitStep_keys (processes : ℕ) (M : PCTMC ℝ) (C : Cats ℝ) (constants : Bool) (S : TSet (Sym String)) (N : PCTMC ℝ) (ll : ℝ)
    (h : fitStep processes C constants S M = .ok (N, ll)) :
    ((M.values.map Prod.fst).Nodup → (N.values.map Prod.fst).Nodup) ∧ ∀ p, Known M.values p → Known N.values p := by
  unfold fitStep at h
  obtain ⟨H, _, h⟩ := (Except.bind_eq_ok _ _ _).1 h
  obtain ⟨res, _, h⟩ := (Except.bind_eq_ok _ _ _).1 h
  obtain ⟨temp, _, h⟩ := (Except.bind_eq_ok _ _ _).1 h
  have key : ∀ M1 : PCTMC ℝ, M1.values = M.values → M1.update C (temp.map (·.2)) = .ok (N, ll) →
      ((M.values.map Prod.fst).Nodup → (N.values.map Prod.fst).Nodup) ∧ ∀ p, Known M.values p → Known N.values p := by
    intro M1 h1 hu
    unfold update at hu
    obtain ⟨v2, _, hu⟩ := (Except.bind_eq_ok _ _ _).1 hu
    obtain ⟨v3, _, hu⟩ := (Except.bind_eq_ok _ _ _).1 hu
    obtain ⟨⟨b, M'⟩, hM', hu⟩ := (Except.bind_eq_ok _ _ _).1 hu
    simp only [pure, Except.pure, Except.ok.injEq, Prod.mk.injEq] at hu
    obtain ⟨rfl, _⟩ := hu
    obtain ⟨k1, k2, _⟩ := M1.instantiate_keys _ _ _ _ hM'
    rw [h1] at k1 k2
    exact ⟨k1, k2⟩
  cases constants with
  | false => exact key _ rfl h
  | true => exact key { M with exprs := M.newExprs (temp.map (·.1)) } rfl h

/-! ### The calls -/

/-- `fit` without options is the preparation and the loop. -/
theorem fit_eq_ok (processes : ℕ) (S : Traces) (M : PCTMC ℝ) (fixedArg : FixedArg) (constants : Bool) (epsilon : ℝ)
    (maxIt : ℕ) (lo hi : Option ℝ) (rounds : List (List ℝ)) (M' : PCTMC ℝ) :
    M.fit processes S fixedArg constants epsilon maxIt lo hi rounds = .ok (some M') ↔
      ∃ M0 C S' st, M.ready S fixedArg lo hi rounds = .ok (some (M0, C, S')) ∧
        BW.fit (iteration processes C constants S') epsilon maxIt M0 = .ok st ∧ st.h = M' := by
  constructor
  · intro h
    unfold fit at h
    obtain ⟨S', hS', h⟩ := (Except.bind_eq_ok _ _ _).1 h
    obtain ⟨o, ho, h⟩ := (Except.bind_eq_ok _ _ _).1 h
    cases o with
    | none => simp [pure, Except.pure] at h
    | some M0 =>
      dsimp only at h
      obtain ⟨fixed, hf, h⟩ := (Except.bind_eq_ok _ _ _).1 h
      obtain ⟨C, hC, h⟩ := (Except.bind_eq_ok _ _ _).1 h
      obtain ⟨st, hst, h⟩ := (Except.bind_eq_ok _ _ _).1 h
      simp only [pure, Except.pure, Except.ok.injEq, Option.some.injEq] at h
      refine ⟨M0, C, S', st, ?_, ?_, h⟩
      · unfold ready
        rw [hS', Except.bind_eq_ok]
        refine ⟨S', rfl, ?_⟩
        rw [ho, Except.bind_eq_ok]
        refine ⟨some M0, rfl, ?_⟩
        dsimp only
        rw [hf]
        simp only [bind, Except.bind, hC]
        rfl
      · cases S' <;> exact hst
  · rintro ⟨M0, C, S', st, h, hst, rfl⟩
    unfold ready at h
    obtain ⟨S'', hS', h⟩ := (Except.bind_eq_ok _ _ _).1 h
    obtain ⟨o, ho, h⟩ := (Except.bind_eq_ok _ _ _).1 h
    cases o with
    | none => simp [pure, Except.pure] at h
    | some M1 =>
      dsimp only at h
      obtain ⟨fixed, hf, h⟩ := (Except.bind_eq_ok _ _ _).1 h
      obtain ⟨C', hC, h⟩ := (Except.bind_eq_ok _ _ _).1 h
      simp only [pure, Except.pure, Except.ok.injEq, Option.some.injEq, Prod.mk.injEq] at h
      obtain ⟨rfl, rfl, rfl⟩ := h
      unfold fit
      rw [hS', Except.bind_eq_ok]
      refine ⟨S'', rfl, ?_⟩
      rw [ho, Except.bind_eq_ok]
      refine ⟨some M1, rfl, ?_⟩
      dsimp only
      rw [hf]
      simp only [bind, Except.bind, hC]
      cases S'' <;> (unfold iteration at hst; rw [hst]; rfl)

section
variable {S : Traces} {M : PCTMC ℝ} {fixedArg : FixedArg} {lo hi : Option ℝ} {rounds : List (List ℝ)} {M0 : PCTMC ℝ} {C : Cats ℝ} {S' : Traces}
  {processes : ℕ} {constants : Bool} {epsilon : ℝ} {maxIt : ℕ} {st : LoopState (PCTMC ℝ)}

theorem ready_keys (h : M.ready S fixedArg lo hi rounds = .ok (some (M0, C, S'))) :
    ∃ fixed, fixedArg.resolve M0 = .ok fixed ∧ M0.sortParameters fixed = .ok C ∧ (M.WF → M0 = { M with values := M0.values }) ∧
    ((M.values.map Prod.fst).Nodup → (M0.values.map Prod.fst).Nodup) ∧
    ((∀ r ∈ rounds, r.length = (M.names.filter (fun p => !M.hasValue p)).length) → ∀ p ∈ M.names, Known M0.values p) := by
  unfold ready at h
  obtain ⟨S'', hS', h⟩ := (Except.bind_eq_ok _ _ _).1 h
  obtain ⟨o, ho, h⟩ := (Except.bind_eq_ok _ _ _).1 h
  cases o with
  | none => simp [pure, Except.pure] at h
  | some M1 =>
    dsimp only at h
    obtain ⟨fixed, hf, h⟩ := (Except.bind_eq_ok _ _ _).1 h
    obtain ⟨C', hC, h⟩ := (Except.bind_eq_ok _ _ _).1 h
    simp only [pure, Except.pure, Except.ok.injEq, Option.some.injEq, Prod.mk.injEq] at h
    obtain ⟨rfl, rfl, rfl⟩ := h
    unfold randomInstantiation at ho
    obtain ⟨k1, k2, k3⟩ := M.instantiateLoop_keys _ _ _ _ _ ho
    refine ⟨fixed, hf, hC, fun hM => (M.instantiateLoop_frame hM _ _ _ _ _ ho).1, k1, fun hl p hp => ?_⟩
    by_cases hk : M.hasValue p = true
    · refine k2 p ?_
      rw [← isSome_known]
      exact hk
    · exact k3 hl p (List.mem_filter.2 ⟨hp, by simpa using hk⟩)

/-- The learnt model has the states, the labels, the transitions and the parameters of the given one; every parameter has one value. -/
theorem learnt_keys (hM : M.WF) (h : M.ready S fixedArg lo hi rounds = .ok (some (M0, C, S')))
    (hst : BW.fit (iteration processes C constants S') epsilon maxIt M0 = .ok st) :
    st.h = { M with values := st.h.values, exprs := st.h.exprs } ∧ st.h.exprs.length = M.exprs.length ∧ st.h.WF ∧
    ((M.values.map Prod.fst).Nodup → (st.h.values.map Prod.fst).Nodup) ∧
    ((∀ r ∈ rounds, r.length = (M.names.filter (fun p => !M.hasValue p)).length) → st.h.Full) ∧ st.h.exprs[0]? = M.exprs[0]? := by
  obtain ⟨fixed, hf, hC, h1, h2, h3⟩ := ready_keys h
  have hM0 : M0.WF := by rw [h1 hM]; exact ⟨hM.square, hM.labels, hM.init, hM.bound, hM.declared⟩
  have inv := loop_invariant _ _ (fun N : PCTMC ℝ => M0.Kept fixed constants N ∧ ((M0.values.map Prod.fst).Nodup → (N.values.map Prod.fst).Nodup) ∧
    ∀ p, Known M0.values p → Known N.values p) ?_ _ _ _ ⟨Kept.refl _ _ _, id, fun _ h => h⟩ hst
  · obtain ⟨i1, i2, i3⟩ := inv
    have e1 := i1.same
    refine ⟨?_, ?_, i1.wf hM0, fun hn => i2 (h2 hn), fun hl p hp => ?_, by rw [i1.zero, h1 hM]⟩
    · rw [h1 hM] at e1
      exact e1
    · rw [i1.length, h1 hM]
    · have : st.h.names = M.names := by rw [e1, h1 hM]
      rw [this] at hp
      exact i3 p (h3 hl p hp)
  · intro N R ll hN hs
    cases S' with
    | untimed T => exact absurd hs (fitStepUntimed_error _ _ _ _)
    | timed T =>
      obtain ⟨k1, k2⟩ := fitStep_keys _ _ _ _ _ _ _ hs
      refine ⟨hN.1.trans (fitStep_kept processes N (hN.1.wf hM0) fixed C ?_ constants T R ll hs), fun hn => k1 (hN.2.1 hn), fun p hp => k2 p (hN.2.2 p hp)⟩
      intro p hp
      have hn : N.names = M0.names := by rw [hN.1.same]
      rw [hn]
      exact M0.sortParameters_mem fixed C hC p hp

/-- The conversion to Storm of a model where every parameter has a value. -/
theorem ofPCTMC_chain {M : PCTMC ℝ} (hM : M.WF) (hi : "init" ∈ M.labelling ∧
      M.initialState = M.labelling.map (fun i => if i = "init" then 1 / (M.labelling.count "init" : ℝ) else 0)) (hF : M.Full)
    (ρ : String → ℝ) (hρ : Extends ρ M.values) : Storm.ofPCTMC M = .ok (Storm.ofCTMC (M.chain ρ)) := by
  unfold Storm.ofPCTMC
  rw [(M.toCTMC_spec hM hi ρ hρ).1 hF]
  rfl

variable (printable : Char → Bool) (IO : FloatIO ℝ) (EIO : ExprIO ℝ) (name : List Char) (o : Options)

theorem callFit_eq (h : M.ready S fixedArg lo hi rounds = .ok (some (M0, C, S'))) :
    M.callFit printable IO EIO name o processes S fixedArg constants epsilon maxIt lo hi rounds =
      some (BW.call (fun M => Files.savePCTMC printable IO EIO M name) (fun M => Prism.savePCTMC IO EIO M name) Storm.ofPCTMC true o
        (iteration processes C constants S') epsilon maxIt M0) := by
  unfold callFit
  rw [h]

/-- C79, PCTMC: the file given by `output_file` is loaded back as the learnt model. (Missing: the synchronous transitions, which are never written.) -/
theorem call_file_partial {matrix : List (List ℕ)} {labelling : List String} {exprs : List (Expr ℝ)} {values : List (String × Option ℝ)}
    {indexes : List (List (ℕ × ℕ))} {names : List String} {sync : List (ℕ × String × ℕ × Expr ℝ)}
    (hmk : mkPCTMC matrix labelling exprs values indexes names sync = .ok M) (hM : M.WF) (hd : (values.map Prod.fst).Nodup)
    (h : M.ready S fixedArg lo hi rounds = .ok (some (M0, C, S')))
    (hst : BW.fit (iteration processes C constants S') epsilon maxIt M0 = .ok st) (hn : OneLine name)
    (hv : ∀ p ∈ st.h.values, IO.dom p.2) (he : ∀ e ∈ st.h.exprs, EIO.dom e) :
    ∃ r, M.callFit printable IO EIO name o processes S fixedArg constants epsilon maxIt lo hi rounds = some r ∧
      (o.file = true → ∃ t, r.file = some t ∧ loadPCTMC IO EIO t = .ok (name, { st.h with sync := [] })) ∧ (o.file = false → r.file = none) := by
  obtain ⟨l1, l2, l3, l4, _⟩ := learnt_keys hM h hst
  refine ⟨_, callFit_eq _ _ _ _ _ h, ?_, ?_⟩
  · intro hf
    rw [call_eq _ _ _ _ _ _ _ _ _ hst, finish_file, if_pos hf]
    obtain ⟨a, b⟩ := mkPCTMC_self _ _ _ _ _ _ _ M hmk
    rw [mkPCTMC_ok_iff _ _ _ _ _ _ _ hM.square] at b
    obtain ⟨⟨b1, b2, b3, b4⟩, c1, c2, c3, c4, c5, c6, c7, c8⟩ := b
    have e1 : st.h.matrix = M.matrix := by rw [l1]
    have e2 : st.h.labelling = M.labelling := by rw [l1]
    have e3 : st.h.indexes = M.indexes := by rw [l1]
    have e4 : st.h.names = M.names := by rw [l1]
    have e5 : st.h.initialState = M.initialState := by rw [l1]
    have hk : mkPCTMC st.h.matrix st.h.labelling st.h.exprs (st.h.values.map (fun p => (p.1, some p.2))) st.h.indexes st.h.names st.h.sync = .ok st.h := by
      rw [mkPCTMC_ok_iff _ _ _ _ _ _ _ l3.square]
      refine ⟨⟨by rw [e2]; exact b1, by rw [e3, e4]; exact b2, l3.bound, l3.labels⟩, rfl, rfl, rfl, rfl, rfl, rfl, ?_, ?_⟩
      · rw [List.filterMap_map]
        simp only [Function.comp_def, Option.map_some, Prod.mk.eta, List.filterMap_some]
      · rw [e2, e5]
        exact c8
    refine ⟨_, rfl, loadPCTMC_savePCTMC_partial printable IO EIO _ _ _ _ _ _ _ st.h hk l3.square name hn (l4 ?_) hv he⟩
    obtain ⟨m, hm⟩ : ∃ f, M.values = List.filterMap f values ∧ ∀ p q, f p = some q → q.1 = p.1 := by
      have := ((mkPCTMC_ok_iff _ _ _ _ _ _ _ (by rw [← a]; exact hM.square) M).1 hmk).2
      refine ⟨_, this.2.2.2.2.2.2.1, ?_⟩
      intro p q hq
      obtain ⟨x, _, rfl⟩ := Option.map_eq_some_iff.1 hq
      rfl
    rw [hm.1]
    have hs : ((List.filterMap m values).map Prod.fst).Sublist (values.map Prod.fst) := by
      have hm2 := hm.2
      clear hd hmk hm
      induction values with
      | nil => exact List.Sublist.slnil
      | cons p l ih =>
        rw [List.filterMap_cons]
        cases hp : m p with
        | none => exact List.Sublist.cons _ ih
        | some q =>
          rw [List.map_cons, List.map_cons, hm2 p q hp]
          exact List.Sublist.cons₂ _ ih
    exact hd.sublist hs
  · intro hf
    rw [call_eq _ _ _ _ _ _ _ _ _ hst, finish_file, hf]
    rfl

/-- The Prism file of a model of the constructor exists if some state has the initial probability 1. -/
theorem savePrism_ok {M : PCTMC ℝ} (hM : M.WF) (hi : (1 : ℝ) ∈ M.initialState) : ∃ t, Prism.savePCTMC IO EIO M name = .ok t := by
  obtain ⟨k, hk, hk'⟩ := List.mem_iff_getElem.1 hi
  obtain ⟨i, hi'⟩ := Prism.initialIndex_ok (fun s : Fin M.initialState.length => M.initialState[s]) ⟨⟨k, hk⟩, hk'⟩
  have e : List.ofFn (fun s : Fin M.initialState.length => M.initialState[s]) = M.initialState := List.ofFn_getElem ..
  rw [e] at hi'
  unfold Prism.savePCTMC
  rw [hi']
  have hrow : ∀ p ∈ M.matrix.zipIdx, ∃ t, Prism.rowTextPCTMC EIO M.exprs p.2 p.1 = .ok t := by
    intro p hp
    have hp1 : p.1 ∈ M.matrix := by
      obtain ⟨a, b⟩ := p
      exact (List.mem_zipIdx' hp).2 ▸ List.getElem_mem _
    unfold Prism.rowTextPCTMC
    split_ifs
    · rw [List.mapM_ok _ (fun q : ℕ × ℕ => (Prism.replaceStars (EIO.str (M.exprs.getD q.1 (.num 0))).toList, q.2))]
      · exact ⟨_, rfl⟩
      · intro q hq
        have hq1 : q.1 ∈ p.1 := by
          obtain ⟨a, b⟩ := q
          exact (List.mem_zipIdx' (List.mem_of_mem_filter hq)).2 ▸ List.getElem_mem _
        have := hM.bound _ hp1 _ hq1
        rw [List.getElem?_eq_getElem this]
        simp [this]
    · exact ⟨_, rfl⟩
  have hall : ∀ l : List (List ℕ × ℕ), (∀ p ∈ l, ∃ t, Prism.rowTextPCTMC EIO M.exprs p.2 p.1 = .ok t) →
      ∃ c, l.mapM (fun p => Prism.rowTextPCTMC EIO M.exprs p.2 p.1) = .ok c := by
    intro l
    induction l with
    | nil => exact fun _ => ⟨_, rfl⟩
    | cons p l ih =>
      intro h
      obtain ⟨t, ht⟩ := h p (by simp)
      obtain ⟨c, hc⟩ := ih (fun q hq => h q (List.mem_cons_of_mem _ hq))
      rw [List.mapM_cons, ht, hc]
      exact ⟨_, rfl⟩
  obtain ⟨c, hc⟩ := hall _ hrow
  simp only [bind, Except.bind, hc]
  exact ⟨_, rfl⟩

/-- C79, PCTMC: the file given by `output_file_prism` is a Prism program for the learnt model: the parameters with their learnt values, the rates of the transitions
as expressions of the parameters, and the labels. -/
theorem call_prism_partial {n : ℕ} {m : Fin n → Fin n → ℕ} {label : Fin n → String} {init : Fin n → ℝ} {expr : List Spec.Prism.Tok → Option (Expr ℝ)} (hM : M.WF)
    (hmat : M.matrix = List.ofFn (fun i => List.ofFn (m i))) (hlab : M.labelling = List.ofFn label) (hinit : M.initialState = List.ofFn init)
    (h : M.ready S fixedArg lo hi rounds = .ok (some (M0, C, S')))
    (hst : BW.fit (iteration processes C constants S') epsilon maxIt M0 = .ok st) (hn : Spec.Prism.IsName name)
    (hl : ∀ s, label s ≠ "init" → Spec.Prism.IsName (label s).toList) (hi' : ∃ s, init s = 1)
    (hp : ∀ p ∈ M.names, Spec.Prism.IsName p.toList) (hpn : M.names.Nodup) (hps : "s" ∉ M.names)
    (hv : ∀ p ∈ M.names, ∀ v, st.h.values.lookup p = some v → IO.dom v ∧ Prism.Decimal (IO.repr v))
    (he : ∀ i j, m i j ≠ 0 → ∀ e, st.h.exprs[m i j]? = some e → ∃ t, Spec.Prism.Powers (EIO.str e).toList t ∧ Prism.TextOf expr t e) (hpr : o.prism = true) :
    ∃ r t P start, M.callFit printable IO EIO name o processes S fixedArg constants epsilon maxIt lo hi rounds = some r ∧ r.prism = some t ∧
      Spec.Prism.readPrism IO.parse expr t = some P ∧ P.name = name ∧ init start = 1 ∧
      Spec.Prism.DescribesP P (M.names.map (fun p => (p.toList, st.h.values.lookup p))) start
        (fun s j => if m s j = 0 then none else st.h.exprs[m s j]?) label := by
  obtain ⟨l1, l2, l3, l4, _⟩ := learnt_keys hM h hst
  have e1 : st.h.matrix = M.matrix := by rw [l1]
  have e2 : st.h.labelling = M.labelling := by rw [l1]
  have e4 : st.h.names = M.names := by rw [l1]
  have e5 : st.h.initialState = M.initialState := by rw [l1]
  obtain ⟨t, P, start, h1, h2, h3, h4, h5⟩ := Prism.savePCTMC_describes_partial IO EIO (expr := expr) st.h hn (by rw [e1]; exact hmat)
    (fun i j => l3.bound (List.ofFn (m i)) (by rw [e1, hmat]; exact List.mem_ofFn.2 ⟨i, rfl⟩) _ (List.mem_ofFn.2 ⟨j, rfl⟩))
    (by rw [e2]; exact hlab) hl (by rw [e5]; exact hinit) hi' (by rw [e4]; exact hp) (by rw [e4]; exact hpn) (by rw [e4]; exact hps)
    (by rw [e4]; exact hv) he
  rw [e4] at h5
  refine ⟨_, t, P, start, callFit_eq _ _ _ _ _ h, ?_, h2, h3, h4, h5⟩
  rw [call_eq _ _ _ _ _ _ _ _ _ hst, finish_prism, if_pos (by rw [hpr]; rfl), h1]
  rfl

/-- C79, violation: PCTMC: with `output_file_prism`, if no state has the initial probability 1, the call never returns. -/
theorem call_prism_raises (hM : M.WF) (hi' : (1 : ℝ) ∉ M.initialState) (hpr : o.prism = true)
    (r : Outcome (Returned (PCTMC ℝ) (Storm.Sparse (Option ℝ))))
    (hr : M.callFit printable IO EIO name o processes S fixedArg constants epsilon maxIt lo hi rounds = some r) : ∃ e, r.result = .error e := by
  unfold callFit at hr
  cases h : M.ready S fixedArg lo hi rounds with
  | error e => rw [h] at hr; injection hr with hr; exact ⟨e, by rw [← hr]⟩
  | ok q =>
    cases q with
    | none => rw [h] at hr; cases hr
    | some q =>
      obtain ⟨M0, C, S'⟩ := q
      rw [h] at hr
      injection hr with hr
      rw [← hr]
      cases hst : BW.fit (iteration processes C constants S') epsilon maxIt M0 with
      | error e => exact ⟨e, by unfold call; rw [hst]⟩
      | ok st =>
        obtain ⟨l1, _⟩ := learnt_keys hM h hst
        have e5 : st.h.initialState = M.initialState := by rw [l1]
        refine ⟨.indexError, ?_⟩
        rw [call_eq _ _ _ _ _ _ _ _ _ hst]
        unfold finish
        rw [if_pos (by rw [hpr]; rfl)]
        dsimp only
        have : Prism.savePCTMC IO EIO st.h name = .error .indexError := by
          unfold Prism.savePCTMC
          have e : List.ofFn (fun s : Fin M.initialState.length => M.initialState[s]) = M.initialState := List.ofFn_getElem ..
          rw [e5, ← e, Prism.initialIndex_error]
          · rfl
          · intro s hs
            exact hi' (hs ▸ List.getElem_mem _)
        rw [this]

/-- C79, PCTMC: the call returns the learnt model, where every parameter has a value, or a Storm model that is converted to the CTMC of the learnt rates, if every
state of the learnt model is left. (Missing: the Storm model has no parameters; see `call_storm_nan`.) -/
theorem call_returns_partial (hM : M.WF) (hin : "init" ∈ M.labelling ∧
      M.initialState = M.labelling.map (fun i => if i = "init" then 1 / (M.labelling.count "init" : ℝ) else 0))
    (hr : ∀ r ∈ rounds, r.length = (M.names.filter (fun p => !M.hasValue p)).length)
    (h : M.ready S fixedArg lo hi rounds = .ok (some (M0, C, S')))
    (hst : BW.fit (iteration processes C constants S') epsilon maxIt M0 = .ok st)
    (hp : o.prism = true → (1 : ℝ) ∈ M.initialState) (hd : o.data = true → 0 < maxIt) (hl : "deadlock" ∉ M.labelling) :
    ∃ r x, M.callFit printable IO EIO name o processes S fixedArg constants epsilon maxIt lo hi rounds = some r ∧ r.result = .ok x ∧ st.h.Full ∧
      (o.storm = false → x.model = .inl st.h) ∧
      (o.storm = true → ∀ ρ, Extends ρ st.h.values → (∀ s, (st.h.chain ρ).e s ≠ 0) →
        ∃ Z, x.model = .inr Z ∧ Storm.toCTMC Z false = .ok (some ⟨st.h.matrix.length, st.h.chain ρ⟩)) ∧
      (o.data = false → x.info = none) ∧ (o.data = true → ∃ ll, st.ll = some ll ∧ x.info = some (st.counter, ll)) := by
  obtain ⟨l1, l2, l3, l4, l5, _⟩ := learnt_keys hM h hst
  have e2 : st.h.labelling = M.labelling := by rw [l1]
  have e5 : st.h.initialState = M.initialState := by rw [l1]
  have hin' : "init" ∈ st.h.labelling ∧
      st.h.initialState = st.h.labelling.map (fun i => if i = "init" then 1 / (st.h.labelling.count "init" : ℝ) else 0) := by rw [e2, e5]; exact hin
  have hF := l5 hr
  have hconv := fun ρ hρ => ofPCTMC_chain l3 hin' hF ρ hρ
  obtain ⟨x, h1, h2, h3⟩ := call_result (fun M => savePCTMC printable IO EIO M name) (fun M => Prism.savePCTMC IO EIO M name) Storm.ofPCTMC true o
    (iteration processes C constants S') epsilon maxIt M0 hst (fun h _ => savePrism_ok IO EIO name l3 (by rw [e5]; exact hp h)) hd _
    (fun _ => hconv (fun p => (st.h.values.lookup p).getD 0) (fun p x hx => by simp [hx]))
  refine ⟨_, x, callFit_eq _ _ _ _ _ h, h1, hF, fun h => by rw [h2, h]; rfl, ?_, h3⟩
  intro ho ρ hρ he
  refine ⟨Storm.ofCTMC (st.h.chain ρ), ?_, ?_⟩
  · have := (hconv ρ hρ).symm.trans (hconv (fun p => (st.h.values.lookup p).getD 0) (fun p x hx => by simp [hx]))
    injection this with this
    rw [h2, ho, this]
    rfl
  · have hmk := (st.h.toCTMC_spec l3 hin' ρ hρ).1 hF
    unfold toCTMC at hmk
    split_ifs at hmk
    obtain ⟨res, _, hmk⟩ := (Except.bind_eq_ok _ _ _).1 hmk
    split_ifs at hmk
    obtain ⟨a, b, _, e⟩ := (mkCTMC_ok_iff _ _ _).1 hmk
    refine Storm.ctmc_round_trip_partial _ ?_ he e.2 ?_
    · obtain ⟨i, hi, hi'⟩ := List.mem_iff_getElem.1 hin'.1
      refine ⟨⟨i, l3.labels ▸ hi⟩, ?_⟩
      show st.h.labelling.getD i "" = "init"
      simp [hi, hi']
    · intro s hs
      have hs2 : s.val < st.h.labelling.length := by rw [l3.labels]; exact s.2
      have : st.h.labelling.getD s "" = "deadlock" := hs
      rw [List.getD_eq_getElem?_getD, List.getElem?_eq_getElem hs2, Option.getD_some] at this
      exact hl (by rw [← e2, ← this]; exact List.getElem_mem _)

/-- C79, violation: if a state has no transition, the Storm model that `fit` returns has transitions with the value `nan`. -/
theorem call_storm_nan (hM : M.WF) (hin : "init" ∈ M.labelling ∧
      M.initialState = M.labelling.map (fun i => if i = "init" then 1 / (M.labelling.count "init" : ℝ) else 0))
    (hr : ∀ r ∈ rounds, r.length = (M.names.filter (fun p => !M.hasValue p)).length)
    (h : M.ready S fixedArg lo hi rounds = .ok (some (M0, C, S')))
    (hst : BW.fit (iteration processes C constants S') epsilon maxIt M0 = .ok st)
    (hz : M.exprs[0]? = some (.num 0)) (s : ℕ) (hs : s < M.matrix.length) (hrow : ∀ t ∈ M.matrix[s], t = 0) :
    ∃ r x Z, M.callFit printable IO EIO name ⟨false, false, true, false⟩ processes S fixedArg constants epsilon maxIt lo hi rounds = some r ∧
      r.result = .ok x ∧ x.model = .inr Z ∧ ∀ j < M.matrix.length, Entry Z s 0 j none := by
  obtain ⟨l1, l2, l3, l4, l5, l6⟩ := learnt_keys hM h hst
  have e1 : st.h.matrix = M.matrix := by rw [l1]
  have e2 : st.h.labelling = M.labelling := by rw [l1]
  have e5 : st.h.initialState = M.initialState := by rw [l1]
  have hin' : "init" ∈ st.h.labelling ∧
      st.h.initialState = st.h.labelling.map (fun i => if i = "init" then 1 / (st.h.labelling.count "init" : ℝ) else 0) := by rw [e2, e5]; exact hin
  set ρ : String → ℝ := fun p => (st.h.values.lookup p).getD 0 with hρ
  have hconv := ofPCTMC_chain l3 hin' (l5 hr) ρ (fun p x hx => by simp [hρ, hx])
  obtain ⟨x, h1, h2, _⟩ := call_result (fun M => savePCTMC printable IO EIO M name) (fun M => Prism.savePCTMC IO EIO M name) Storm.ofPCTMC true
    ⟨false, false, true, false⟩ (iteration processes C constants S') epsilon maxIt M0 hst (fun h _ => by cases h) (fun h => by cases h) _ (fun _ => hconv)
  refine ⟨_, x, _, callFit_eq _ _ _ _ _ h, h1, by rw [h2]; rfl, ?_⟩
  intro j hj
  have hs' : s < st.h.matrix.length := by rw [e1]; exact hs
  have hj' : j < st.h.matrix.length := by rw [e1]; exact hj
  have he : (st.h.chain ρ).e ⟨s, hs'⟩ = 0 := by
    refine Finset.sum_eq_zero (fun k _ => ?_)
    show (st.h.rateExpr s k).den ρ = 0
    have hk : (k : ℕ) < M.matrix[s].length := by rw [hM.square _ (List.getElem_mem hs), ← e1]; exact k.2
    generalize (k : ℕ) = k at hk ⊢
    have : (st.h.matrix.getD s []).getD k 0 = 0 := by
      have e : M.matrix.getD s [] = M.matrix[s] := by simp [hs]
      rw [e1, e, List.getD_eq_getElem?_getD, List.getElem?_eq_getElem hk, Option.getD_some]
      exact hrow _ (List.getElem_mem _)
    unfold rateExpr
    rw [this, List.getD_eq_getElem?_getD, l6, hz]
    rfl
  refine ⟨⟨[(st.h.chain ρ).labelling ⟨s, hs'⟩], [Storm.jumpRow (st.h.chain ρ) ⟨s, hs'⟩]⟩, Storm.jumpRow (st.h.chain ρ) ⟨s, hs'⟩, by simp [Storm.ofCTMC, hs'], rfl, ?_⟩
  unfold Storm.jumpRow
  rw [if_pos he]
  exact List.mem_map.2 ⟨⟨j, hj'⟩, List.mem_finRange _, rfl⟩

/-! ### `fit_parameters` -/

/-- C79, `fit_parameters`: with `return_data` the dictionary is the one of `fitParameters` and comes with the number of iterations and the log-likelihood, if at least
one iteration is allowed. -/
theorem fitParametersData_spec (toUpdate : List String) (res : List (String × Option ℝ)) (M' : PCTMC ℝ)
    (h : fitParameters processes S M toUpdate epsilon maxIt lo hi rounds = .ok (some (res, M'))) :
    fitParametersData processes S M toUpdate epsilon maxIt lo hi rounds false = .ok (some (res, none)) ∧
    (0 < maxIt → ∃ k ll, 1 ≤ k ∧ k ≤ maxIt ∧ fitParametersData processes S M toUpdate epsilon maxIt lo hi rounds true = .ok (some (res, some (k, ll)))) ∧
    (maxIt = 0 → fitParametersData processes S M toUpdate epsilon maxIt lo hi rounds true = .error .unboundLocalError) := by
  unfold fitParameters at h
  split_ifs at h with hu
  obtain ⟨alphabet, ha, h⟩ := (Except.bind_eq_ok _ _ _).1 h
  obtain ⟨S', hS', h⟩ := (Except.bind_eq_ok _ _ _).1 h
  obtain ⟨x, hx, h⟩ := (Except.bind_eq_ok _ _ _).1 h
  cases x with
  | none => simp [pure, Except.pure] at h
  | some M1 =>
    dsimp only at h
    obtain ⟨q, hq, h⟩ := (Except.bind_eq_ok _ _ _).1 h
    simp only [pure, Except.pure, Except.ok.injEq, Option.some.injEq] at h
    subst h
    unfold estimate at hq
    obtain ⟨C', hC, hq⟩ := (Except.bind_eq_ok _ _ _).1 hq
    obtain ⟨st', hst', hq⟩ := (Except.bind_eq_ok _ _ _).1 hq
    simp only [pure, Except.pure, Except.ok.injEq, Prod.mk.injEq] at hq
    obtain ⟨rfl, rfl⟩ := hq
    have key : ∀ data, fitParametersData processes S M toUpdate epsilon maxIt lo hi rounds data =
        (BW.returned (R := Empty) data st' (.inl st'.h)).map (fun r => some (toUpdate.map (fun p => (p, st'.h.values.lookup p)), r.info)) := by
      intro data
      unfold fitParametersData
      rw [if_neg hu, ha]
      simp only [bind, Except.bind, hS', hx, estimateData, hC, hst']
      cases BW.returned (R := Empty) data st' (.inl st'.h) <;> rfl
    rw [key, key]
    refine ⟨rfl, ?_, ?_⟩
    · intro hm
      obtain ⟨k, hs, ls, _, _, _, k4, _, k6, k7, _⟩ := fit_iterations _ _ _ _ _ hst'
      obtain ⟨ll, hll⟩ := fit_ll _ _ _ _ hst' hm
      refine ⟨st'.counter, ll, by rw [k4]; exact k7 hm, by rw [k4]; exact k6, ?_⟩
      · unfold BW.returned
        rw [if_pos rfl, hll]
        rfl
    · rintro rfl
      have := fit_no_ll _ _ _ hst'
      unfold BW.returned
      rw [if_pos rfl, this]
      rfl

end
end PCTMC
end Jajapy
