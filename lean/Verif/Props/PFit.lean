import Verif.Lemmas.PFit

/-!
Property theorems for `fit` on a PCTMC (C78).
-/

set_option linter.unusedSectionVars false

namespace Jajapy

open Spec BW Finset

namespace PCTMC

/-- C78 is violated: with the default arguments (`fixed_parameters=False`) `fit` returns for no PCTMC that has a parameter,
whatever the training set. -/
theorem fit_default_raises (processes : ℕ) (S : Traces) (M : PCTMC ℝ) (hM : M.WF) (hn : M.names ≠ []) (constants : Bool) (epsilon : ℝ)
    (maxIt : ℕ) (lo hi : Option ℝ) (rounds : List (List ℝ)) (M' : PCTMC ℝ) :
    M.fit processes S .notGiven constants epsilon maxIt lo hi rounds ≠ .ok (some M') := by
  intro h
  unfold fit at h
  obtain ⟨S', _, h⟩ := (Except.bind_eq_ok _ _ _).1 h
  obtain ⟨o, ho, h⟩ := (Except.bind_eq_ok _ _ _).1 h
  cases o with
  | none => simp [pure, Except.pure] at h
  | some M0 =>
    have h0 : M0 = { M with values := M0.values } := by
      unfold randomInstantiation at ho
      exact (M.instantiateLoop_frame hM _ _ _ _ _ ho).1
    have hn0 : M0.names ≠ [] := by rw [h0]; exact hn
    dsimp only at h
    obtain ⟨fixed, hf, _⟩ := (Except.bind_eq_ok _ _ _).1 h
    unfold FixedArg.resolve at hf
    simp only [if_neg hn0] at hf
    cases hf

theorem fitStepUntimed_error (processes : ℕ) (S : TSet String) (M : PCTMC ℝ) (r : PCTMC ℝ × ℝ) : fitStepUntimed processes S M ≠ .ok r := by
  intro h
  unfold fitStepUntimed at h
  obtain ⟨_, _, h⟩ := (Except.bind_eq_ok _ _ _).1 h
  obtain ⟨_, _, h⟩ := (Except.bind_eq_ok _ _ _).1 h
  obtain ⟨_, _, h⟩ := (Except.bind_eq_ok _ _ _).1 h
  cases h

/-- C78 is violated: `fit` on a PCTMC never returns for an untimed training set (if at least one iteration is allowed). -/
theorem fit_untimed_raises (processes : ℕ) (S : TSet String) (M : PCTMC ℝ) (fixedArg : FixedArg) (constants : Bool) (epsilon : ℝ)
    (maxIt : ℕ) (hmax : 1 ≤ maxIt) (lo hi : Option ℝ) (rounds : List (List ℝ)) (M' : PCTMC ℝ) :
    M.fit processes (.untimed S) fixedArg constants epsilon maxIt lo hi rounds ≠ .ok (some M') := by
  intro h
  unfold fit at h
  obtain ⟨S', hS', h⟩ := (Except.bind_eq_ok _ _ _).1 h
  obtain ⟨o, ho, h⟩ := (Except.bind_eq_ok _ _ _).1 h
  have hu : ∃ T, S' = .untimed T := by
    unfold prepare at hS'
    dsimp only at hS'
    obtain ⟨T, _, hT⟩ := (Except.bind_eq_ok _ _ _).1 hS'
    simp only [pure, Except.pure, Except.ok.injEq] at hT
    exact ⟨T, hT.symm⟩
  obtain ⟨T, rfl⟩ := hu
  cases o with
  | none => simp [pure, Except.pure] at h
  | some M0 =>
    dsimp only at h
    obtain ⟨fixed, _, h⟩ := (Except.bind_eq_ok _ _ _).1 h
    obtain ⟨C, _, h⟩ := (Except.bind_eq_ok _ _ _).1 h
    obtain ⟨st, hst, _⟩ := (Except.bind_eq_ok _ _ _).1 h
    obtain ⟨r, hr⟩ := BW.fit_first _ _ _ _ _ hmax hst
    exact fitStepUntimed_error _ _ _ _ hr

/-- Every parameter that is not fixed is in one of the categories. -/
theorem sortParameters_all {K : Type} [Field K] [LinearOrder K] (M : PCTMC K) (fixed : List String) (C : Cats K)
    (h : M.sortParameters fixed = .ok C) (p : String) (hp : p ∈ M.names) (hf : p ∉ fixed) :
    p ∈ C.cat1 ∨ p ∈ C.cat2 ∨ p ∈ C.cat3 := by
  unfold sortParameters at h
  simp only at h
  obtain ⟨_, _, h⟩ := (Except.bind_eq_ok _ _ _).1 h
  obtain ⟨cats, hc, h⟩ := (Except.bind_eq_ok _ _ _).1 h
  obtain ⟨coeff, _, h⟩ := (Except.bind_eq_ok _ _ _).1 h
  simp only [pure, Except.pure, Except.ok.injEq] at h
  have hm : p ∈ M.names.filter (fun p => decide (p ∉ fixed)) := List.mem_filter.2 ⟨hp, by simpa using hf⟩
  obtain ⟨hl, hz⟩ := List.mapM_inv _ _ _ hc
  obtain ⟨i, hi, rfl⟩ := List.mem_iff_getElem.1 hm
  have hmem : ((M.names.filter (fun p => decide (p ∉ fixed)))[i], cats[i]'(by omega)) ∈ (M.names.filter (fun p => decide (p ∉ fixed))).zip cats := by
    rw [List.mem_iff_getElem]
    exact ⟨i, by simp only [List.length_zip]; omega, by simp⟩
  have hcat := hz _ hmem
  have h3 : cats[i]'(by omega) = 1 ∨ cats[i]'(by omega) = 2 ∨ cats[i]'(by omega) = 3 := by
    unfold category at hcat
    obtain ⟨cs, _, hcat⟩ := (Except.bind_eq_ok _ _ _).1 hcat
    split_ifs at hcat
    · simp only [pure, Except.pure, Except.ok.injEq] at hcat; exact Or.inl hcat.symm
    · simp only [pure, Except.pure, Except.ok.injEq] at hcat; exact Or.inr (Or.inl hcat.symm)
    · simp only [pure, Except.pure, Except.ok.injEq] at hcat; exact Or.inr (Or.inr hcat.symm)
  have key : ∀ k, cats[i]'(by omega) = k → (M.names.filter (fun p => decide (p ∉ fixed)))[i] ∈
      (((M.names.filter (fun p => decide (p ∉ fixed))).zip cats).filter (fun x => decide (x.2 = k))).map (·.1) := by
    intro k hk
    exact List.mem_map.2 ⟨_, List.mem_filter.2 ⟨hmem, by simpa using hk⟩, rfl⟩
  subst h
  rcases h3 with h3 | h3 | h3
  · exact Or.inl (key 1 h3)
  · exact Or.inr (Or.inl (key 2 h3))
  · exact Or.inr (Or.inr (key 3 h3))

/-- There is something to estimate from the trace `w`: a constant rate, if the constants are updated, or a parameter that is not
fixed and that is recorded for a transition that can be taken in the trace. -/
def Concerned (M : PCTMC ℝ) (fixed : List String) (constants : Bool) (w : List (Sym String)) : Prop :=
  (constants = true ∧ ∃ i x, 1 ≤ i ∧ M.exprs[i]? = some x ∧ ∀ p, ¬ x.Occurs p) ∨
  ∃ p ∈ M.names, p ∉ fixed ∧ ∃ s ss : Fin M.nb, (s.1, ss.1) ∈ M.indexesOf p ∧
    0 < (M.rateExpr s ss).den (fun p => (M.values.lookup p).getD 0) ∧ ∃ q ∈ timedSteps w, q.1 = M.labelling.getD s ""

theorem sums_error {M : PCTMC ℝ} {t : FitTables M.nb} {q : ℕ × ℕ} (h : ∀ s, t.visits s = .error .valueError) (r : Unit) :
    M.sums t q ≠ .ok r := by
  intro hr
  unfold sums FitTables.visitsAt at hr
  obtain ⟨_, hv, _⟩ := (Except.bind_eq_ok _ _ _).1 hr
  split_ifs at hv
  rw [h] at hv
  cases hv

theorem fitWork_error {M : PCTMC ℝ} {fixed : List String} {C : Cats ℝ} (hC : M.sortParameters fixed = .ok C)
    (H : CTMC ℝ String M.nb) (constants : Bool) (t : FitTables M.nb) (h : ∀ s, t.visits s = .error .valueError)
    (hdo : (constants = true ∧ ∃ i x, 1 ≤ i ∧ M.exprs[i]? = some x ∧ ∀ p, ¬ x.Occurs p) ∨
      ∃ p ∈ M.names, p ∉ fixed ∧ ∃ s ss : Fin M.nb, (s.1, ss.1) ∈ M.indexesOf p ∧ t.seen s ss)
    (r : List (Option (ℝ × ℝ)) × Work) : M.fitWork C H constants t ≠ .ok r := by
  intro hr
  unfold fitWork at hr
  obtain ⟨cs, hcs, hr⟩ := (Except.bind_eq_ok _ _ _).1 hr
  obtain ⟨_, h1, hr⟩ := (Except.bind_eq_ok _ _ _).1 hr
  obtain ⟨_, h2, hr⟩ := (Except.bind_eq_ok _ _ _).1 hr
  rcases hdo with ⟨rfl, i, x, hi, hx, hno⟩ | ⟨p, hp, hf, s, ss, hidx, hseen⟩
  · unfold constWorks at hcs
    simp only [if_true] at hcs
    have hmem : (x, i) ∈ (M.exprs.tail).zipIdx 1 := by
      rw [List.mem_zipIdx_iff_le_and_getElem?_sub]
      refine ⟨hi, ?_⟩
      rw [List.getElem?_tail]
      simpa [Nat.sub_add_cancel hi] using hx
    obtain ⟨y, _, hy⟩ := List.mapM_mem _ _ _ hcs _ hmem
    have hfree : x.free = [] := by
      rw [List.eq_nil_iff_forall_not_mem]
      intro q hq
      exact hno q ((Expr.mem_free _ _).1 hq)
    unfold constWork at hy
    simp only [hfree, if_true] at hy
    cases hc : M.firstCell i with
    | none => rw [hc] at hy; cases hy
    | some q =>
      rw [hc] at hy
      obtain ⟨_, hv, _⟩ := (Except.bind_eq_ok _ _ _).1 hy
      unfold FitTables.visitsAt at hv
      split_ifs at hv
      rw [h] at hv
      cases hv
  · have hseen' : t.seenAt s ss := ⟨s.2, ss.2, hseen⟩
    rcases M.sortParameters_all fixed C hC p hp hf with hc | hc
    · obtain ⟨y, _, hy⟩ := List.mapM_mem _ _ _ h1 (s.1, ss.1) (List.mem_flatMap.2 ⟨p, hc, hidx⟩)
      rw [if_pos hseen'] at hy
      exact sums_error h _ hy
    · obtain ⟨y, _, hy⟩ := List.mapM_mem _ _ _ h2 (s.1, ss.1) (List.mem_flatMap.2 ⟨p, List.mem_append.2 hc, hidx⟩)
      exact sums_error h _ hy

/-- C78 is violated: `fit` returns for no training set with a trace of at least two dwell times, if the trace is possible in the
model after the random instantiation and if there is something to estimate from it. -/
theorem fit_long_raises (processes : ℕ) (S : TSet (Sym String)) (hlen : S.times.length = S.sequences.length)
    (M M0 : PCTMC ℝ) (lo hi : Option ℝ) (rounds : List (List ℝ)) (h0 : M.randomInstantiation none lo hi rounds = .ok (some M0))
    (hM : M0.WF) (hF : M0.Full) (hv : ∀ ρ, Extends ρ M0.values → (M0.chain ρ).Valid)
    (fixed : List String) (constants : Bool)
    (w : List (Sym String)) (hw : w ∈ S.sequences) (hwt : IsTimed w) (hl : 5 ≤ w.length) (hp : M0.density w ≠ 0)
    (hdo : M0.Concerned fixed constants w) (epsilon : ℝ) (maxIt : ℕ) (hmax : 1 ≤ maxIt) (M' : PCTMC ℝ) :
    M.fit processes (.timed S) (.names fixed) constants epsilon maxIt lo hi rounds ≠ .ok (some M') := by
  intro h
  unfold fit at h
  obtain ⟨S', hS', h⟩ := (Except.bind_eq_ok _ _ _).1 h
  rw [h0] at h
  obtain ⟨o, ho, h⟩ := (Except.bind_eq_ok _ _ _).1 h
  simp only [Except.ok.injEq] at ho
  subst ho
  dsimp only at h
  obtain ⟨fixed', hf', h⟩ := (Except.bind_eq_ok _ _ _).1 h
  have : fixed = fixed' := by simpa [FixedArg.resolve] using hf'
  subst this
  obtain ⟨C, hC, h⟩ := (Except.bind_eq_ok _ _ _).1 h
  obtain ⟨st, hst, _⟩ := (Except.bind_eq_ok _ _ _).1 h
  obtain ⟨r, hr⟩ := BW.fit_first _ _ _ _ _ hmax hst
  unfold prepare at hS'
  dsimp only at hS'
  obtain ⟨T, hT, hS'⟩ := (Except.bind_eq_ok _ _ _).1 hS'
  simp only [pure, Except.pure, Except.ok.injEq] at hS'
  subst hS'
  dsimp only at hr
  unfold fitStep at hr
  rw [hypothesis_full hM hF] at hr
  obtain ⟨H, hH, hr⟩ := (Except.bind_eq_ok _ _ _).1 hr
  injection hH with hH
  subst hH
  obtain ⟨res, hres, _⟩ := (Except.bind_eq_ok _ _ _).1 hr
  obtain ⟨ps, last, rfl⟩ := exists_timed w hwt
  rw [timed_length] at hl
  unfold withInit at hT
  obtain ⟨A, _, hT⟩ := (Except.bind_eq_ok _ _ _).1 hT
  obtain ⟨k, hk⟩ := mem_zip_of_mem S hlen _ hw
  obtain ⟨p1, ps, rfl⟩ : ∃ a b, ps = a :: b := by
    cases ps with
    | nil => simp at hl
    | cons a b => exact ⟨a, b, rfl⟩
  split_ifs at hT with hinit
  · simp only [pure, Except.pure, Except.ok.injEq] at hT
    subst hT
    obtain ⟨y, _, hy⟩ := List.mapM_mem _ _ _ hres _ hk
    unfold fitTrace at hy
    rw [fitTables_timed] at hy
    have hval : M0.here.Valid := hv _ (valOf_extends _)
    have hps : lastSum (alphasMatrix M0.here ((p1 :: ps).map symStep) (.obs last)) = M0.here.density (timed (p1 :: ps) last) :=
      lastSum_alphasMatrix _ hval.2 _ _
    have hne : M0.here.density (timed (p1 :: ps) last) ≠ 0 := hp
    simp only [hps, if_neg hne, bind, Except.bind] at hy
    generalize ht : FitTables.mk (n := M0.nb) _ _ _ _ _ = t at hy
    cases hfw : M0.fitWork C M0.here constants t with
    | error e => rw [hfw] at hy; simp at hy
    | ok z =>
      refine fitWork_error hC M0.here constants t ?_ ?_ z hfw
      · intro s
        rw [← ht]
        exact visitsMatrix_error _ _ _ (by simp only [List.length_map]; omega) _ _ s
      · rcases hdo with hdo | ⟨p, hpn, hpf, s, ss, hidx, hpos, q, hq, hql⟩
        · exact Or.inl hdo
        · refine Or.inr ⟨p, hpn, hpf, s, ss, hidx, ?_⟩
          rw [← ht]
          show 0 < (((p1 :: ps).map symStep).map (M0.here.tauTimed s ss)).sum
          rw [List.map_map]
          rw [timedSteps_timed] at hq
          have hnn : ∀ x ∈ p1 :: ps, 0 ≤ (M0.here.tauTimed s ss ∘ symStep) x := by
            intro x _
            rw [Function.comp_apply, M0.here.tauTimed_symStep]
            exact M0.here.rateStep_nonneg hval.2 s ss x
          by_contra hcon
          have hz := sum_pos_of_mem (p1 :: ps) (M0.here.tauTimed s ss ∘ symStep) hnn hcon q hq
          rw [Function.comp_apply] at hz
          unfold CTMC.tauTimed symStep at hz
          have hlab : M0.here.labelling s = q.1 := hql.symm
          simp only [hlab, ne_eq, not_true_eq_false, if_false] at hz
          rcases mul_eq_zero.1 hz with hz | hz
          · exact absurd hz (ne_of_gt hpos)
          · exact absurd hz (Real.exp_pos _).ne'
  · simp only [pure, Except.pure, Except.ok.injEq] at hT
    subst hT
    have hk' : (Sym.obs "init" :: timed (p1 :: ps) last, k) ∈ (S.sequences.map (fun w => Sym.obs "init" :: w)).zip S.times := by
      have : (S.sequences.map (fun w => Sym.obs "init" :: w)).zip S.times = (S.sequences.zip S.times).map (fun x => (Sym.obs "init" :: x.1, x.2)) := by
        rw [List.zip_map_left]
        rfl
      rw [this]
      exact List.mem_map.2 ⟨_, hk, rfl⟩
    obtain ⟨y, _, hy⟩ := List.mapM_mem _ _ _ hres _ hk'
    cases hy

/-! ### What is kept -/

theorem newExprs_getElem (M : PCTMC ℝ) (cs : List (List (Option (ℝ × ℝ)))) (i : ℕ) : (M.newExprs cs)[i]? =
    (M.exprs[i]?).map (fun x => if i = 0 then x else newConst x (cs.map (fun c => c.getD (i - 1) none))) := by
  unfold newExprs
  rw [List.getElem?_map, List.getElem?_zipIdx]
  cases M.exprs[i]? <;> simp

theorem newConst_free (x : Expr ℝ) (c : List (Option (ℝ × ℝ))) (p : String) (h : (newConst x c).Occurs p) : x.Occurs p := by
  unfold newConst at h
  dsimp only at h
  split_ifs at h
  · exact h
  · cases h
  · exact h

theorem newExprs_wf {M : PCTMC ℝ} (hM : M.WF) (cs : List (List (Option (ℝ × ℝ)))) : ({ M with exprs := M.newExprs cs } : PCTMC ℝ).WF := by
  refine ⟨hM.square, hM.labels, hM.init, ?_, ?_⟩
  · intro row hr t ht
    have := hM.bound row hr t ht
    simpa [newExprs] using this
  · intro x hx p hp
    obtain ⟨i, hi⟩ := List.mem_iff_getElem?.1 hx
    rw [newExprs_getElem] at hi
    obtain ⟨y, hy, rfl⟩ := Option.map_eq_some_iff.1 hi
    refine hM.declared y (List.mem_of_getElem? hy) p ?_
    split_ifs at hp with h0
    · exact hp
    · exact newConst_free _ _ _ hp

/-- The models that differ from `M` by the values of the parameters other than `fixed`, and by the constants (the expressions
without parameter, but the number 0 "no transition") if they are updated. -/
structure Kept (M : PCTMC ℝ) (fixed : List String) (constants : Bool) (N : PCTMC ℝ) : Prop where
  same : N = { M with values := N.values, exprs := N.exprs }
  values : ∀ p, p ∈ fixed ∨ p ∉ M.names → N.values.lookup p = M.values.lookup p
  exprs : constants = false → N.exprs = M.exprs
  zero : N.exprs[0]? = M.exprs[0]?
  symbols : ∀ (i : ℕ) (x : Expr ℝ), M.exprs[i]? = some x → (∃ p, x.Occurs p) → N.exprs[i]? = some x
  consts : ∀ (i : ℕ) (x y : Expr ℝ), M.exprs[i]? = some x → N.exprs[i]? = some y → (∀ p, ¬ x.Occurs p) → ∀ p, ¬ y.Occurs p
  length : N.exprs.length = M.exprs.length

theorem Kept.refl (M : PCTMC ℝ) (fixed : List String) (constants : Bool) : M.Kept fixed constants M :=
  ⟨rfl, fun _ _ => rfl, fun _ => rfl, rfl, fun _ _ h _ => h, fun i x y h1 h2 h3 => by rw [h1] at h2; injection h2 with h2; rwa [← h2], rfl⟩

theorem Kept.trans {M N R : PCTMC ℝ} {fixed : List String} {constants : Bool} (h : M.Kept fixed constants N) (h' : N.Kept fixed constants R) :
    M.Kept fixed constants R := by
  have hn : N.names = M.names := by rw [h.same]
  refine ⟨?_, ?_, ?_, ?_, ?_, ?_, ?_⟩
  · have := h'.same
    rw [h.same] at this
    exact this
  · intro p hp
    rw [h'.values p (by rw [hn]; exact hp), h.values p hp]
  · intro hc; rw [h'.exprs hc, h.exprs hc]
  · rw [h'.zero, h.zero]
  · intro i x hx hp
    exact h'.symbols i x (h.symbols i x hx hp) hp
  · intro i x z hx hz hno
    have hlt : i < N.exprs.length := by
      rw [h.length]
      obtain ⟨hlt, _⟩ := List.getElem?_eq_some_iff.1 hx
      exact hlt
    exact h'.consts i _ z (List.getElem?_eq_getElem hlt) hz (h.consts i x _ hx (List.getElem?_eq_getElem hlt) hno)
  · rw [h'.length, h.length]

theorem newConst_symbols {x : Expr ℝ} (c : List (Option (ℝ × ℝ))) (h : ∃ p, x.Occurs p) : newConst x c = x := by
  unfold newConst
  rw [if_neg]
  intro h0
  obtain ⟨p, hp⟩ := h
  have := (Expr.mem_free x p).2 hp
  rw [h0] at this
  cases this

theorem newExprs_kept (M : PCTMC ℝ) (fixed : List String) (cs : List (List (Option (ℝ × ℝ)))) :
    M.Kept fixed true { M with exprs := M.newExprs cs } := by
  refine ⟨rfl, fun _ _ => rfl, (fun h => by cases h), ?_, ?_, ?_, by simp [newExprs]⟩
  · show (M.newExprs cs)[0]? = _
    rw [newExprs_getElem]
    simp
  · intro i x hx hp
    show (M.newExprs cs)[i]? = _
    rw [newExprs_getElem, hx, Option.map_some, newConst_symbols _ hp]
    simp
  · intro i x y hx hy hno p hp
    have hy' : (M.newExprs cs)[i]? = some y := hy
    rw [newExprs_getElem, hx, Option.map_some] at hy'
    injection hy' with hy'
    rw [← hy'] at hp
    split_ifs at hp
    · exact hno p hp
    · exact hno p (newConst_free _ _ _ hp)

theorem Kept.wf {M N : PCTMC ℝ} {fixed : List String} {constants : Bool} (h : M.Kept fixed constants N) (hM : M.WF) : N.WF := by
  rw [h.same]
  refine ⟨hM.square, hM.labels, hM.init, ?_, ?_⟩
  · intro row hr t ht
    show t < N.exprs.length
    rw [h.length]
    exact hM.bound row hr t ht
  · intro y hy p hp
    obtain ⟨i, hi⟩ := List.mem_iff_getElem?.1 hy
    have hlt : i < M.exprs.length := by
      rw [← h.length]
      obtain ⟨hlt, _⟩ := List.getElem?_eq_some_iff.1 hi
      exact hlt
    have hx := List.getElem?_eq_getElem hlt
    by_cases hs : ∃ q, (M.exprs[i]).Occurs q
    · have := h.symbols i _ hx hs
      have hyx : y = M.exprs[i] := by
        have : some y = some M.exprs[i] := hi.symm.trans this
        injection this
      rw [hyx] at hp
      exact hM.declared _ (List.getElem_mem _) p hp
    · exact absurd hp (h.consts i _ y hx hi (by simpa using hs) p)

theorem fitStep_kept (processes : ℕ) (M : PCTMC ℝ) (hM : M.WF) (fixed : List String) (C : Cats ℝ)
    (hC : ∀ p, p ∈ C.cat1 ∨ p ∈ C.cat2 ∨ p ∈ C.cat3 → p ∈ M.names ∧ p ∉ fixed) (constants : Bool) (S : TSet (Sym String))
    (N : PCTMC ℝ) (ll : ℝ) (h : fitStep processes C constants S M = .ok (N, ll)) : M.Kept fixed constants N := by
  unfold fitStep at h
  obtain ⟨H, _, h⟩ := (Except.bind_eq_ok _ _ _).1 h
  obtain ⟨res, _, h⟩ := (Except.bind_eq_ok _ _ _).1 h
  obtain ⟨temp, _, h⟩ := (Except.bind_eq_ok _ _ _).1 h
  have key : ∀ M1 : PCTMC ℝ, M.Kept fixed constants M1 → M1.update C (temp.map (·.2)) = .ok (N, ll) → M.Kept fixed constants N := by
    intro M1 h1 hu
    obtain ⟨u1, u2⟩ := M1.update_frame (h1.wf hM) C _ N ll hu
    refine h1.trans ⟨?_, ?_, ?_, ?_, ?_, ?_, ?_⟩
    · rw [u1]
    · intro p hp
      refine u2 p (fun hc => ?_)
      have := hC p hc
      have hn : M1.names = M.names := by rw [h1.same]
      rw [hn] at hp
      tauto
    · intro _; rw [u1]
    · rw [u1]
    · intro i x hx _; rw [u1]; exact hx
    · intro i x y hx hy hno
      rw [u1] at hy
      have : some x = some y := hx.symm.trans hy
      injection this with this
      rwa [← this]
    · rw [u1]
  cases constants with
  | false => exact key _ (Kept.refl _ _ _) h
  | true => exact key _ (newExprs_kept _ _ _) h

/-- C78, what is kept: whatever the arguments, when `fit` returns, the returned model has the states, labels, transitions and
parameters of the given one; the rates that depend on a parameter are the same expressions, and constants stay constants (the
same ones if they are not to be updated); the fixed parameters that have a value keep it. -/
theorem fit_kept (processes : ℕ) (S : Traces) (M : PCTMC ℝ) (hM : M.WF) (fixed : List String) (constants : Bool) (epsilon : ℝ)
    (maxIt : ℕ) (lo hi : Option ℝ) (rounds : List (List ℝ)) (M' : PCTMC ℝ)
    (h : M.fit processes S (.names fixed) constants epsilon maxIt lo hi rounds = .ok (some M')) :
    ∃ M0 : PCTMC ℝ, M0 = { M with values := M0.values } ∧
      (∀ p, (∃ x, M.values.lookup p = some x) → M0.values.lookup p = M.values.lookup p) ∧ M0.Kept fixed constants M' := by
  unfold fit at h
  obtain ⟨S', hS', h⟩ := (Except.bind_eq_ok _ _ _).1 h
  obtain ⟨o, ho, h⟩ := (Except.bind_eq_ok _ _ _).1 h
  cases o with
  | none => simp [pure, Except.pure] at h
  | some M0 =>
    unfold randomInstantiation at ho
    obtain ⟨h1, h2⟩ := M.instantiateLoop_frame hM _ _ _ _ _ ho
    refine ⟨M0, h1, ?_, ?_⟩
    · rintro p ⟨x, hx⟩
      exact h2 p (by simp [defaultParameters, hasValue, hx])
    · have hM0 : M0.WF := by rw [h1]; exact ⟨hM.square, hM.labels, hM.init, hM.bound, hM.declared⟩
      dsimp only at h
      obtain ⟨fixed', hf', h⟩ := (Except.bind_eq_ok _ _ _).1 h
      have : fixed = fixed' := by simpa [FixedArg.resolve] using hf'
      subst this
      obtain ⟨C, hC, h⟩ := (Except.bind_eq_ok _ _ _).1 h
      obtain ⟨st, hst, h⟩ := (Except.bind_eq_ok _ _ _).1 h
      simp only [pure, Except.pure, Except.ok.injEq, Option.some.injEq] at h
      subst h
      refine loop_invariant _ _ (fun N : PCTMC ℝ => M0.Kept fixed constants N) ?_ _ _ _ (Kept.refl _ _ _) hst
      intro N R ll hN hs
      cases S' with
      | untimed T => exact absurd hs (fitStepUntimed_error _ _ _ _)
      | timed T =>
        refine hN.trans (fitStep_kept processes N (hN.wf hM0) fixed C ?_ constants T R ll hs)
        intro p hp
        have hn : N.names = M0.names := by rw [hN.same]
        rw [hn]
        exact M0.sortParameters_mem fixed C hC p hp

/-! ### Traces with one dwell time -/

theorem collect_map {R R' : Type} (er : Err) (processes : ℕ) (f : R → R') (l : List (Option R)) :
    collect er processes (l.map (Option.map f)) = (collect er processes l).map (List.map f) := by
  have h1 : (l.map (Option.map f)).filterMap id = (l.filterMap id).map f := by
    induction l with
    | nil => rfl
    | cons a l ih => cases a <;> simp_all
  have h2 : (l.map (Option.map f)).any Option.isNone = l.any Option.isNone := by
    induction l with
    | nil => rfl
    | cons a l ih => cases a <;> simp_all
  unfold collect
  rw [h1, h2]
  cases h : l.filterMap id with
  | nil => split_ifs <;> rfl
  | cons a l' => split_ifs <;> rfl

/-- The traces have one dwell time, and no transition of the model leads from a state with the first label of a trace to such a
state. -/
def Short (M : PCTMC ℝ) (S : TSet (Sym String)) : Prop :=
  ∀ w ∈ S.sequences, ∃ o t last, w = [.obs o, .time t, .obs last] ∧
    ∀ i j, i < M.matrix.length → j < M.matrix.length → M.labelling.getD i "" = o → M.labelling.getD j "" = o → M.rateExpr i j = .num 0

theorem fitWork_ok {M : PCTMC ℝ} {fixed : List String} (h : M.Estimable fixed) {C : Cats ℝ} (hC : Sorted M fixed C)
    (H : CTMC ℝ String M.nb) (t : FitTables M.nb) (h1 : ∀ s, ∃ x, t.visits s = .ok x) (h2 : ∀ s ss, ∃ x, t.uses s ss = .ok x) :
    M.fitWork C H false t = .ok ([], M.work C H t.total) := by
  have hidx : ∀ p, p ∈ C.cat1 ∨ p ∈ C.cat2 ∨ p ∈ C.cat3 → ∀ q ∈ M.indexesOf p, q.1 < M.nb ∧ q.2 < M.nb := by
    intro p hp q hq
    have hp' : p ∈ M.estimated fixed := by
      rcases hp with hp | hp | hp
      exacts [hC.mem1 p hp, hC.mem2 p hp, hC.mem3 p hp]
    obtain ⟨hp1, hp2⟩ := (mem_estimated M fixed p).1 hp'
    obtain ⟨a, b, _⟩ := ((h.indexes p hp1 hp2).2 q.1 q.2).1 hq
    exact ⟨a, b⟩
  have hsum : ∀ p, p ∈ C.cat1 ∨ p ∈ C.cat2 ∨ p ∈ C.cat3 → ∀ q ∈ M.indexesOf p, M.sums t q = .ok () := by
    intro p hp q hq
    obtain ⟨a, b⟩ := hidx p hp q hq
    obtain ⟨x, hx⟩ := h1 ⟨q.1, a⟩
    obtain ⟨y, hy⟩ := h2 ⟨q.1, a⟩ ⟨q.2, b⟩
    unfold sums FitTables.visitsAt FitTables.usesAt
    rw [dif_pos a, dif_pos ⟨a, b⟩, hx, hy]
    rfl
  unfold fitWork constWorks
  simp only [Bool.false_eq_true, if_false]
  rw [List.mapM_ok _ (fun _ => ()) (C.cat1.flatMap M.indexesOf) (by
    intro q hq
    obtain ⟨p, hp, hq⟩ := List.mem_flatMap.1 hq
    split_ifs
    · exact hsum p (Or.inl hp) q hq
    · rfl)]
  rw [List.mapM_ok _ (fun _ => ()) ((C.cat2 ++ C.cat3).flatMap M.indexesOf) (by
    intro q hq
    obtain ⟨p, hp, hq⟩ := List.mem_flatMap.1 hq
    exact hsum p (Or.inr (List.mem_append.1 hp)) q hq)]
  rfl

/-- The iteration on such traces is the one of `fit_parameters`. -/
theorem fitStep_short (processes : ℕ) {M : PCTMC ℝ} {fixed : List String} (h : M.Estimable fixed) {C : Cats ℝ}
    (hC : Sorted M fixed C) (S : TSet (Sym String)) (hS : M.Short S) :
    fitStep processes C false S M = estimateStep processes C (.timed S) M := by
  have hTS : CTMC.TimedSet S := by
    intro w hw
    obtain ⟨o, t, last, rfl, _⟩ := hS w hw
    exact ⟨isTimed_timed [(o, t)] last, by simp⟩
  unfold fitStep estimateStep
  rw [h.hypothesis_eq]
  simp only [bind, Except.bind]
  rw [tables_timed M.here S hTS]
  rw [List.mapM_ok _ (fun x : List (Sym String) × ℕ => (if M.here.density x.1 = 0 then none else some (tbCT M.here x)).map
    (fun t => (([] : List (Option (ℝ × ℝ))), M.work C M.here t)))]
  · simp only [Bool.false_eq_true, if_false]
    have : (S.sequences.zip S.times).map (fun x : List (Sym String) × ℕ => (if M.here.density x.1 = 0 then none else some (tbCT M.here x)).map
        (fun t => (([] : List (Option (ℝ × ℝ))), M.work C M.here t))) =
        ((S.sequences.zip S.times).map (fun x => if M.here.density x.1 = 0 then none else some (tbCT M.here x))).map (Option.map
        (fun t => (([] : List (Option (ℝ × ℝ))), M.work C M.here t))) := by
      rw [List.map_map]; rfl
    rw [this, collect_map]
    cases collect .typeError processes ((S.sequences.zip S.times).map (fun x => if M.here.density x.1 = 0 then none else some (tbCT M.here x))) with
    | error e => rfl
    | ok ts =>
      show M.update C (List.map (fun y : List (Option (ℝ × ℝ)) × Work => y.2) (List.map (fun t => (([] : List (Option (ℝ × ℝ))), M.work C M.here t)) ts))
        = M.update C _
      rw [List.map_map]
      rfl
  · rintro ⟨w, k⟩ hx
    obtain ⟨o, t, last, rfl, hno⟩ := hS w (List.of_mem_zip hx).1
    have hval := h.here_valid
    have hnr : NoRepeat M.here o := by
      intro s ss hs hss
      show (M.rateExpr s ss).den _ = 0
      rw [hno s ss s.2 ss.2 hs hss]
      rfl
    have hft := fitTables_timed M.here (o, t) [] last k
    have hps : lastSum (alphasMatrix M.here ([(o, t)].map symStep) (.obs last)) = M.here.density (timed [(o, t)] last) :=
      lastSum_alphasMatrix _ hval.2 _ _
    simp only [hps] at hft
    show M.fitTrace C M.here false (timed [(o, t)] last, k) =
      Except.ok (Option.map _ (if M.here.density (timed [(o, t)] last) = 0 then none else some (tbCT M.here (timed [(o, t)] last, k))))
    unfold fitTrace
    dsimp only
    rw [hft]
    by_cases hd : M.here.density (timed [(o, t)] last) = 0
    · simp only [hd, if_true]
      rfl
    · simp only [if_neg hd, bind, Except.bind]
      generalize ht : FitTables.mk (n := M.nb) _ _ _ _ _ = tb
      have hv : ∀ s, tb.visits s = .ok ((tbCT M.here (timed [(o, t)] last, k)).time s) := by
        intro s
        rw [← ht]
        refine ((sums_short M.here hval.2 (o, t) last _ s s).1).trans ?_
        congr 1
        simp only [tbCT, wkCT, timedSteps_timed, vis_cons, vis_nil, add_zero, ← M.here.maskTimed_eq [(o, t)] last, beta0_cons, beta0_nil]
        have hz : fwd M.here.rateStep M.here.initialState (o, t) s * bwd M.here.rateStep (M.here.maskTimed (.obs last)) (o, t) s = 0 := by
          unfold bwd
          rw [Finset.mul_sum]
          refine Finset.sum_eq_zero (fun ss _ => ?_)
          have := noRepeat_zero M.here (o, t) hnr M.here.initialState s ss
          linear_combination M.here.maskTimed (.obs last) ss * this
        linear_combination (t * (k / M.here.density (timed [(o, t)] last))) * hz
      have hu : ∀ s ss, tb.uses s ss = .ok ((tbCT M.here (timed [(o, t)] last, k)).uses s ss) := by
        intro s ss
        rw [← ht]
        have hr : ([(o, t)].map symStep).map (M.here.tauTimed s ss) = [M.here.rateStep s ss (o, t)] := by
          simp only [List.map_cons, List.map_nil, M.here.tauTimed_symStep]
        show usesMatrix _ _ (([(o, t)].map symStep).map (M.here.tauTimed s ss)) _ s ss = _
        rw [hr]
        refine ((sums_short M.here hval.2 (o, t) last _ s ss).2).trans ?_
        congr 1
        rw [tbCT_uses]
        simp only [timedSteps_timed, use_cons, use_nil, add_zero, ← M.here.maskTimed_eq [(o, t)] last, beta0_nil]
        have := noRepeat_zero M.here (o, t) hnr M.here.initialState s ss
        linear_combination (M.here.maskTimed (.obs last) ss * (k / M.here.density (timed [(o, t)] last))) * this
      have htot : tb.total = tbCT M.here (timed [(o, t)] last, k) := by
        have e1 : (fun s => (tb.visits s).toOption.getD 0) = (tbCT M.here (timed [(o, t)] last, k)).time := by
          funext s; rw [hv]; rfl
        have e2 : (fun s ss => (tb.uses s ss).toOption.getD 0) = (tbCT M.here (timed [(o, t)] last, k)).uses := by
          funext s ss; rw [hu]; rfl
        unfold FitTables.total
        rw [e1, e2, ← ht]
        simp only [tbCT, timedSteps_timed]
        congr 2
        funext s ss
        simp only [List.map_cons, List.map_nil, M.here.tauTimed_symStep]
      rw [fitWork_ok h hC M.here tb (fun s => ⟨_, hv s⟩) (fun s ss => ⟨_, hu s ss⟩), htot]
      rfl

theorem randomInstantiation_full {M M0 : PCTMC ℝ} (hF : M.Full) {lo hi : Option ℝ} {rounds : List (List ℝ)}
    (h : M.randomInstantiation none lo hi rounds = .ok (some M0)) : M0 = M := by
  have hd : M.defaultParameters = [] := by
    unfold defaultParameters
    rw [List.filter_eq_nil_iff]
    intro p hp
    have := (isSome_known M.values p).2 (hF p hp)
    simp [hasValue, this]
  unfold randomInstantiation at h
  rw [Option.getD_none, hd] at h
  generalize lo.getD M.defaultBounds.1 = a at h
  generalize hi.getD M.defaultBounds.2 = b at h
  induction rounds with
  | nil => simp [instantiateLoop] at h
  | cons r rounds ih =>
    unfold instantiateLoop at h
    obtain ⟨⟨ok, M1⟩, h1, h⟩ := (Except.bind_eq_ok _ _ _).1 h
    have hM1 : M1 = M := by
      unfold instantiate at h1
      obtain ⟨c, _, h1⟩ := (Except.bind_eq_ok _ _ _).1 h1
      simp only [newValues, List.zip_nil_left, List.foldl_nil] at h1
      split_ifs at h1 <;> simp only [pure, Except.pure, Except.ok.injEq, Prod.mk.injEq] at h1 <;> exact h1.2.symm
    dsimp only at h
    split_ifs at h
    · simp only [pure, Except.pure, Except.ok.injEq, Option.some.injEq] at h
      rw [← h, hM1]
    · rw [hM1] at h
      exact ih h

theorem Short.values {M : PCTMC ℝ} {S : TSet (Sym String)} (h : M.Short S) (v : Valuation ℝ) : ({ M with values := v } : PCTMC ℝ).Short S := h

/-- C78, the part that holds: on a model whose parameters have values, without update of the constants and with traces of one
dwell time that no state with the first label of the trace can leave to a state with the same label, the log-density of the
training set under the model that `fit` returns is at least the one under the given model. (The hypotheses on the model are
those of `estimate_monotone_partial`.) -/
theorem fit_short_monotone_partial (processes : ℕ) (S : TSet (Sym String)) (hT : Typed (.timed S)) (hinit : Shows (.timed S) "init")
    (M : PCTMC ℝ) (fixed : List String) (h : M.Estimable fixed) (hS : M.Short S) (hw : WaitsNonneg S)
    (hlen : S.times.length = S.sequences.length) (ht : ∀ t ∈ S.times, 1 ≤ t) (epsilon : ℝ) (maxIt : ℕ) (lo hi : Option ℝ)
    (rounds : List (List ℝ)) (M' : PCTMC ℝ)
    (hf : M.fit processes (.timed S) (.names fixed) false epsilon maxIt lo hi rounds = .ok (some M')) :
    avgLogLik M.density S ≤ avgLogLik M'.density S := by
  have hTS : CTMC.TimedSet S := by
    intro w hw
    obtain ⟨o, t, last, rfl, _⟩ := hS w hw
    exact ⟨isTimed_timed [(o, t)] last, by simp⟩
  unfold fit at hf
  rw [prepare_spec (.timed S) hT hinit] at hf
  replace hf := (Except.bind_eq_ok _ _ _).1 hf
  obtain ⟨S', hS', hf⟩ := hf
  injection hS' with hS'
  subst hS'
  replace hf := (Except.bind_eq_ok _ _ _).1 hf
  obtain ⟨o, ho, hf⟩ := hf
  cases o with
  | none => simp [pure, Except.pure] at hf
  | some M0 =>
    have := randomInstantiation_full h.full ho
    subst this
    dsimp only at hf
    obtain ⟨fixed', hf', hf⟩ := (Except.bind_eq_ok _ _ _).1 hf
    have : fixed = fixed' := by simpa [FixedArg.resolve] using hf'
    subst this
    obtain ⟨C, hC, hf⟩ := (Except.bind_eq_ok _ _ _).1 hf
    obtain ⟨st, hst, hf⟩ := (Except.bind_eq_ok _ _ _).1 hf
    simp only [pure, Except.pure, Except.ok.injEq, Option.some.injEq] at hf
    subst hf
    have hsort := sortParameters_spec h C hC
    have h0 : (M0.Estimable fixed ∧ Sorted M0 fixed C ∧ M0 = { M0 with values := M0.values }) ∧ avgLogLik M0.density S ≤ avgLogLik M0.density S :=
      ⟨⟨h, hsort, rfl⟩, le_rfl⟩
    have := loop_invariant _ _ (fun N : PCTMC ℝ => (N.Estimable fixed ∧ Sorted N fixed C ∧ N = { M0 with values := N.values }) ∧
      avgLogLik M0.density S ≤ avgLogLik N.density S) ?_ _ _ _ h0 hst
    · exact this.2
    · rintro M1 M2 ll ⟨⟨i1, i2, i3⟩, i4⟩ hs
      have hS1 : M1.Short S := by rw [i3]; exact hS.values _
      rw [fitStep_short processes i1 i2 S hS1] at hs
      obtain ⟨⟨v, u, rfl, hsc⟩, hm, _⟩ := step_timed processes i1 i2 S hTS hw hlen ht M2 ll hs
      refine ⟨⟨hsc.estimable i1, hsc.sorted i1 i2, ?_⟩, le_trans i4 hm⟩
      rw [i3]

/-- C78: on such training sets, with at least two processes, `fit` returns whatever the budget, as soon as one trace is possible,
if the total degrees of the rates of each estimated parameter agree (no parameter is of the third category). -/
theorem fit_short_total (processes : ℕ) (hp : 1 < processes) (S : TSet (Sym String)) (hT : Typed (.timed S)) (hinit : Shows (.timed S) "init")
    (M : PCTMC ℝ) (fixed : List String) (h : M.Estimable fixed) (hS : M.Short S) (hw : WaitsNonneg S)
    (hlen : S.times.length = S.sequences.length) (ht : ∀ t ∈ S.times, 1 ≤ t)
    (C : Cats ℝ) (hC : M.sortParameters fixed = .ok C) (h3 : C.cat3 = [])
    (w : List (Sym String)) (hws : w ∈ S.sequences) (hl : M.density w ≠ 0)
    (epsilon : ℝ) (maxIt : ℕ) (lo hi : Option ℝ) (rounds : List (List ℝ)) (hr : rounds ≠ []) :
    ∃ M', M.fit processes (.timed S) (.names fixed) false epsilon maxIt lo hi rounds = .ok (some M') := by
  have hTS : CTMC.TimedSet S := by
    intro w hw
    obtain ⟨o, t, last, rfl, _⟩ := hS w hw
    exact ⟨isTimed_timed [(o, t)] last, by simp⟩
  have hinst : M.randomInstantiation none lo hi rounds = .ok (some M) := by
    obtain ⟨r, rounds, rfl⟩ := List.exists_cons_of_ne_nil hr
    obtain ⟨M2, h1, _⟩ := (M.instantiate_spec h.wf M.defaultParameters (r.map (fun u => u * (hi.getD M.defaultBounds.2 - lo.getD M.defaultBounds.1)
      + lo.getD M.defaultBounds.1))).1 h.ratesOK
    have : M.randomInstantiation none lo hi (r :: rounds) = .ok (some M2) := by
      unfold randomInstantiation instantiateLoop
      rw [Option.getD_none, h1]
      rfl
    rw [this, randomInstantiation_full h.full this]
  have hsort := sortParameters_spec h C hC
  have key : ∃ st, BW.fit (fitStep processes C false S) epsilon maxIt M = .ok st := by
    unfold BW.fit
    clear hC hinst
    generalize (0:ℕ) = c
    generalize (none : Option ℝ) = l
    induction maxIt generalizing M c l with
    | zero => exact ⟨_, rfl⟩
    | succ fuel ih =>
      have hstep : ∃ r, fitStep processes C false S M = .ok r := by
        rw [fitStep_short processes h hsort S hS]
        unfold estimateStep
        rw [h.hypothesis_eq]
        simp only [bind, Except.bind]
        rw [tables_timed M.here S hTS]
        simp only
        obtain ⟨t, htm⟩ := mem_zip_of_mem S hlen w hws
        rw [collect_many _ _ hp]
        · exact update_total h hsort h3 _
        · rw [filterMap_ite]
          intro h0
          have : (w, t) ∈ (S.sequences.zip S.times).filter (fun x => decide ¬ M.here.density x.1 = 0) :=
            List.mem_filter.2 ⟨htm, by have hl' : M.here.density w ≠ 0 := hl; simpa using hl'⟩
          rw [List.map_eq_nil_iff] at h0
          rw [h0] at this
          exact absurd this List.not_mem_nil
      obtain ⟨⟨M', ll⟩, hr⟩ := hstep
      rw [loop_succ _ _ _ _ M' ll hr]
      rw [fitStep_short processes h hsort S hS] at hr
      obtain ⟨⟨v, u, rfl, hsc⟩, _, hiff, _⟩ := step_timed processes h hsort S hTS hw hlen ht M' ll hr
      split_ifs
      · exact ⟨_, rfl⟩
      · exact ih _ (hsc.estimable h) (hS.values _) ((hiff w hws).mp hl) (hsc.sorted h hsort) _ _
  obtain ⟨st, hst⟩ := key
  unfold fit
  rw [prepare_spec (.timed S) hT hinit, hinst]
  simp only [bind, Except.bind, FixedArg.resolve, hC]
  rw [hst]
  exact ⟨_, rfl⟩

end PCTMC
end Jajapy
