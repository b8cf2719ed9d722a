import Verif.Props.FinishPCTMC
import Verif.Props.FinishEx
import Verif.Props.PFitEx
import Verif.Props.FitParametersEx

/-!
Examples for C79 on PCTMCs: one iteration on the trace init, 1, a, from the value 3 of the parameter q.
-/

set_option linter.unusedSectionVars false

namespace Jajapy

open Finset Spec BW Files Spec.Storm Tools Create

namespace PCTMC

theorem twinB_tables (H : CTMC ℝ String 3) (q : ℝ) (hq : 0 < q) (l0 : H.labelling 0 = "init") (l1 : H.labelling 1 = "b")
    (l2 : H.labelling 2 = "a") (i0 : H.initialState 0 = 1) (i1 : H.initialState 1 = 0) (i2 : H.initialState 2 = 0)
    (m0 : ∀ s ss, H.matrix s ss = if s = 0 ∧ ss = 1 then 1 else if s = 0 ∧ ss = 2 then q else if s = 1 ∧ ss = 2 then 2 * q else 0) :
    ∃ t : FitTables 3, fitTables H (timed [("init", 1)] "a") 1 = .ok (some t) ∧
      (∀ s, ∃ x, t.visits s = .ok x) ∧ (∀ s ss, ∃ x, t.uses s ss = .ok x) ∧
      t.total.time 0 = 1 ∧ t.total.uses 0 2 = 1 ∧ t.total.seen 0 2 ∧ ¬ t.total.seen 1 2 := by
  obtain ⟨d1, d2, d3, d4, d5, _⟩ := twin_density H "b" q (by decide) l0 l1 l2 i0 i1 i2 m0
  have hnn : ∀ s ss, 0 ≤ H.matrix s ss := by
    intro s ss
    rw [m0]
    split_ifs <;> positivity
  have hne : q * Real.exp (-(1 + q)) ≠ 0 := (by positivity : 0 < q * Real.exp (-(1 + q))).ne'
  have hls := lastSum_alphasMatrix H hnn [("init", 1)] "a"
  rw [d1] at hls
  have hT := fitTables_timed H ("init", 1) [] "a" 1
  simp only [hls, if_neg hne] at hT
  have hr : ∀ s ss, ([("init", 1)].map symStep).map (H.tauTimed s ss) = [H.rateStep s ss ("init", 1)] := by
    intro s ss
    simp only [List.map_cons, List.map_nil, H.tauTimed_symStep]
  have hsum := sums_short H hnn ("init", 1) "a" (((1:ℕ):ℝ) / (q * Real.exp (-(1 + q))))
  have hm : H.maskTimed (.obs "a") 2 = 1 := by simp [CTMC.maskTimed, l2]
  simp only [hr] at hT
  refine ⟨_, hT, fun s => ⟨_, (hsum s s).1⟩, fun s ss => ⟨_, (hsum s ss).2⟩, ?_, ?_, ?_, ?_⟩
  · refine (congrArg (fun x : Py ℝ => x.toOption.getD 0) (hsum 0 0).1).trans ?_
    show (H.initialState 0 + fwd H.rateStep H.initialState ("init", 1) 0) * bwd H.rateStep (H.maskTimed (.obs "a")) ("init", 1) 0 * 1 * _ = _
    rw [d2, d3, i0]
    field_simp
    simp
  · refine (congrArg (fun x : Py ℝ => x.toOption.getD 0) (hsum 0 2).2).trans ?_
    show (H.initialState 0 + fwd H.rateStep H.initialState ("init", 1) 0) * H.rateStep 0 2 ("init", 1) * H.maskTimed (.obs "a") 2 * _ = _
    rw [d5, d3, i0, hm]
    field_simp
    simp
  · show 0 < [H.rateStep 0 2 ("init", 1)].sum
    rw [d5]
    simp only [List.sum_cons, List.sum_nil, add_zero]
    positivity
  · show ¬ 0 < [H.rateStep 1 2 ("init", 1)].sum
    simp [CTMC.rateStep, l1]

theorem exTwinB_step (C : Cats ℝ) (hC : (exTwin "b" 3).sortParameters [] = .ok C) :
    ∃ t : Tables (exTwin "b" 3).nb, at1 t.time 0 = 1 ∧ at2 t.uses 0 2 = 1 ∧ t.seenAt 0 2 ∧ ¬ t.seenAt 1 2 ∧
      fitStep 2 C false exOne (exTwin "b" 3) = (exTwin "b" 3).update C [(exTwin "b" 3).work C (exTwin "b" 3).here t] := by
  have hE := exTwin_estimable "b" 3 (by norm_num)
  obtain ⟨t, ht, h1, h2, h3, h5, h7, h8⟩ := twinB_tables (exTwin "b" 3).here 3 (by norm_num) rfl rfl rfl rfl rfl rfl (exTwin_matrix "b" 3)
  refine ⟨t.total, (at1_fin t.total.time 0).trans h3, (at2_fin t.total.uses 0 2).trans h5, ⟨by decide, by decide, h7⟩, fun ⟨_, _, h⟩ => h8 h, ?_⟩
  have hw := fitWork_ok hE (sortParameters_spec hE C hC) (exTwin "b" 3).here t h1 h2
  have htr : (exTwin "b" 3).fitTrace C (exTwin "b" 3).here false (timed [("init", 1)] "a", 1) =
      .ok (some ([], (exTwin "b" 3).work C (exTwin "b" 3).here t.total)) := by
    unfold fitTrace
    refine ((Except.bind_eq_ok _ _ _).2 ⟨_, ht, ?_⟩)
    refine ((Except.bind_eq_ok _ _ _).2 ⟨_, hw, rfl⟩)
  unfold fitStep
  rw [hE.hypothesis_eq]
  simp only [bind, Except.bind]
  have : (exOne.sequences.zip exOne.times).mapM ((exTwin "b" 3).fitTrace C (exTwin "b" 3).here false) =
      .ok [some ([], (exTwin "b" 3).work C (exTwin "b" 3).here t.total)] := by
    simp only [exOne, List.zip_cons_cons, List.zip_nil_right, List.mapM_cons, List.mapM_nil, htr]
    rfl
  rw [this]
  simp only [collect]
  rfl

/-- One iteration gives the value 1 to q. -/
theorem exTwinB_fit (epsilon : ℝ) (lo hi : Option ℝ) : ∃ C st, (exTwin "b" 3).ready (.timed exOne) (.names []) lo hi [[]] = .ok (some (exTwin "b" 3, C, .timed exOne)) ∧
    BW.fit (iteration 2 C false (.timed exOne)) epsilon 1 (exTwin "b" 3) = .ok st ∧ st.h = exTwin "b" 1 ∧ st.counter = 1 := by
  obtain ⟨C, hC, h1, h2, h3, c1, c2⟩ := exTwin_sort "b" 3
  obtain ⟨t, a1, a3, hs1, hs2, hstep⟩ := exTwinB_step C hC
  have hidx : (exTwin "b" 3).indexesOf "q" = [(0, 2), (1, 2)] := rfl
  have hupd : ∃ ll, (exTwin "b" 3).update C [(exTwin "b" 3).work C (exTwin "b" 3).here t] = .ok (exTwin "b" 1, ll) := by
    have hd : ((exTwin "b" 3).work C (exTwin "b" 3).here t).den1 "q" = 1 := by
      simp only [work, hidx, List.map_cons, List.map_nil, List.sum_cons, List.sum_nil, add_zero, c1, c2]
      rw [if_pos hs1, if_neg hs2]
      rw [show at1 t.time 0 = 1 from a1]
      norm_num
    have hn : ((exTwin "b" 3).work C (exTwin "b" 3).here t).num1 "q" = 1 := by
      simp only [work, hidx, List.map_cons, List.map_nil, List.sum_cons, List.sum_nil, add_zero]
      rw [if_pos hs1, if_neg hs2, a3]
      norm_num
    have hv : (exTwin "b" 3).value1 1 1 "q" = 1 := by
      unfold value1
      rw [if_neg (by norm_num)]
      norm_num
    unfold update
    rw [h1, h2, h3]
    simp only [List.map_cons, List.map_nil, List.mapM_nil, bind, Except.bind, pure, Except.pure, List.append_nil, List.sum_cons,
      List.sum_nil, add_zero, hd, hn, hv]
    obtain ⟨M2, i1, _⟩ := ((exTwin "b" 3).instantiate_spec (exTwin_wf "b" 3).1 ["q"] [1]).1
      (exTwin_estimable "b" 3 (by norm_num)).ratesOK
    obtain ⟨b, hb, hbr⟩ := (exTwin "b" 3).checkRates_eq (exTwin_wf "b" 3).1 ((exTwin "b" 3).newValues ["q"] [1])
    unfold instantiate at i1
    simp only [bind, Except.bind] at i1
    rw [hb] at i1
    cases b with
    | false => exact absurd i1 (by simp [pure, Except.pure])
    | true =>
      unfold instantiate
      simp only [bind, Except.bind]
      rw [hb]
      exact ⟨_, rfl⟩
  obtain ⟨ll, hupd⟩ := hupd
  refine ⟨C, ⟨exTwin "b" 1, 1, some ll⟩, ?_, ?_, rfl, rfl⟩
  · unfold ready
    rw [prepare_spec (.timed exOne) exOne_ok.1 exOne_ok.2.1, exTwin_inst "b" 3 (by norm_num) lo hi]
    simp only [bind, Except.bind, FixedArg.resolve, hC]
    rfl
  · unfold BW.fit
    rw [loop_succ _ _ _ _ _ _ (hstep.trans hupd), if_neg (by simp)]
    rfl

theorem exTwinB_init (q : ℝ) : "init" ∈ (exTwin "b" q).labelling ∧
    (exTwin "b" q).initialState = (exTwin "b" q).labelling.map (fun i => if i = "init" then 1 / ((exTwin "b" q).labelling.count "init" : ℝ) else 0) := by
  refine ⟨by simp [exTwin], ?_⟩
  simp [exTwin]

theorem exTwinB_make (q : ℝ) : mkPCTMC [[0, 1, 2], [0, 0, 3], [0, 0, 0]] ["init", "b", "a"] [.num 0, .num 1, .sym "q", .mul (.num 2) (.sym "q")] [("q", some q)]
    [[(0, 2), (1, 2)]] ["q"] [] = .ok (exTwin "b" q) := by
  rw [mkPCTMC_ok_iff _ _ _ _ _ _ _ (by decide)]
  refine ⟨⟨by decide, rfl, by decide, rfl⟩, rfl, rfl, rfl, rfl, rfl, rfl, rfl, (exTwinB_init q).2⟩

/-- A printer for the expressions of the example. -/
noncomputable def twinIO : ExprIO ℝ where
  dom e := e = .num 0 ∨ e = .num 1 ∨ e = .sym "q" ∨ e = .mul (.num 2) (.sym "q")
  str e := open Classical in if e = .num 0 then "0.0" else if e = .num 1 then "1" else if e = .sym "q" then "q" else "2*q"
  parse s := if s = "0.0" then some (.num 0) else if s = "1" then some (.num 1) else if s = "q" then some (.sym "q") else some (.mul (.num 2) (.sym "q"))
  parse_str e h := by
    rcases h with rfl | rfl | rfl | rfl <;> simp

/-- Non-vacuity of `call_file_partial`: the file contains the value 1 of q. -/
example (printable : Char → Bool) (epsilon : ℝ) : ∃ r t, (exTwin "b" 3).callFit printable realIO twinIO "m".toList ⟨true, false, true, false⟩ 2 (.timed exOne) (.names [])
    false epsilon 1 none none [[]] = some r ∧ r.file = some t ∧ loadPCTMC realIO twinIO t = .ok ("m".toList, exTwin "b" 1) := by
  obtain ⟨C, st, h1, h2, h3, _⟩ := exTwinB_fit epsilon none none
  obtain ⟨r, hr, hf, _⟩ := call_file_partial printable realIO twinIO "m".toList ⟨true, false, true, false⟩ (exTwinB_make 3) (exTwin_wf "b" 3).1 (by simp) h1 h2
    ⟨by decide, by decide⟩ (by rw [h3]; intro p hp; simp only [exTwin, List.mem_singleton] at hp; subst hp; exact realIO_one)
    (by rw [h3]; intro e he; simpa [exTwin, twinIO] using he)
  obtain ⟨t, ht, hl⟩ := hf rfl
  rw [h3] at hl
  exact ⟨r, t, hr, ht, hl⟩

/-- Non-vacuity of `call_returns_partial`: the model and the number of iterations. -/
example (printable : Char → Bool) (EIO : ExprIO ℝ) (epsilon : ℝ) : ∃ r x, (exTwin "b" 3).callFit printable realIO EIO "m".toList ⟨false, true, false, true⟩ 2
    (.timed exOne) (.names []) false epsilon 1 none none [[]] = some r ∧ r.result = .ok x ∧ x.model = .inl (exTwin "b" 1) ∧ ∃ ll, x.info = some (1, ll) := by
  obtain ⟨C, st, h1, h2, h3, h4⟩ := exTwinB_fit epsilon none none
  obtain ⟨r, x, hr, hx, _, hm, _, _, hd⟩ := call_returns_partial printable realIO EIO "m".toList ⟨false, true, false, true⟩ (exTwin_wf "b" 3).1 (exTwinB_init 3)
    (by intro r hr; simp only [List.mem_singleton] at hr; subst hr; rfl) h1 h2 (fun _ => by simp [exTwin]) (fun _ => by norm_num) (by simp [exTwin])
  obtain ⟨ll, _, hll⟩ := hd rfl
  exact ⟨r, x, hr, hx, by rw [← h3]; exact hm rfl, ll, by rw [hll, h4]⟩

/-- Non-vacuity of `call_storm_nan`: with the default `stormpy_output`, the transitions of the state 2 have the value `nan`. -/
example (printable : Char → Bool) (EIO : ExprIO ℝ) (epsilon : ℝ) : ∃ r x Z, (exTwin "b" 3).callFit printable realIO EIO "m".toList ⟨false, false, true, false⟩ 2
    (.timed exOne) (.names []) false epsilon 1 none none [[]] = some r ∧ r.result = .ok x ∧ x.model = .inr Z ∧ ∀ j < 3, Entry Z 2 0 j none := by
  obtain ⟨C, st, h1, h2, h3, h4⟩ := exTwinB_fit epsilon none none
  exact call_storm_nan printable realIO EIO "m".toList (exTwin_wf "b" 3).1 (exTwinB_init 3)
    (by intro r hr; simp only [List.mem_singleton] at hr; subst hr; rfl) h1 h2 rfl 2 (by simp [exTwin]) (by simp [exTwin])

/-- A reader of the Prism expressions of the example. -/
noncomputable def twinExpr : List Spec.Prism.Tok → Option (Expr ℝ)
  | [.int a] => some (.num (Spec.Prism.natOf a : ℝ))
  | [.id q] => some (.sym (String.ofList q))
  | [.int a, .sym ['*'], .id q] => some (.mul (.num (Spec.Prism.natOf a : ℝ)) (.sym (String.ofList q)))
  | _ => none

open Prism Spec.Prism in
theorem twin_text (e : Expr ℝ) (h : e = .num 1 ∨ e = .sym "q" ∨ e = .mul (.num 2) (.sym "q")) :
    ∃ t, Powers (twinIO.str e).toList t ∧ TextOf twinExpr t e := by
  rcases h with rfl | rfl | rfl
  · have hs : twinIO.str (.num 1) = "1" := by simp [twinIO]
    rw [hs]
    refine ⟨"1".toList, .char (by decide) .nil, ?_⟩
    have hw : words "1".toList = [.int ['1']] := by decide +kernel
    refine ⟨?_, by rw [hw]; decide, ?_⟩
    · intro c s hc
      rw [hw]
      exact lex_digits (a := ['1']) (by decide) (by decide) (endNum_cons (by rcases hc with rfl | rfl <;> decide) s)
    · rw [hw]
      show some (Expr.num ((natOf ['1'] : ℕ) : ℝ)) = _
      rw [show natOf ['1'] = 1 from by decide +kernel, Nat.cast_one]
  · have hs : twinIO.str (.sym "q") = "q" := by simp [twinIO]
    rw [hs]
    refine ⟨"q".toList, .char (by decide) .nil, ?_⟩
    have hw : words "q".toList = [.id ['q']] := by decide +kernel
    refine ⟨?_, by rw [hw]; decide, ?_⟩
    · intro c s hc
      rw [hw]
      exact lex_ident (c := 'q') (t := []) (by decide) (by decide) (endId_cons (by rcases hc with rfl | rfl <;> decide) s)
    · rw [hw]
      rfl
  · have hs : twinIO.str (.mul (.num 2) (.sym "q")) = "2*q" := by simp [twinIO]
    rw [hs]
    refine ⟨"2*q".toList, .char (by decide) (.times (by decide) (.char (by decide) .nil)), ?_⟩
    have hw : words "2*q".toList = [.int ['2'], .sym ['*'], .id ['q']] := by decide +kernel
    refine ⟨?_, by rw [hw]; decide, ?_⟩
    · intro c s hc
      rw [hw]
      have e : "2*q".toList ++ c :: s = ['2'] ++ '*' :: ('q' :: ([] ++ c :: s)) := rfl
      rw [e, lex_digits (by decide) (by decide) (endNum_cons (by decide) _), lex_sym (by decide),
        lex_ident (by decide) (by decide) (endId_cons (by rcases hc with rfl | rfl <;> decide) s)]
      cases lex (c :: s) <;> rfl
    · rw [hw]
      show some (Expr.mul (.num ((natOf ['2'] : ℕ) : ℝ)) (.sym "q")) = _
      rw [show natOf ['2'] = 2 from by decide +kernel]
      norm_num

/-- Non-vacuity of `call_prism_partial`: the program has the parameter q with the value 1. -/
example (printable : Char → Bool) (epsilon : ℝ) : ∃ r t P start, (exTwin "b" 3).callFit printable realIO twinIO "m".toList ⟨false, true, false, false⟩ 2 (.timed exOne)
    (.names []) false epsilon 1 none none [[]] = some r ∧ r.prism = some t ∧
    Spec.Prism.readPrism realIO.parse twinExpr t = some P ∧ P.name = "m".toList ∧ (![(1 : ℝ), 0, 0]) start = 1 ∧
    Spec.Prism.DescribesP P [(['q'], some 1)] start (fun s j => if (![![0, 1, 2], ![0, 0, 3], ![0, 0, 0]] : Fin 3 → Fin 3 → ℕ) s j = 0 then none else
      ([.num 0, .num 1, .sym "q", .mul (.num 2) (.sym "q")] : List (Expr ℝ))[(![![0, 1, 2], ![0, 0, 3], ![0, 0, 0]] : Fin 3 → Fin 3 → ℕ) s j]?)
      ![("init" : String), "b", "a"] := by
  obtain ⟨C, st, h1, h2, h3, _⟩ := exTwinB_fit epsilon none none
  have := call_prism_partial printable realIO twinIO "m".toList ⟨false, true, false, false⟩ (expr := twinExpr)
    (m := ![![0, 1, 2], ![0, 0, 3], ![0, 0, 0]]) (label := ![("init" : String), "b", "a"]) (init := ![(1 : ℝ), 0, 0])
    (exTwin_wf "b" 3).1 (by simp [exTwin, List.ofFn_succ]) (by simp [exTwin, List.ofFn_succ]) (by simp [exTwin, List.ofFn_succ]) h1 h2 (by decide)
    (by decide +kernel) ⟨0, rfl⟩ (by show ∀ p ∈ ["q"], _; decide +kernel) (by show ["q"].Nodup; decide) (by show "s" ∉ ["q"]; decide)
    (by
      rw [h3]
      intro p hp v hv
      have hv1 : v = 1 := by
        rcases List.mem_cons.1 hp with rfl | hp
        · exact (Option.some.inj hv).symm
        · cases hp
      subst hv1
      exact ⟨realIO_one, realIO_decimal 1 realIO_one one_pos⟩)
    (by
      rw [h3]
      intro i j hij e he
      refine twin_text e ?_
      revert hij he
      fin_cases i <;> fin_cases j <;> simp [exTwin] <;> (intro h; simp [← h]))
    rfl
  rw [h3] at this
  exact this

/-- Two states with the label init. -/
noncomputable def exStarts : PCTMC ℝ where
  matrix := [[0, 1], [1, 0]]
  labelling := ["init", "init"]
  exprs := [.num 0, .num 1]
  values := []
  indexes := []
  names := []
  initialState := [1 / 2, 1 / 2]
  sync := []

theorem exStarts_wf : exStarts.WF where
  square := by simp [exStarts]
  labels := rfl
  init := rfl
  bound := by simp [exStarts]
  declared := by
    intro x hx p hp
    simp only [exStarts, List.mem_cons, List.not_mem_nil, or_false] at hx
    rcases hx with rfl | rfl <;> cases hp

/-- Non-vacuity of `call_prism_raises`: with two initial states, on the trace init, 1, a. -/
example (printable : Char → Bool) (EIO : ExprIO ℝ) (epsilon : ℝ) (maxIt : ℕ) : mkPCTMC [[0, 1], [1, 0]] ["init", "init"] [.num 0, .num 1] [] [] [] [] = .ok exStarts ∧
    ∃ r, exStarts.callFit printable realIO EIO "m".toList ⟨false, true, true, false⟩ 2 (.timed exOne) .notGiven false epsilon maxIt none none [[]] = some r ∧
      ∃ e, r.result = .error e := by
  refine ⟨?_, ?_⟩
  · rw [mkPCTMC_ok_iff _ _ _ _ _ _ _ (by decide)]
    refine ⟨⟨by decide, rfl, by decide, rfl⟩, rfl, rfl, rfl, rfl, rfl, rfl, rfl, ?_⟩
    simp [exStarts]
  · have hinst : exStarts.randomInstantiation none none none [[]] = .ok (some exStarts) := by
      have hok : exStarts.RatesOK exStarts.values := by
        intro i j hi hj _ _ ρ _
        have hi' : i < 2 := hi
        have hj' : j < 2 := hj
        interval_cases i <;> interval_cases j <;> simp [rateExpr, exStarts, Expr.den]
      obtain ⟨M2, h1, _⟩ := (exStarts.instantiate_spec exStarts_wf exStarts.defaultParameters []).1 hok
      have : exStarts.randomInstantiation none none none [[]] = .ok (some M2) := by
        unfold randomInstantiation instantiateLoop
        rw [Option.getD_none]
        simp only [List.map_nil, bind, Except.bind]
        rw [h1]
        rfl
      rw [this, randomInstantiation_full (by intro p hp; cases hp) this]
    have hready : ∃ C, exStarts.ready (.timed exOne) .notGiven none none [[]] = .ok (some (exStarts, C, .timed exOne)) := by
      have hs : ∃ C, exStarts.sortParameters [] = .ok C := ⟨_, rfl⟩
      obtain ⟨C, hs⟩ := hs
      refine ⟨C, ?_⟩
      unfold ready
      rw [prepare_spec (.timed exOne) exOne_ok.1 exOne_ok.2.1, hinst]
      simp only [bind, Except.bind]
      rw [show FixedArg.notGiven.resolve exStarts = .ok [] from rfl]
      simp only [hs]
      rfl
    obtain ⟨C, hC⟩ := hready
    exact ⟨_, callFit_eq printable realIO EIO "m".toList _ hC,
      call_prism_raises printable realIO EIO "m".toList ⟨false, true, true, false⟩ exStarts_wf (by simp [exStarts]) rfl _ (callFit_eq _ _ _ _ _ hC)⟩

/-- Non-vacuity of `fitParametersData_spec`: the dictionary of the example of `fit_parameters`, with the data. -/
example (epsilon : ℝ) : ∃ d k ll, 1 ≤ k ∧ k ≤ 5 ∧ (exModel ℝ [("x", 1/2), ("y", 3)]).fitParametersData 2 (.timed exTimed) ["x", "y"] epsilon 5 none none [] true =
    .ok (some (d, some (k, ll))) := by
  obtain ⟨d, M', h⟩ := exModel_fit epsilon 5
  obtain ⟨k, ll, k1, k2, e⟩ := (fitParametersData_spec _ _ _ h).2.1 (by decide)
  exact ⟨d, k, ll, k1, k2, e⟩

end PCTMC
end Jajapy
