import Verif.Props.Scale
import Verif.Model.FinishPCTMC

/-!
C104 for PCTMCs: `fit` and `fit_parameters` on a training set whose multiplicities are multiplied by a number.
-/

set_option linter.unusedSectionVars false

namespace Jajapy

open Finset BW Polynomial

namespace PCTMC

/-! ### The sums of a trace -/

variable {n : ℕ}

/-- The sums of a trace with `k` times its multiplicity. -/
noncomputable def Tables.mul (k : ℕ) (t : Tables n) : Tables n :=
  { time := fun s => k * t.time s, uses := fun s ss => k * t.uses s ss, seen := t.seen, proba := t.proba, times := k * t.times }

noncomputable def Work.mul (k : ℕ) (w : Work) : Work :=
  { den1 := fun p => k * w.den1 p, num1 := fun p => k * w.num1 p, den2 := fun p => k * w.den2 p, num2 := fun p => k * w.num2 p,
    terms := fun p => C (k : ℝ) * w.terms p, proba := w.proba, times := k * w.times }

theorem tablesTimed_mul (H : CTMC ℝ String n) (seq : List (Sym String)) (k t : ℕ) :
    tablesTimed H seq (k * t) = (tablesTimed H seq t).map (Option.map (Tables.mul k)) := by
  unfold tablesTimed
  rw [CTMC.processWorkTimed_mul]
  cases processWorkTimed H (fun _ _ => false) seq t with
  | error e => rfl
  | ok r =>
    cases splitTimed seq with
    | error e => rfl
    | ok x => cases r <;> rfl

theorem tablesUntimed_mul (H : CTMC ℝ String n) (seq : List String) (k t : ℕ) :
    tablesUntimed H seq (k * t) = (tablesUntimed H seq t).map (Option.map (Tables.mul k)) := by
  unfold tablesUntimed
  rw [CTMC.processWorkUntimed_mul]
  cases processWorkUntimed H (fun _ _ => false) seq t with
  | error e => rfl
  | ok r =>
    cases r with
    | none => rfl
    | some w => simp [bind, Except.bind, Except.map, pure, Except.pure, Tables.mul, CTMC.workTimes, mul_div_assoc]

theorem at1_mul (k : ℝ) (f : Fin n → ℝ) (s : ℕ) : at1 (fun s => k * f s) s = k * at1 f s := by
  unfold at1
  split_ifs <;> simp

theorem at2_mul (k : ℝ) (f : Fin n → Fin n → ℝ) (s ss : ℕ) : at2 (fun s ss => k * f s ss) s ss = k * at2 f s ss := by
  unfold at2
  split_ifs <;> simp

theorem work_mul (M : PCTMC ℝ) (Cs : Cats ℝ) (H : CTMC ℝ String M.nb) (k : ℕ) (t : Tables M.nb) :
    M.work Cs H (t.mul k) = (M.work Cs H t).mul k := by
  have hs : ∀ q : ℕ × ℕ, (t.mul k).seenAt q.1 q.2 ↔ t.seenAt q.1 q.2 := fun q => Iff.rfl
  simp only [work, Work.mul, Tables.mul, at1_mul, at2_mul, ← List.sum_map_mul_left]
  congr 1
  · funext p
    refine congrArg List.sum (List.map_congr_left (fun q _ => ?_))
    by_cases hq : t.seenAt q.1 q.2
    · refine (if_pos ((hs q).2 hq)).trans ?_
      rw [if_pos hq]
      ring
    · refine (if_neg (fun h => hq ((hs q).1 h))).trans ?_
      rw [if_neg hq, mul_zero]
  · funext p
    refine congrArg List.sum (List.map_congr_left (fun q _ => ?_))
    by_cases hq : t.seenAt q.1 q.2
    · refine (if_pos ((hs q).2 hq)).trans ?_
      rw [if_pos hq]
    · refine (if_neg (fun h => hq ((hs q).1 h))).trans ?_
      rw [if_neg hq, mul_zero]
  · funext p
    refine congrArg List.sum (List.map_congr_left (fun q _ => ?_))
    ring
  · funext p
    refine congrArg List.sum (List.map_congr_left (fun q _ => ?_))
    ring
  · funext p
    refine congrArg List.sum (List.map_congr_left (fun q _ => ?_))
    rw [mul_sub, C_mul_monomial, ← C_mul]
    congr 2
    · ring
    · ring

/-! ### The update -/

theorem mul_rpow_left (k x a : ℝ) (hk : 0 < k) : (k * x) ^ a = k ^ a * x ^ a := by
  rcases le_or_gt 0 x with hx | hx
  · exact Real.mul_rpow hk.le hx
  · rw [Real.rpow_def_of_neg (mul_neg_of_pos_of_neg hk hx), Real.rpow_def_of_neg hx, Real.rpow_def_of_pos hk, Real.log_mul hk.ne' hx.ne, add_mul, Real.exp_add]
    ring

theorem value2_mul (M : PCTMC ℝ) (Cs : Cats ℝ) (k : ℝ) (hk : 0 < k) (den num : ℝ) (p : String) :
    M.value2 Cs (k * den) (k * num) p = M.value2 Cs den num p := by
  unfold value2
  by_cases hd : den = 0
  · rw [if_pos hd, if_pos (by rw [hd, mul_zero])]
  · rw [if_neg hd, if_neg (mul_ne_zero hk.ne' hd)]
    dsimp only
    split_ifs with hc
    · rfl
    · rw [mul_rpow_left _ _ _ hk, mul_rpow_left _ _ _ hk, mul_left_comm, mul_div_mul_left _ _ (Real.rpow_pos_of_pos hk _).ne']

theorem maxRoot_mul (k : ℝ) (hk : k ≠ 0) (P : ℝ[X]) : maxRoot (C k * P) = maxRoot P := by
  have : ((C k * P).map Complex.ofRealHom).roots = (P.map Complex.ofRealHom).roots := by
    rw [Polynomial.map_mul, map_C, roots_C_mul _ (by simpa using hk)]
  unfold maxRoot
  rw [this]

theorem update_mul (M : PCTMC ℝ) (Cs : Cats ℝ) {k : ℕ} (hk : 0 < k) (temp : List Work) :
    M.update Cs (temp.map (Work.mul k)) = (M.update Cs temp).map (fun r => (r.1, (k : ℝ) * r.2)) := by
  have hk' : (k : ℝ) ≠ 0 := Nat.cast_ne_zero.2 hk.ne'
  have e1 : ∀ p, M.value1 ((temp.map (Work.mul k)).map (fun w => w.den1 p)).sum ((temp.map (Work.mul k)).map (fun w => w.num1 p)).sum p =
      M.value1 (temp.map (fun w => w.den1 p)).sum (temp.map (fun w => w.num1 p)).sum p := by
    intro p
    simp only [List.map_map, Function.comp_def, Work.mul, List.sum_map_mul_left, value1, mul_eq_zero, hk', false_or, mul_div_mul_left _ _ hk']
  have e2 : ∀ p, M.value2 Cs ((temp.map (Work.mul k)).map (fun w => w.den2 p)).sum ((temp.map (Work.mul k)).map (fun w => w.num2 p)).sum p =
      M.value2 Cs (temp.map (fun w => w.den2 p)).sum (temp.map (fun w => w.num2 p)).sum p := by
    intro p
    simp only [List.map_map, Function.comp_def, Work.mul, List.sum_map_mul_left]
    exact M.value2_mul Cs k (Nat.cast_pos.2 hk) _ _ p
  have e3 : ∀ p, M.value3 ((temp.map (Work.mul k)).map (fun w => w.terms p)).sum p = M.value3 (temp.map (fun w => w.terms p)).sum p := by
    intro p
    simp only [List.map_map, Function.comp_def, Work.mul, List.sum_map_mul_left, value3, maxRoot_mul _ hk']
  have e4 : logLik ((temp.map (Work.mul k)).map (fun w => (w.proba, w.times))) = k * logLik (temp.map (fun w => (w.proba, w.times))) := by
    rw [List.map_map]
    exact logLik_mul k (fun w => w.proba) (fun w => w.times) temp
  unfold update
  simp only [e1, e2, e3, e4]
  cases Cs.cat2.mapM (fun p => M.value2 Cs (temp.map (fun w => w.den2 p)).sum (temp.map (fun w => w.num2 p)).sum p) with
  | error e => rfl
  | ok v2 =>
    cases Cs.cat3.mapM (fun p => M.value3 (temp.map (fun w => w.terms p)).sum p) with
    | error e => rfl
    | ok v3 =>
      simp only [bind, Except.bind]
      cases M.instantiate (Cs.cat1 ++ Cs.cat2 ++ Cs.cat3)
        (Cs.cat1.map (fun p => M.value1 (temp.map (fun w => w.den1 p)).sum (temp.map (fun w => w.num1 p)).sum p) ++ v2 ++ v3) <;> rfl

/-! ### `fit_parameters` -/

/-- The training set `T` is `S` with every multiplicity multiplied by `k`. -/
def Traces.Repeats (k : ℕ) : Traces → Traces → Prop
  | .timed S, .timed T => TSet.Repeats k S T
  | .untimed S, .untimed T => TSet.Repeats k S T
  | _, _ => False

theorem tables_mul (H : CTMC ℝ String n) {k : ℕ} {S T : Traces} (h : Traces.Repeats k S T) :
    tables H T = (tables H S).map (List.map (Option.map (Tables.mul k))) := by
  cases S with
  | timed S =>
    cases T with
    | timed T =>
      unfold tables
      dsimp only
      rw [← mapM_map, TSet.Repeats.zip h, List.mapM_map]
      exact congrArg (fun F => List.mapM F _) (funext (fun p => tablesTimed_mul H p.1 k p.2))
    | untimed T => exact h.elim
  | untimed S =>
    cases T with
    | untimed T =>
      unfold tables
      dsimp only
      rw [← mapM_map, TSet.Repeats.zip h, List.mapM_map]
      exact congrArg (fun F => List.mapM F _) (funext (fun p => tablesUntimed_mul H p.1 k p.2))
    | timed T => exact h.elim

theorem estimateStep_repeats (processes : ℕ) (Cs : Cats ℝ) {k : ℕ} (hk : 0 < k) {S T : Traces} (h : Traces.Repeats k S T) (M : PCTMC ℝ) :
    estimateStep processes Cs T M = (estimateStep processes Cs S M).map (fun r => (r.1, (k : ℝ) * r.2)) := by
  unfold estimateStep
  cases M.hypothesis with
  | error e => rfl
  | ok H =>
    simp only [bind, Except.bind]
    rw [tables_mul H h]
    cases tables H S with
    | error e => rfl
    | ok ts =>
      simp only [Except.map]
      rw [collect_map]
      cases collect .typeError processes ts with
      | error e => rfl
      | ok temp =>
        have : (temp.map (Tables.mul k)).map (M.work Cs H) = (temp.map (M.work Cs H)).map (Work.mul k) := by
          rw [List.map_map, List.map_map]
          exact List.map_congr_left (fun t _ => M.work_mul Cs H k t)
        simp only [Except.map, this]
        exact M.update_mul Cs hk _

theorem getAlphabet_repeats {α : Type} [DecidableEq α] {k : ℕ} {S T : TSet α} (h : TSet.Repeats k S T) : T.getAlphabet = S.getAlphabet := by
  unfold TSet.getAlphabet TSet.getActionsObservations
  rw [h.1, h.2.2]

theorem withInit_repeats {α : Type} [DecidableEq α] (i : α) {k : ℕ} {S T : TSet α} (h : TSet.Repeats k S T) :
    (∃ e, withInit i S = .error e ∧ withInit i T = .error e) ∨ ∃ S' T', withInit i S = .ok S' ∧ withInit i T = .ok T' ∧ TSet.Repeats k S' T' := by
  unfold withInit
  rw [getAlphabet_repeats h]
  cases S.getAlphabet with
  | error e => exact .inl ⟨e, rfl, rfl⟩
  | ok l =>
    simp only [bind, Except.bind]
    split_ifs
    · exact .inr ⟨S, T, rfl, rfl, h⟩
    · exact .inr ⟨_, _, rfl, rfl, by rw [h.1], h.2.1, h.2.2⟩

theorem prepare_repeats {k : ℕ} {S T : Traces} (h : Traces.Repeats k S T) :
    (∃ e, prepare S = .error e ∧ prepare T = .error e) ∨ ∃ S' T', prepare S = .ok S' ∧ prepare T = .ok T' ∧ Traces.Repeats k S' T' := by
  cases S with
  | timed S =>
    cases T with
    | timed T =>
      unfold prepare
      rcases withInit_repeats (.obs "init") h with ⟨e, h1, h2⟩ | ⟨S', T', h1, h2, h3⟩
      · exact .inl ⟨e, by simp only [h1]; rfl, by simp only [h2]; rfl⟩
      · exact .inr ⟨.timed S', .timed T', by simp only [h1]; rfl, by simp only [h2]; rfl, h3⟩
    | untimed T => exact h.elim
  | untimed S =>
    cases T with
    | untimed T =>
      unfold prepare
      rcases withInit_repeats "init" h with ⟨e, h1, h2⟩ | ⟨S', T', h1, h2, h3⟩
      · exact .inl ⟨e, by simp only [h1]; rfl, by simp only [h2]; rfl⟩
      · exact .inr ⟨.untimed S', .untimed T', by simp only [h1]; rfl, by simp only [h2]; rfl, h3⟩
    | timed T => exact h.elim

theorem labelsOf_repeats {k : ℕ} {S T : Traces} (h : Traces.Repeats k S T) : labelsOf T = labelsOf S := by
  cases S with
  | timed S =>
    cases T with
    | timed T => unfold labelsOf; simp only [getAlphabet_repeats h]
    | untimed T => exact h.elim
  | untimed S =>
    cases T with
    | untimed T => unfold labelsOf; simp only [getAlphabet_repeats h]
    | timed T => exact h.elim

/-- C104, `fit_parameters`: the same values, with the tolerance multiplied like the multiplicities. -/
theorem fitParameters_repeats (processes : ℕ) {k : ℕ} (hk : 0 < k) {S T : Traces} (h : Traces.Repeats k S T) (M : PCTMC ℝ) (toUpdate : List String)
    (epsilon : ℝ) (maxIt : ℕ) (lo hi : Option ℝ) (rounds : List (List ℝ)) :
    fitParameters processes T M toUpdate (k * epsilon) maxIt lo hi rounds = fitParameters processes S M toUpdate epsilon maxIt lo hi rounds := by
  unfold fitParameters
  split_ifs
  · rfl
  · rw [labelsOf_repeats h]
    cases labelsOf S with
    | error e => rfl
    | ok alphabet =>
      simp only [bind, Except.bind]
      rcases prepare_repeats h with ⟨e, h1, h2⟩ | ⟨S', T', h1, h2, h3⟩
      · rw [h1, h2]
      · rw [h1, h2]
        dsimp only
        cases (M.reduceForTraces alphabet).start lo hi rounds with
        | error e => rfl
        | ok r =>
          cases r with
          | none => rfl
          | some M' =>
            have : estimate processes T' M' toUpdate (k * epsilon) maxIt = estimate processes S' M' toUpdate epsilon maxIt := by
              unfold estimate
              cases M'.sortParameters (M'.names.filter (fun p => p ∉ toUpdate)) with
              | error e => rfl
              | ok Cs =>
                simp only [bind, Except.bind]
                rw [fit_mul k (Nat.cast_pos.2 hk) _ _ (estimateStep_repeats processes Cs hk h3) epsilon maxIt M']
                cases BW.fit (estimateStep processes Cs S') epsilon maxIt M' <;> rfl
            dsimp only
            rw [this]

/-! ### `fit` -/

noncomputable def FitTables.mul (k : ℕ) (t : FitTables n) : FitTables n :=
  { visits := fun s => (t.visits s).map ((k : ℝ) * ·), uses := fun s ss => (t.uses s ss).map ((k : ℝ) * ·), seen := t.seen, proba := t.proba, times := k * t.times }

theorem visitsMatrix_mul (al be : List (Fin n → ℝ)) (ts : List ℝ) (k c : ℝ) (s : Fin n) :
    visitsMatrix al be ts (k * c) s = (visitsMatrix al be ts c s).map (k * ·) := by
  unfold visitsMatrix
  cases bmul (al.map (· s)).dropLast (be.map (· s)).dropLast with
  | error e => rfl
  | ok x =>
    simp only [bind, Except.bind]
    cases bmul x ts with
    | error e => rfl
    | ok y =>
      simp only [pure, Except.pure, Except.map, ← List.sum_map_mul_left]
      refine congrArg (fun l => Except.ok (List.sum l)) (List.map_congr_left (fun z _ => ?_))
      ring

theorem usesMatrix_mul (al be : List (Fin n → ℝ)) (p : List ℝ) (k c : ℝ) (s ss : Fin n) :
    usesMatrix al be p (k * c) s ss = (usesMatrix al be p c s ss).map (k * ·) := by
  unfold usesMatrix
  cases bmul (al.map (· s)).dropLast p with
  | error e => rfl
  | ok x =>
    simp only [bind, Except.bind]
    cases bmul x (be.map (· ss)).tail with
    | error e => rfl
    | ok y =>
      simp only [pure, Except.pure, Except.map, ← List.sum_map_mul_left]
      refine congrArg (fun l => Except.ok (List.sum l)) (List.map_congr_left (fun z _ => ?_))
      ring

theorem fitTables_mul (H : CTMC ℝ String n) (seq : List (Sym String)) (k t : ℕ) :
    fitTables H seq (k * t) = (fitTables H seq t).map (Option.map (FitTables.mul k)) := by
  unfold fitTables
  cases splitTimes seq with
  | error e => rfl
  | ok x =>
    obtain ⟨obs, ts⟩ := x
    simp only [bind, Except.bind, pure, Except.pure, Except.map]
    split_ifs
    · rfl
    · simp only [Option.map_some, FitTables.mul, Nat.cast_mul, mul_div_assoc, visitsMatrix_mul, usesMatrix_mul]
      congr 3
      funext s
      exact visitsMatrix_mul _ _ _ _ _ s

theorem toOption_mul (x : Py ℝ) (k : ℝ) : (x.map (k * ·)).toOption.getD 0 = k * x.toOption.getD 0 := by
  cases x <;> simp [Except.map, Except.toOption]

theorem total_mul (k : ℕ) (t : FitTables n) : (t.mul k).total = t.total.mul k := by
  unfold FitTables.total FitTables.mul Tables.mul
  simp only [toOption_mul]

theorem visitsAt_mul (k : ℕ) (t : FitTables n) (s : ℕ) : (t.mul k).visitsAt s = (t.visitsAt s).map ((k : ℝ) * ·) := by
  unfold FitTables.visitsAt
  split_ifs <;> rfl

theorem usesAt_mul (k : ℕ) (t : FitTables n) (s ss : ℕ) : (t.mul k).usesAt s ss = (t.usesAt s ss).map ((k : ℝ) * ·) := by
  unfold FitTables.usesAt
  split_ifs <;> rfl

/-- The sums for a constant, multiplied. -/
noncomputable def pairMul (k : ℕ) (x : ℝ × ℝ) : ℝ × ℝ := ((k : ℝ) * x.1, (k : ℝ) * x.2)

theorem constWork_mul (M : PCTMC ℝ) (k : ℕ) (t : FitTables M.nb) (i : ℕ) (x : Expr ℝ) :
    M.constWork (t.mul k) i x = (M.constWork t i x).map (Option.map (pairMul k)) := by
  unfold constWork
  split_ifs
  · cases M.firstCell i with
    | none => rfl
    | some q =>
      dsimp only
      rw [visitsAt_mul, usesAt_mul]
      cases t.visitsAt q.1 with
      | error e => rfl
      | ok a => cases t.usesAt q.1 q.2 <;> rfl
  · rfl

theorem constWorks_mul (M : PCTMC ℝ) (k : ℕ) (t : FitTables M.nb) (constants : Bool) :
    M.constWorks (t.mul k) constants = (M.constWorks t constants).map (List.map (Option.map (pairMul k))) := by
  unfold constWorks
  split_ifs
  · rw [← mapM_map]
    exact congrArg (fun F => List.mapM F _) (funext (fun x => M.constWork_mul k t x.2 x.1))
  · rfl

theorem sums_mul (M : PCTMC ℝ) (k : ℕ) (t : FitTables M.nb) (q : ℕ × ℕ) : M.sums (t.mul k) q = M.sums t q := by
  unfold sums
  rw [visitsAt_mul, usesAt_mul]
  cases t.visitsAt q.1 with
  | error e => rfl
  | ok a => cases t.usesAt q.1 q.2 <;> rfl

theorem fitWork_mul (M : PCTMC ℝ) (Cs : Cats ℝ) (H : CTMC ℝ String M.nb) (constants : Bool) (k : ℕ) (t : FitTables M.nb) :
    M.fitWork Cs H constants (t.mul k) = (M.fitWork Cs H constants t).map (fun r => (r.1.map (Option.map (pairMul k)), r.2.mul k)) := by
  unfold fitWork
  rw [constWorks_mul, total_mul, work_mul]
  have hs : ∀ q, M.sums (t.mul k) q = M.sums t q := M.sums_mul k t
  have hs' : M.sums (t.mul k) = M.sums t := funext hs
  have hseen : ∀ q : ℕ × ℕ, (t.mul k).seenAt q.1 q.2 = t.seenAt q.1 q.2 := fun q => rfl
  simp only [hs', hseen]
  cases M.constWorks t constants with
  | error e => rfl
  | ok cs =>
    simp only [bind, Except.bind, Except.map]
    generalize ha : List.mapM (m := Py) _ (List.flatMap M.indexesOf Cs.cat1) = a
    generalize ha' : List.mapM (m := Py) _ (List.flatMap M.indexesOf Cs.cat1) = a'
    have haa : a = a' := by
      rw [← ha, ← ha']
      rfl
    rw [← haa]
    generalize List.mapM (m := Py) _ (List.flatMap M.indexesOf (Cs.cat2 ++ Cs.cat3)) = b
    cases a with
    | error e => rfl
    | ok a => cases b <;> rfl

theorem fitTrace_mul (M : PCTMC ℝ) (Cs : Cats ℝ) (H : CTMC ℝ String M.nb) (constants : Bool) (k : ℕ) (x : List (Sym String) × ℕ) :
    M.fitTrace Cs H constants (x.1, k * x.2) = (M.fitTrace Cs H constants x).map (Option.map (fun r => (r.1.map (Option.map (pairMul k)), r.2.mul k))) := by
  unfold fitTrace
  rw [fitTables_mul]
  cases fitTables H x.1 x.2 with
  | error e => rfl
  | ok r =>
    cases r with
    | none => rfl
    | some t =>
      simp only [bind, Except.bind, Except.map, Option.map_some, fitWork_mul]
      cases M.fitWork Cs H constants t <;> rfl

theorem newConst_mul {k : ℕ} (hk : 0 < k) (x : Expr ℝ) (c : List (Option (ℝ × ℝ))) : newConst x (c.map (Option.map (pairMul k))) = newConst x c := by
  have hk' : (k : ℝ) ≠ 0 := Nat.cast_ne_zero.2 hk.ne'
  have h1 : ∀ y : Option (ℝ × ℝ), ((Option.map (pairMul k) y).getD (0, 0)).1 = k * (y.getD (0, 0)).1 := by
    intro y
    cases y <;> simp [pairMul]
  have h2 : ∀ y : Option (ℝ × ℝ), ((Option.map (pairMul k) y).getD (0, 0)).2 = k * (y.getD (0, 0)).2 := by
    intro y
    cases y <;> simp [pairMul]
  unfold newConst
  simp only [List.map_map, Function.comp_def, h1, h2, List.sum_map_mul_left, mul_eq_zero, hk', false_or, mul_div_mul_left _ _ hk']

theorem newExprs_mul {k : ℕ} (hk : 0 < k) (M : PCTMC ℝ) (cs : List (List (Option (ℝ × ℝ)))) :
    M.newExprs (cs.map (List.map (Option.map (pairMul k)))) = M.newExprs cs := by
  unfold newExprs
  refine List.map_congr_left (fun x _ => ?_)
  refine if_congr Iff.rfl rfl ?_
  rw [← newConst_mul hk x.1 (cs.map (fun c => c.getD (x.2 - 1) none)), List.map_map, List.map_map]
  refine congrArg _ (List.map_congr_left (fun c _ => ?_))
  simp only [Function.comp_apply, List.getD_eq_getElem?_getD, List.getElem?_map]
  cases c[x.2 - 1]? <;> rfl

theorem fitStep_repeats (processes : ℕ) (Cs : Cats ℝ) (constants : Bool) {k : ℕ} (hk : 0 < k) {S T : TSet (Sym String)} (h : TSet.Repeats k S T) (M : PCTMC ℝ) :
    fitStep processes Cs constants T M = (fitStep processes Cs constants S M).map (fun r => (r.1, (k : ℝ) * r.2)) := by
  unfold fitStep
  cases M.hypothesis with
  | error e => rfl
  | ok H =>
    simp only [bind, Except.bind]
    have hm : (T.sequences.zip T.times).mapM (M.fitTrace Cs H constants) = ((S.sequences.zip S.times).mapM (M.fitTrace Cs H constants)).map
        (List.map (Option.map (fun r => (r.1.map (Option.map (pairMul k)), r.2.mul k)))) := by
      rw [← mapM_map, h.zip, List.mapM_map]
      exact congrArg (fun F => List.mapM F _) (funext (fun x => M.fitTrace_mul Cs H constants k x))
    rw [hm]
    cases (S.sequences.zip S.times).mapM (M.fitTrace Cs H constants) with
    | error e => rfl
    | ok res =>
      simp only [Except.map]
      rw [collect_map]
      cases collect .typeError processes res with
      | error e => rfl
      | ok temp =>
        have e1 : (temp.map (fun r => (r.1.map (Option.map (pairMul k)), r.2.mul k))).map (·.1) = (temp.map (·.1)).map (List.map (Option.map (pairMul k))) := by
          rw [List.map_map, List.map_map]
          rfl
        have e2 : (temp.map (fun r => (r.1.map (Option.map (pairMul k)), r.2.mul k))).map (·.2) = (temp.map (·.2)).map (Work.mul k) := by
          rw [List.map_map, List.map_map]
          rfl
        simp only [Except.map, e1, e2, M.newExprs_mul hk]
        exact update_mul _ Cs hk _

theorem fitStepUntimed_repeats (processes : ℕ) {k : ℕ} {S T : TSet String} (h : TSet.Repeats k S T) (M : PCTMC ℝ) :
    fitStepUntimed processes T M = (fitStepUntimed processes S M).map (fun r => (r.1, (k : ℝ) * r.2)) := by
  unfold fitStepUntimed
  rw [h.zip, List.mapM_map]
  simp only [Function.comp_def]
  cases M.hypothesis with
  | error e => rfl
  | ok H =>
    simp only [bind, Except.bind]
    generalize List.mapM (m := Py) _ (S.sequences.zip S.times) = a
    cases a with
    | error e => rfl
    | ok a =>
      dsimp only
      cases collect .typeError processes a <;> rfl

/-- C104, `fit` on a PCTMC. -/
theorem fit_repeats (processes : ℕ) {k : ℕ} (hk : 0 < k) {S T : Traces} (h : Traces.Repeats k S T) (M : PCTMC ℝ) (fixedArg : FixedArg) (constants : Bool)
    (epsilon : ℝ) (maxIt : ℕ) (lo hi : Option ℝ) (rounds : List (List ℝ)) :
    fit processes T M fixedArg constants (k * epsilon) maxIt lo hi rounds = fit processes S M fixedArg constants epsilon maxIt lo hi rounds := by
  unfold fit
  rcases prepare_repeats h with ⟨e, h1, h2⟩ | ⟨S', T', h1, h2, h3⟩
  · rw [h1, h2]
    rfl
  · rw [h1, h2]
    simp only [bind, Except.bind]
    cases M.randomInstantiation none lo hi rounds with
    | error e => rfl
    | ok r =>
      cases r with
      | none => rfl
      | some M' =>
        dsimp only
        cases fixedArg.resolve M' with
        | error e => rfl
        | ok fixed =>
          dsimp only
          cases M'.sortParameters fixed with
          | error e => rfl
          | ok Cs =>
            dsimp only
            cases S' with
            | timed S' =>
              cases T' with
              | timed T' =>
                dsimp only
                rw [fit_mul k (Nat.cast_pos.2 hk) _ _ (fitStep_repeats processes Cs constants hk h3) epsilon maxIt M']
                cases BW.fit (fitStep processes Cs constants S') epsilon maxIt M' <;> rfl
              | untimed T' => exact h3.elim
            | untimed S' =>
              cases T' with
              | timed T' => exact h3.elim
              | untimed T' =>
                dsimp only
                rw [fit_mul k (Nat.cast_pos.2 hk) _ _ (fitStepUntimed_repeats processes h3) epsilon maxIt M']
                cases BW.fit (fitStepUntimed processes S') epsilon maxIt M' <;> rfl

end PCTMC
end Jajapy
