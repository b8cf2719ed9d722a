import Verif.Lemmas.PrismPCTMC
import Verif.Lemmas.Likelihood
import Verif.Props.PrismEx
import Verif.Props.PFiles

/-!
C76: the Prism file of a PCTMC.
-/

namespace Jajapy.Prism

open Spec.Prism Files

set_option linter.unusedSectionVars false

variable {K : Type} [Field K] [LinearOrder K] (IO : FloatIO K) (EIO : ExprIO K) {n : ℕ}

/-- The text of the expression number `k`. -/
def exprText (M : PCTMC K) (k : ℕ) : List Char := replaceStars (EIO.str (M.exprs.getD k (.num 0))).toList

/-- The entries of a row of indexes. -/
def nz (m : Fin n → Fin n → ℕ) (i : Fin n) : List (ℕ × ℕ) := (List.ofFn (m i)).zipIdx.filter (fun p => p.1 ≠ 0)

theorem mem_nz (m : Fin n → Fin n → ℕ) (i : Fin n) (p : ℕ × ℕ) : p ∈ nz m i ↔ ∃ j : Fin n, p = (m i j, j.val) ∧ m i j ≠ 0 := by
  unfold nz
  rw [zipIdx_ofFn]
  simp only [List.mem_filter, List.mem_map, List.mem_finRange, true_and, decide_eq_true_eq]
  constructor
  · rintro ⟨⟨j, rfl⟩, h⟩
    exact ⟨j, rfl, h⟩
  · rintro ⟨j, rfl, h⟩
    exact ⟨⟨j, rfl⟩, h⟩

theorem nz_nodup (m : Fin n → Fin n → ℕ) (i : Fin n) : ((nz m i).map (·.2)).Nodup := by
  have h : ((List.ofFn (m i)).zipIdx.map (·.2)).Nodup := by
    rw [zipIdx_ofFn, List.map_map]
    exact (List.nodup_finRange n).map Fin.val_injective
  exact h.sublist (List.filter_sublist.map _)

/-- The commands of the file. -/
def pcmds (M : PCTMC K) (m : Fin n → Fin n → ℕ) : List Cmd :=
  ((List.finRange n).filter (fun i => decide (∃ j, m i j ≠ 0))).map (fun i => ([], i.val, (nz m i).map (fun p => (exprText EIO M p.1, p.2))))

theorem rowTextPCTMC_eq (M : PCTMC K) (m : Fin n → Fin n → ℕ) (hidx : ∀ i j, m i j < M.exprs.length) (i : Fin n) :
    rowTextPCTMC EIO M.exprs i.val (List.ofFn (m i)) = .ok (if ∃ j, m i j ≠ 0 then
      commandText " : ".toList [] i.val ((nz m i).map (fun p => (exprText EIO M p.1, p.2))) else []) := by
  unfold rowTextPCTMC
  have hany : (List.ofFn (m i)).any (fun x => decide (x ≠ 0)) = true ↔ ∃ j, m i j ≠ 0 := by
    rw [List.any_eq_true]
    constructor
    · rintro ⟨x, hx, h⟩
      obtain ⟨j, rfl⟩ := List.mem_ofFn.1 hx
      exact ⟨j, by simpa using h⟩
    · rintro ⟨j, h⟩
      exact ⟨m i j, List.mem_ofFn.2 ⟨j, rfl⟩, by simpa using h⟩
  by_cases h : ∃ j, m i j ≠ 0
  · rw [if_pos (hany.2 h), if_pos h, List.mapM_ok _ (fun p => (exprText EIO M p.1, p.2))]
    · rfl
    · intro p hp
      obtain ⟨j, rfl, _⟩ := (mem_nz m i p).1 hp
      have := hidx i j
      simp [exprText, this]
  · rw [if_neg (fun h' => h (hany.1 h')), if_neg h]
    rfl

theorem pcmds_text (M : PCTMC K) (m : Fin n → Fin n → ℕ) (hM : M.matrix = List.ofFn (fun i => List.ofFn (m i)))
    (hidx : ∀ i j, m i j < M.exprs.length) : ∃ c, M.matrix.zipIdx.mapM (fun p => rowTextPCTMC EIO M.exprs p.2 p.1) = .ok c ∧
      c.flatten = (pcmds EIO M m).flatMap (fun c => commandText " : ".toList c.1 c.2.1 c.2.2) := by
  rw [hM, zipIdx_ofFn]
  refine ⟨(List.finRange n).map (fun i => if ∃ j, m i j ≠ 0 then
      commandText " : ".toList [] i.val ((nz m i).map (fun p => (exprText EIO M p.1, p.2))) else []), ?_, ?_⟩
  · generalize List.finRange n = l
    induction l with
    | nil => rfl
    | cons i l ih =>
      rw [List.map_cons, List.mapM_cons, ih, rowTextPCTMC_eq EIO M m hidx]
      rfl
  · unfold pcmds
    generalize List.finRange n = l
    induction l with
    | nil => rfl
    | cons i l ih =>
      rw [List.map_cons, List.flatten_cons, ih, List.filter_cons]
      by_cases h : ∃ j, m i j ≠ 0
      · rw [if_pos h, if_pos (decide_eq_true h)]
        rfl
      · rw [if_neg h, if_neg (by simpa using h)]
        rfl

theorem constText_eq (values : List (String × K)) (p : String) : constText IO values p = constLine (p.toList, (values.lookup p).map IO.repr) := by
  unfold constText constLine
  cases values.lookup p <;> rfl

theorem pcmds_one (M : PCTMC K) (m : Fin n → Fin n → ℕ) (val : List Char → Expr K) (s : ℕ) :
    (((pcmds EIO M m).map (cmdOf val)).filter (fun c => decide (c.guard = s))).length ≤ 1 := by
  have hg : (((pcmds EIO M m).map (cmdOf val)).map Command.guard).Nodup := by
    unfold pcmds
    rw [List.map_map, List.map_map]
    exact ((List.nodup_finRange n).filter _).map (fun a b h => Fin.ext h)
  rw [← List.countP_eq_length_filter]
  have := List.nodup_iff_count_le_one.1 hg s
  rw [List.count_eq_countP, List.countP_map] at this
  refine le_trans (le_of_eq ?_) this
  congr 1

theorem pcmds_range (M : PCTMC K) (m : Fin n → Fin n → ℕ) (val : List Char → Expr K) : ∀ c ∈ (pcmds EIO M m).map (cmdOf val),
    c.guard < n ∧ (∀ u ∈ c.updates, u.2 < n) ∧ (c.updates.map (·.2)).Nodup := by
  intro c hc
  obtain ⟨c', hc', rfl⟩ := List.mem_map.1 hc
  obtain ⟨i, _, rfl⟩ := List.mem_map.1 hc'
  refine ⟨i.2, ?_, ?_⟩
  · intro u hu
    obtain ⟨u', hu', rfl⟩ := List.mem_map.1 hu
    obtain ⟨p, hp, rfl⟩ := List.mem_map.1 hu'
    obtain ⟨j, rfl, _⟩ := (mem_nz m i p).1 hp
    exact j.2
  · simp only [cmdOf, List.map_map]
    exact nz_nodup m i

theorem pcmds_nonempty (M : PCTMC K) (m : Fin n → Fin n → ℕ) (val : List Char → Expr K) : ∀ c ∈ (pcmds EIO M m).map (cmdOf val), c.updates ≠ [] := by
  intro c hc
  obtain ⟨c', hc', rfl⟩ := List.mem_map.1 hc
  obtain ⟨i, hi, rfl⟩ := List.mem_map.1 hc'
  obtain ⟨j, hj⟩ := of_decide_eq_true (List.mem_filter.1 hi).2
  have h : (m i j, j.val) ∈ nz m i := (mem_nz m i _).2 ⟨j, rfl, hj⟩
  simp only [cmdOf, ne_eq, List.map_eq_nil_iff]
  exact List.ne_nil_of_mem h

theorem pcmds_rates (M : PCTMC K) (m : Fin n → Fin n → ℕ) (hidx : ∀ i j, m i j < M.exprs.length) (val : List Char → Expr K)
    (hval : ∀ i j, m i j ≠ 0 → val (exprText EIO M (m i j)) = M.exprs.getD (m i j) (.num 0)) (s j : Fin n) (e : Expr K) :
    (∃ c ∈ ((pcmds EIO M m).map (cmdOf val)).filter (fun c => decide (c.guard = s.val)), (e, j.val) ∈ c.updates) ↔
      (if m s j = 0 then none else M.exprs[m s j]?) = some e := by
  have hget : ∀ i j, M.exprs[m i j]? = some (M.exprs.getD (m i j) (.num 0)) := by
    intro i j
    have := hidx i j
    simp [this]
  constructor
  · rintro ⟨c, hc, hu⟩
    obtain ⟨hc, hg⟩ := List.mem_filter.1 hc
    obtain ⟨c', hc', rfl⟩ := List.mem_map.1 hc
    obtain ⟨i, _, rfl⟩ := List.mem_map.1 hc'
    obtain rfl : i = s := Fin.ext (of_decide_eq_true hg)
    obtain ⟨u', hu', h⟩ := List.mem_map.1 hu
    obtain ⟨p, hp, rfl⟩ := List.mem_map.1 hu'
    obtain ⟨j', rfl, hj'⟩ := (mem_nz m i p).1 hp
    simp only [Prod.mk.injEq] at h
    obtain ⟨h1, h2⟩ := h
    obtain rfl : j' = j := Fin.ext h2
    rw [if_neg hj', ← h1, hval i j' hj', hget]
  · intro h
    split_ifs at h with hj
    rw [hget, ← hval s j hj, Option.some.injEq] at h
    have h1 : s ∈ (List.finRange n).filter (fun i => decide (∃ j, m i j ≠ 0)) := List.mem_filter.2 ⟨List.mem_finRange s, decide_eq_true ⟨j, hj⟩⟩
    have h2 : (([], s.val, (nz m s).map (fun p => (exprText EIO M p.1, p.2))) : Cmd) ∈ pcmds EIO M m := by
      unfold pcmds
      exact List.mem_map_of_mem h1
    have h3 := List.mem_map_of_mem (f := cmdOf val) h2
    have h4 : (m s j, j.val) ∈ nz m s := (mem_nz m s _).2 ⟨j, rfl, hj⟩
    refine ⟨_, List.mem_filter.2 ⟨h3, decide_eq_true rfl⟩, ?_⟩
    show (e, j.val) ∈ ((nz m s).map (fun p => (exprText EIO M p.1, p.2))).map (fun u => (val u.1, u.2))
    rw [List.map_map, List.mem_map]
    exact ⟨_, h4, by rw [← h]; rfl⟩

theorem replaceStars_powers {s t : List Char} (h : Powers s t) : replaceStars s = t := by
  induction h with
  | nil => rfl
  | char hc _ ih =>
    rw [replaceStars, ih]
    intro s h _
    exact hc h
  | times hc _ ih =>
    rw [replaceStars, ih]
    intro s _ h
    exact hc (List.cons.inj h).1
  | power _ _ ih => rw [replaceStars, ih]

/-- C76, PCTMC: if some state has the initial probability 1, the names are Prism names, those of the parameters are distinct and not `s`, and the texts of the
rates, with `^` in place of `**`, are Prism expressions, then `savePrism` writes a Prism program, and this program is the model: its parameters with their
values, its states, the rates of its transitions and its labels. (Missing: synchronous transitions, see `savePCTMC_sync`. The variable has one value too many, see
`savePCTMC_range`.) -/
theorem savePCTMC_describes_partial {expr : List Tok → Option (Expr K)} (M : PCTMC K) {name : List Char} (hname : IsName name)
    {m : Fin n → Fin n → ℕ} (hM : M.matrix = List.ofFn (fun i => List.ofFn (m i))) (hidx : ∀ i j, m i j < M.exprs.length)
    {label : Fin n → String} (hlab : M.labelling = List.ofFn label) (hl : ∀ s, label s ≠ "init" → IsName (label s).toList)
    {init : Fin n → K} (hinit : M.initialState = List.ofFn init) (hi : ∃ s, init s = 1)
    (hp : ∀ p ∈ M.names, IsName p.toList) (hpn : M.names.Nodup) (hps : "s" ∉ M.names)
    (hv : ∀ p ∈ M.names, ∀ v, M.values.lookup p = some v → IO.dom v ∧ Decimal (IO.repr v))
    (he : ∀ i j, m i j ≠ 0 → ∀ e, M.exprs[m i j]? = some e → ∃ t, Powers (EIO.str e).toList t ∧ TextOf expr t e) :
    ∃ text P start, savePCTMC IO EIO M name = .ok text ∧ readPrism IO.parse expr text = some P ∧ P.name = name ∧ init start = 1 ∧
      DescribesP P (M.names.map (fun p => (p.toList, M.values.lookup p))) start (fun s j => if m s j = 0 then none else M.exprs[m s j]?) label := by
  obtain ⟨i, hidx'⟩ := initialIndex_ok init hi
  obtain ⟨s, rfl, hs⟩ := initialIndex_eq init hidx'
  obtain ⟨c, hc1, hc2⟩ := pcmds_text EIO M m hM hidx
  have hl' : ∀ l ∈ M.labelling, l ≠ "init" → IsName l.toList := by
    intro l h
    rw [hlab] at h
    obtain ⟨s, rfl⟩ := List.mem_ofFn.1 h
    exact hl s
  let val : List Char → Expr K := fun t => (expr (words t)).getD (.num 0)
  let value : List Char → K := fun t => (IO.parse t).getD 0
  let consts : List CText := M.names.map (fun p => (p.toList, (M.values.lookup p).map IO.repr))
  have htext : ∀ i j, m i j ≠ 0 → TextOf expr (exprText EIO M (m i j)) (M.exprs.getD (m i j) (.num 0)) := by
    intro i j h
    have := hidx i j
    unfold exprText
    obtain ⟨t, h1, h2⟩ := he i j h (M.exprs.getD (m i j) (.num 0)) (by simp [this])
    rw [replaceStars_powers h1]
    exact h2
  have hval : ∀ i j, m i j ≠ 0 → val (exprText EIO M (m i j)) = M.exprs.getD (m i j) (.num 0) := by
    intro i j h
    show (expr (words (exprText EIO M (m i j)))).getD (.num 0) = _
    rw [(htext i j h).value]
    rfl
  have hcmd : ∀ c ∈ pcmds EIO M m, CmdOK expr words val c := by
    intro c hc
    obtain ⟨i, hi, rfl⟩ := List.mem_map.1 hc
    obtain ⟨j, hj⟩ := of_decide_eq_true (List.mem_filter.1 hi).2
    refine ⟨Or.inl rfl, ?_, ?_⟩
    · intro h
      have : (m i j, j.val) ∈ nz m i := (mem_nz m i _).2 ⟨j, rfl, hj⟩
      rw [List.map_eq_nil_iff.1 h] at this
      cases this
    · intro u hu
      obtain ⟨p, hp, rfl⟩ := List.mem_map.1 hu
      obtain ⟨j, rfl, hj⟩ := (mem_nz m i p).1 hp
      have ht := htext i j hj
      refine ⟨ht.words, ?_, ht.colon⟩
      show expr (words (exprText EIO M (m i j))) = some ((expr (words (exprText EIO M (m i j)))).getD (.num 0))
      rw [ht.value]
      rfl
  have hconst : ∀ c ∈ consts, ConstOK IO.parse value c := by
    intro c hc
    obtain ⟨p, hpm, rfl⟩ := List.mem_map.1 hc
    refine ⟨hp p hpm, ?_⟩
    intro v hv'
    obtain ⟨x, hx, rfl⟩ := Option.map_eq_some_iff.1 hv'
    obtain ⟨h1, h2⟩ := hv p hpm x hx
    refine ⟨h2, ?_⟩
    show IO.parse (IO.repr x) = some ((IO.parse (IO.repr x)).getD 0)
    rw [IO.parse_repr x h1]
    rfl
  have hnd : (['s'] :: consts.map (·.1)).Nodup := by
    rw [List.map_map, List.nodup_cons]
    constructor
    · intro h
      obtain ⟨p, h1, h2⟩ := List.mem_map.1 h
      exact hps (by
        have : p = "s" := String.toList_inj.1 h2
        rwa [← this])
    · exact hpn.map (fun a b h => String.toList_inj.1 h)
  have hread := read_ptext (real := IO.parse) consts hconst hnd hname M.matrix.length s.val (Or.inr rfl) _ hcmd M.labelling hl'
  have hlen : M.matrix.length = n := by rw [hM]; simp
  refine ⟨_, _, s, ?_, hread, rfl, hs, ⟨rfl, ?_, rfl, ?_, rfl, ?_, ?_, ?_, ?_, ?_, labelTable_distinct _, pcmds_nonempty EIO M m val⟩⟩
  · unfold savePCTMC
    rw [hinit, hidx']
    show (M.matrix.zipIdx.mapM (fun p => rowTextPCTMC EIO M.exprs p.2 p.1) >>= _) = _
    rw [hc1]
    show Except.ok _ = _
    rw [hc2]
    have : M.names.flatMap (constText IO M.values) = consts.flatMap constLine := by
      simp only [consts, List.flatMap_map]
      apply List.flatMap_congr
      intro p _
      exact constText_eq IO _ p
    rw [this]
    rfl
  · simp only [consts, List.map_map]
    apply List.map_congr_left
    intro p hpm
    simp only [Function.comp, constOf, Prod.mk.injEq, true_and]
    cases h : M.values.lookup p with
    | none => rfl
    | some v =>
      show some ((IO.parse (IO.repr v)).getD 0) = _
      rw [IO.parse_repr v (hv p hpm v h).1]
      rfl
  · show n ≤ M.matrix.length + 1
    omega
  · intro c hc
    obtain ⟨c', hc', rfl⟩ := List.mem_map.1 hc
    obtain ⟨i, _, rfl⟩ := List.mem_map.1 hc'
    rfl
  · exact pcmds_one EIO M m val
  · exact pcmds_range EIO M m val
  · exact pcmds_rates EIO M m hidx val hval
  · intro s' l
    unfold holds
    dsimp only
    rw [labelTable_holds, hlab]
    constructor
    · rintro ⟨a, ha, h1, h2⟩
      rw [List.getElem?_ofFn] at ha
      split_ifs at ha with h
      · simp only [Option.some.injEq] at ha
        exact ⟨h, by rw [ha]; exact ⟨h1, h2⟩⟩
    · rintro ⟨h, h1, h2⟩
      exact ⟨label ⟨s', h⟩, by rw [List.getElem?_ofFn, dif_pos h], h1, h2⟩

/-- C76, violation: the synchronous transitions are not written. -/
theorem savePCTMC_sync (M : PCTMC K) (sync : List (ℕ × String × ℕ × Expr K)) (name : List Char) :
    savePCTMC IO EIO { M with sync := sync } name = savePCTMC IO EIO M name := rfl

/-! ### An example -/

/-- A printer for three expressions. -/
def polyIO : ExprIO ℚ where
  dom e := e = .num 0 ∨ e = .sym "q" ∨ e = .mul (.num 2) (.pow (.sym "p") 3)
  str e := if e = .num 0 then "0.0" else if e = .sym "q" then "q" else "2*p**3"
  parse s := if s = "0.0" then some (.num 0) else if s = "q" then some (.sym "q") else some (.mul (.num 2) (.pow (.sym "p") 3))
  parse_str e h := by rcases h with rfl | rfl | rfl <;> decide +kernel

/-- A reader of Prism expressions, for two of them. -/
def polyExpr : List Tok → Option (Expr ℚ)
  | [.id q] => some (.sym (String.ofList q))
  | [.int a, .sym ['*'], .id p, .sym ['^'], .int k] => some (.mul (.num (natOf a : ℚ)) (.pow (.sym (String.ofList p)) (natOf k)))
  | _ => none

theorem textOf_q : TextOf polyExpr "q".toList (.sym "q" : Expr ℚ) := by
  have hw : words "q".toList = [.id ['q']] := by decide +kernel
  refine ⟨?_, by rw [hw]; decide, by rw [hw]; rfl⟩
  intro c s hc
  rw [hw]
  exact lex_ident (c := 'q') (t := []) (by decide) (by decide) (endId_cons (by rcases hc with rfl | rfl <;> decide) s)

theorem textOf_p : TextOf polyExpr "2*p^3".toList (.mul (.num 2) (.pow (.sym "p") 3) : Expr ℚ) := by
  have hw : words "2*p^3".toList = [.int ['2'], .sym ['*'], .id ['p'], .sym ['^'], .int ['3']] := by decide +kernel
  refine ⟨?_, by rw [hw]; decide, by rw [hw]; decide +kernel⟩
  intro c s hc
  rw [hw]
  have e : "2*p^3".toList ++ c :: s = ['2'] ++ '*' :: (['p'] ++ '^' :: (['3'] ++ c :: s)) := rfl
  rw [e, lex_digits (by decide) (by decide) (endNum_cons (by decide) _), lex_sym (by decide)]
  have e2 : ['p'] ++ '^' :: (['3'] ++ c :: s) = 'p' :: ([] ++ '^' :: (['3'] ++ c :: s)) := rfl
  rw [e2, lex_ident (by decide) (by decide) (endId_cons (by decide) _), lex_sym (by decide),
    lex_digits (by decide) (by decide) (endNum_cons (by rcases hc with rfl | rfl <;> decide) _)]
  cases lex (c :: s) <;> rfl

/-- Two states, two parameters, one of them with a value. -/
def polyPCTMC : PCTMC ℚ :=
  ⟨[[0, 1], [2, 0]], ["init", "a"], [.num 0, .mul (.num 2) (.pow (.sym "p") 3), .sym "q"], [("p", 1/2)], [[(0, 1)], [(1, 0)]], ["p", "q"], [1, 0], []⟩

/-- Hypotheses of `savePCTMC_describes_partial`. -/
example : ∃ text P start, savePCTMC decIO polyIO polyPCTMC "m".toList = .ok text ∧ readPrism decIO.parse polyExpr text = some P ∧ P.name = "m".toList ∧
    (if start = (0 : Fin 2) then (1 : ℚ) else 0) = 1 ∧
    DescribesP P [(['p'], some (1/2)), (['q'], none)] start (fun s j => if (if s = 0 then (if j = 0 then 0 else 1) else if j = 0 then 2 else 0 : ℕ) = 0 then none else
      polyPCTMC.exprs[(if s = 0 then (if j = 0 then 0 else 1) else if j = 0 then 2 else 0 : ℕ)]?) (fun s => if s = 0 then "init" else "a") := by
  refine savePCTMC_describes_partial decIO polyIO polyPCTMC (name := "m".toList) (by decide) (m := fun s j => if s = 0 then (if j = 0 then 0 else 1) else if j = 0 then 2 else 0)
    (by decide) (by decide) (label := fun s => if s = 0 then "init" else "a") (by decide) (by decide +kernel) (init := fun s => if s = 0 then 1 else 0)
    (by decide +kernel) ⟨0, rfl⟩ (by decide +kernel) (by decide) (by decide) ?_ ?_
  · intro p hp v hv
    have : v = 1/2 := by
      rcases List.mem_cons.1 hp with rfl | hp
      · exact (Option.some.inj hv).symm
      · rcases List.mem_cons.1 hp with rfl | hp
        · cases hv
        · cases hp
    subst this
    exact ⟨⟨1, by decide +kernel⟩, dec_decimal _ ⟨1, by decide +kernel⟩ (by norm_num)⟩
  · intro i j hij e he
    have hh : e = .sym "q" ∨ e = .mul (.num 2) (.pow (.sym "p") 3) := by
      revert hij he
      fin_cases i <;> fin_cases j
      · intro h; exact absurd rfl h
      · intro _ h; exact Or.inr (Option.some.inj h).symm
      · intro _ h; exact Or.inl (Option.some.inj h).symm
      · intro h; exact absurd rfl h
    rcases hh with rfl | rfl
    · exact ⟨_, .char (by decide) .nil, textOf_q⟩
    · exact ⟨_, .char (by decide) (.times (by decide) (.char (by decide) (.power (by decide) (.char (by decide) .nil)))), textOf_p⟩

/-- The file of the example. -/
theorem polyPCTMC_text : (savePCTMC decIO polyIO polyPCTMC "m".toList).map String.ofList = .ok ("ctmc\n\nconst double p = 0.5;\nconst double q;\n\nmodule m\n" ++
    "\ts: [0..2] init 0;\n\n\t[] s=0 -> 2*p^3 : (s'=1);\n\t[] s=1 -> q : (s'=0);\nendmodule\n\nlabel \"a\" = s=1 ;\n") := by decide +kernel

/-- C76, violation: the variable has a value that is not a state (the CTMC above has two states). -/
theorem savePCTMC_range : ∃ text P, savePCTMC decIO polyIO polyPCTMC "m".toList = .ok text ∧ readPrism decIO.parse polyExpr text = some P ∧
    P.hi + 1 = polyPCTMC.matrix.length + 1 := by
  have h : (readPrism decIO.parse polyExpr ((savePCTMC decIO polyIO polyPCTMC "m".toList).toOption.getD [])).map (·.hi) = some 2 := by decide +kernel
  have ht : ∃ text, savePCTMC decIO polyIO polyPCTMC "m".toList = .ok text := ⟨_, rfl⟩
  obtain ⟨text, ht⟩ := ht
  rw [ht] at h
  obtain ⟨P, hP, h⟩ := Option.map_eq_some_iff.1 h
  exact ⟨text, P, ht, hP, by rw [h]; rfl⟩

/-- C76, violation: a parameter named `s`, like the variable of the module. -/
theorem savePCTMC_s : ∃ text, savePCTMC decIO symIO ⟨[[0, 1], [0, 0]], ["init", "a"], [.num 0, .sym "s"], [], [[(0, 1)]], ["s"], [1, 0], []⟩ "m".toList = .ok text ∧
    readPrism decIO.parse polyExpr text = none :=
  ⟨_, rfl, by decide +kernel⟩

end Jajapy.Prism
