import Verif.Lemmas.PrintPCTMC
import Verif.Props.PrintHMM
import Verif.Props.PrismPCTMC

/-!
C101: what `print(model)` shows of a parametric CTMC.
-/

namespace Jajapy
namespace Print

open Files Spec PCTMC

variable {K : Type} [Field K] [LinearOrder K] (IO : RoundIO K) (SIO : SymIO K) {M M' : PCTMC K}

/-- A list read through its positions. -/
theorem getD_sum (l : List K) {n : ℕ} (h : l.length = n) : ∑ s : Fin n, l.getD s 0 = l.sum := by
  subst h
  conv_rhs => rw [← List.ofFn_getElem (xs := l), List.sum_ofFn]
  refine Finset.sum_congr rfl fun s _ => ?_
  rw [List.getD_eq_getElem?_getD, List.getElem?_eq_getElem s.2]
  rfl

theorem getD_nonneg {l : List K} (h : ∀ x ∈ l, 0 ≤ x) (i : ℕ) : 0 ≤ l.getD i 0 := by
  rw [List.getD_eq_getElem?_getD]
  cases e : l[i]? with
  | none => exact le_rfl
  | some x => exact h x (List.mem_of_getElem? e)

/-- C101 (PCTMCs). `str` returns a text. Its lines are: the name; one line per parameter that has a value, in the order of the
dictionary, with the value rounded to five digits; an empty line; the initial distribution; then the sections of the states,
whose headers are those of the states with their labels. -/
theorem pctmc_print_head [IsStrictOrderedRing K] (hM : M.WF) {name : List Char} (h : Printable IO SIO M name)
    (hp : ∀ x ∈ M.initialState, 0 ≤ x) (hs : M.initialState.sum = 1) :
    ∃ text line rest, printPCTMC IO SIO M name = .ok text ∧
      textLines text = ("Name: ".toList ++ name) :: M.values.map (fun p => valueLine p.1 (IO.repr (IO.round 5 p.2))) ++ [] :: line :: rest ∧
      InitialShown IO line (fun i : Fin M.nb => M.initialState.getD i 0) ∧
      ∀ k l, headerLine k l ∈ textLines text ↔ k < M.nb ∧ M.labelling[k]? = some l := by
  have hB := blockPCTMC IO SIO h hM (valOf_extends M.values)
  have hpre := pre_ok IO SIO h hM
  refine ⟨_, initialLine IO (fun i : Fin M.nb => M.initialState.getD i 0),
    (List.finRange M.nb).flatMap (fun i : Fin M.nb => headerLine i (M.labelling.getD i "") :: pctmcLines IO SIO M (valOf M.values) i ++ [[]]) ++ [[], []],
    printPCTMC_eq IO SIO hM (valOf_extends M.values) name, ?_,
    initialShown IO (fun s => getD_nonneg hp s) (by rw [← hs]; exact getD_sum M.initialState hM.init), fun k l => ?_⟩
  · rw [textLines_blocks (fun l hl => (hpre l hl).1) hB]
    unfold preLines
    simp only [List.cons_append, List.append_assoc, List.nil_append]
  · rw [head_blocks hpre hB rfl]
    have hlab : ∀ i (hi : i < M.nb), M.labelling[i]? = some (M.labelling.getD i "") := by
      intro i hi
      have : i < M.labelling.length := by rw [hM.labels]; exact hi
      rw [List.getD_eq_getElem?_getD, List.getElem?_eq_getElem this]
      rfl
    constructor
    · rintro ⟨i, e⟩
      obtain ⟨rfl, rfl⟩ := headerLine_inj e
      exact ⟨i.2, hlab i i.2⟩
    · rintro ⟨hk, e⟩
      rw [hlab k hk] at e
      exact ⟨⟨k, hk⟩, by rw [← Option.some.inj e]⟩

open Classical in
/-- C101 (PCTMCs). The section of a state has the expected waiting time if all the parameters of its transitions have values
(rounded to five digits, `inf` for an absorbing state), then one line per transition, with its expression, followed by its
value if the expression has parameters and all of them have values. -/
theorem pctmc_print_section (hM : M.WF) {name text : List Char} (h : Printable IO SIO M name) (ht : printPCTMC IO SIO M name = .ok text)
    (ρ : String → K) (hρ : Extends ρ M.values) {i : ℕ} (hi : i < M.nb) {l : String} (hl : M.labelling[i]? = some l) :
    sectionOf text (headerLine i l) =
      (if ∀ j < M.nb, ∀ p, (M.rateExpr i j).Occurs p → Known M.values p then
        ["Exepected waiting time: ".toList ++
          if ∑ j : Fin M.nb, (M.rateExpr i j).den ρ = 0 then "inf".toList
          else IO.repr (IO.round 5 (1 / ∑ j : Fin M.nb, (M.rateExpr i j).den ρ))]
      else []) ++
      ((List.finRange M.nb).filter (fun j : Fin M.nb => decide ((M.matrix.getD i []).getD j 0 ≠ 0))).map (fun j : Fin M.nb =>
        arrowLine i j ("lambda = ".toList ++ ((SIO.str (M.rateExpr i j)).toList ++
          if (∃ p, (M.rateExpr i j).Occurs p) ∧ ∀ p, (M.rateExpr i j).Occurs p → Known M.values p then
            " (=".toList ++ SIO.number ((M.rateExpr i j).den ρ) ++ ")".toList else []))) := by
  rw [printPCTMC_eq IO SIO hM hρ] at ht
  rw [← Except.ok.inj ht]
  have := section_blocks (pre_ok IO SIO h hM) (blockPCTMC IO SIO h hM hρ) ⟨i, hi⟩
  simp only [List.getD_eq_getElem?_getD, hl, Option.getD_some] at this
  simp only [List.getD_eq_getElem?_getD]
  rw [this]
  unfold pctmcLines waitLines rateText
  simp only [List.getD_eq_getElem?_getD]

theorem valueLine_inj {p q : String} {x y : List Char} (hx : ' ' ∉ x) (hy : ' ' ∉ y) (h : valueLine p x = valueLine q y) : p = q ∧ x = y := by
  have e : ∀ (p : String) (x : List Char), valueLine p x = (p.toList ++ [' ', '=']) ++ ' ' :: x := by
    intro p x; simp [valueLine]
  rw [e, e] at h
  obtain ⟨h1, h2⟩ := cut_right hx hy h
  exact ⟨String.toList_inj.1 (List.append_cancel_right h1), h2⟩

/-- The expression can be read in the line of a transition. -/
theorem rateText_inj {ρ ρ' : String → K} {i j k l : ℕ} (h : SIO.dom (M.rateExpr i j)) (h' : SIO.dom (M'.rateExpr k l))
    (e : rateText SIO M ρ i j = rateText SIO M' ρ' k l) : M.rateExpr i j = M'.rateExpr k l := by
  have key : ∀ {a b : List Char} {p q : Prop} [Decidable p] [Decidable q] {x y : List Char}, '=' ∉ a → '=' ∉ b →
      (a ++ if p then " (=".toList ++ x ++ ")".toList else []) = (b ++ if q then " (=".toList ++ y ++ ")".toList else []) → a = b := by
    intro a b p q _ _ x y ha hb hab
    split_ifs at hab
    · have e1 : ∀ (a x : List Char), a ++ (" (=".toList ++ x ++ ")".toList) = (a ++ " (".toList) ++ '=' :: (x ++ ")".toList) := by simp
      rw [e1, e1] at hab
      exact List.append_cancel_right (cut_left (notMem_append ha (by decide)) (notMem_append hb (by decide)) hab).1
    · rw [List.append_nil] at hab
      exact absurd (hab ▸ by simp) hb
    · rw [List.append_nil] at hab
      exact absurd (hab ▸ by simp) ha
    · simpa using hab
  classical
  unfold rateText at e
  have := key (SIO.str_chars _ h).2 (SIO.str_chars _ h').2 e
  have e2 := SIO.parse_str _ h
  rw [String.toList_inj.1 this, SIO.parse_str _ h'] at e2
  exact (Option.some.inj e2).symm

theorem lines_same {A B : List (List Char)} {R S : List (List Char)} (hA : ∀ l ∈ A, l ≠ []) (hB : ∀ l ∈ B, l ≠ [])
    (h : A ++ [] :: R = B ++ [] :: S) : A = B ∧ R = S :=
  cut_left (fun hc => hA _ hc rfl) (fun hc => hB _ hc rfl) h

/-- C101 (PCTMCs). Two models with the same text have the same name, the same parameters with values, whose values differ by at
most 0.00002, the same number of states and the same labels, initial distributions that differ by at most 0.002, and the same
transitions, with the same expressions: the symbolic model can be read in the text. -/
theorem pctmc_print_determines [IsStrictOrderedRing K] (hM : M.WF) (hM' : M'.WF) {name name' text : List Char}
    (h : Printable IO SIO M name) (h' : Printable IO SIO M' name')
    (hp : ∀ x ∈ M.initialState, 0 ≤ x) (hs : M.initialState.sum = 1) (hp' : ∀ x ∈ M'.initialState, 0 ≤ x) (hs' : M'.initialState.sum = 1)
    (ht : printPCTMC IO SIO M name = .ok text) (ht' : printPCTMC IO SIO M' name' = .ok text) :
    name = name' ∧ List.Forall₂ (fun q q' => q.1 = q'.1 ∧ |q.2 - q'.2| ≤ 1 / 50000) M.values M'.values ∧
    M.nb = M'.nb ∧ M.labelling = M'.labelling ∧ (∀ i, |M.initialState.getD i 0 - M'.initialState.getD i 0| ≤ 1 / 500) ∧
    ∀ i < M.nb, ∀ j < M.nb, ((M.matrix.getD i []).getD j 0 = 0 ↔ (M'.matrix.getD i []).getD j 0 = 0) ∧
      ((M.matrix.getD i []).getD j 0 ≠ 0 → M.rateExpr i j = M'.rateExpr i j) := by
  have hsplit := ht
  have hsplit' := ht'
  rw [printPCTMC_eq IO SIO hM (valOf_extends M.values)] at hsplit
  rw [printPCTMC_eq IO SIO hM' (valOf_extends M'.values)] at hsplit'
  have L := textLines_blocks (fun l hl => (pre_ok IO SIO h hM l hl).1) (blockPCTMC IO SIO h hM (valOf_extends M.values))
  have L' := textLines_blocks (fun l hl => (pre_ok IO SIO h' hM' l hl).1) (blockPCTMC IO SIO h' hM' (valOf_extends M'.values))
  rw [Except.ok.inj hsplit] at L
  rw [Except.ok.inj hsplit', L] at L'
  unfold preLines at L'
  simp only [List.cons_append, List.append_assoc, List.nil_append] at L'
  obtain ⟨e1, e2⟩ := List.cons_eq_cons.1 L'
  obtain ⟨e3, e4⟩ := lines_same
    (fun l hl => by obtain ⟨p, hp, rfl⟩ := List.mem_map.1 hl; simp [valueLine])
    (fun l hl => by obtain ⟨p, hp, rfl⟩ := List.mem_map.1 hl; simp [valueLine]) e2
  obtain ⟨e5, _⟩ := List.cons_eq_cons.1 e4
  obtain ⟨t1, l1, r1, a1, a2, a3, a4⟩ := pctmc_print_head IO SIO hM h hp hs
  obtain ⟨t2, l2, r2, b1, b2, b3, b4⟩ := pctmc_print_head IO SIO hM' h' hp' hs'
  rw [ht] at a1
  rw [ht'] at b1
  obtain rfl := Except.ok.inj a1
  obtain rfl := Except.ok.inj b1
  have hheads : ∀ k l, (k < M.nb ∧ M.labelling[k]? = some l) ↔ (k < M'.nb ∧ M'.labelling[k]? = some l) :=
    fun k l => (a4 k l).symm.trans (b4 k l)
  have hlen := hM.labels
  have hlen' := hM'.labels
  have hlab : M.labelling = M'.labelling := by
    apply List.ext_getElem?
    intro k
    apply Option.ext
    intro l
    constructor
    · intro hk
      exact ((hheads k l).1 ⟨by have := (List.getElem?_eq_some_iff.1 hk).1; rw [hlen] at this; exact this, hk⟩).2
    · intro hk
      exact ((hheads k l).2 ⟨by have := (List.getElem?_eq_some_iff.1 hk).1; rw [hlen'] at this; exact this, hk⟩).2
  have hnb : M.nb = M'.nb := by
    have := congrArg List.length hlab
    rw [hlen, hlen'] at this
    exact this
  refine ⟨List.append_cancel_left e1, ?_, hnb, hlab, fun i => ?_, fun i hi j hj => ?_⟩
  · have hv := h.values
    have hv' := h'.values
    clear * - e3 hv hv'
    generalize M.values = A at *
    generalize M'.values = B at *
    induction A generalizing B with
    | nil =>
      cases B with
      | nil => exact .nil
      | cons b B => cases e3
    | cons a A ih =>
      cases B with
      | nil => cases e3
      | cons b B =>
        rw [List.map_cons, List.map_cons] at e3
        obtain ⟨e4, e5⟩ := List.cons_eq_cons.1 e3
        have ha := hv a (by simp)
        have hb := hv' b (by simp)
        obtain ⟨e6, e7⟩ := valueLine_inj (repr_notMem IO (by decide) (IO.round_dom 5 _ ha)) (repr_notMem IO (by decide) (IO.round_dom 5 _ hb)) e4
        refine .cons ⟨e6, ?_⟩ (ih (fun p h => hv p (List.mem_cons_of_mem _ h)) B (fun p h => hv' p (List.mem_cons_of_mem _ h)) e5)
        have := round_close IO ha hb (repr_inj IO (IO.round_dom 5 _ ha) (IO.round_dom 5 _ hb) e7)
        norm_num at this ⊢
        exact this
  · have gen : ∀ {n n' : ℕ} (f g : ℕ → K), n = n' → (∀ i : Fin n, IO.dom (f i)) → (∀ i : Fin n', IO.dom (g i)) →
        (∀ s, 0 ≤ f s) → (∀ s, 0 ≤ g s) → ∑ s : Fin n, f s = 1 → ∑ s : Fin n', g s = 1 →
        initialLine IO (fun i : Fin n => f i) = initialLine IO (fun i : Fin n' => g i) → ∀ i < n, |f i - g i| ≤ 1 / 500 := by
      intro n n' f g e hf hg pf pg sf sg hl i hi
      subst e
      exact initial_close IO hf hg (fun s => pf s) sf (fun s => pg s) sg hl ⟨i, hi⟩
    by_cases hi : i < M.nb
    · exact gen (fun i => M.initialState.getD i 0) (fun i => M'.initialState.getD i 0) hnb (h.initDom IO SIO hM) (h'.initDom IO SIO hM')
        (getD_nonneg hp) (getD_nonneg hp') (by rw [← hs]; exact getD_sum _ hM.init) (by rw [← hs']; exact getD_sum _ hM'.init) e5 i hi
    · have z : ∀ {N : PCTMC K}, N.WF → N.nb = M.nb → N.initialState.getD i 0 = 0 := by
        intro N hN e
        rw [List.getD_eq_getElem?_getD, List.getElem?_eq_none (by rw [hN.init]; show N.nb ≤ i; rw [e]; exact not_lt.1 hi)]
        rfl
      rw [z hM rfl, z hM' hnb.symm]
      norm_num
  · have hi' : i < M'.nb := hnb ▸ hi
    have s1 := section_blocks (pre_ok IO SIO h hM) (blockPCTMC IO SIO h hM (valOf_extends M.values)) ⟨i, hi⟩
    have s2 := section_blocks (pre_ok IO SIO h' hM') (blockPCTMC IO SIO h' hM' (valOf_extends M'.values)) ⟨i, hi'⟩
    rw [Except.ok.inj hsplit] at s1
    rw [Except.ok.inj hsplit', ← hlab, s1] at s2
    have one : ∀ {N N' : PCTMC K} (hN : i < N.nb) (hN' : i < N'.nb), N.WF → N'.WF → (∀ e ∈ N.exprs, SIO.dom e) → (∀ e ∈ N'.exprs, SIO.dom e) → N.nb = N'.nb →
        j < N.nb → pctmcLines IO SIO N (valOf N.values) ⟨i, hN⟩ = pctmcLines IO SIO N' (valOf N'.values) ⟨i, hN'⟩ →
        (N.matrix.getD i []).getD j 0 ≠ 0 → (N'.matrix.getD i []).getD j 0 ≠ 0 ∧ N.rateExpr i j = N'.rateExpr i j := by
      intro N N' hN hN' wN wN' dN dN' enb hj e hc
      have hmem : arrowLine i j ("lambda = ".toList ++ rateText SIO N (valOf N.values) i j) ∈ pctmcLines IO SIO N (valOf N.values) ⟨i, hN⟩ := by
        unfold pctmcLines
        refine List.mem_append_right _ (List.mem_map.2 ⟨⟨j, hj⟩, ?_, rfl⟩)
        rw [List.mem_filter]
        exact ⟨List.mem_finRange _, decide_eq_true hc⟩
      rw [e] at hmem
      unfold pctmcLines at hmem
      rcases List.mem_append.1 hmem with hmem | hmem
      · exfalso
        unfold waitLines at hmem
        split_ifs at hmem
        · have := List.mem_singleton.1 hmem
          simp [arrowLine] at this
        · have := List.mem_singleton.1 hmem
          simp [arrowLine] at this
        · cases hmem
      · obtain ⟨k, hk, ek⟩ := List.mem_map.1 hmem
        obtain ⟨e1, e2⟩ := arrowLine_inj ek
        rw [List.mem_filter] at hk
        have hk2 := of_decide_eq_true hk.2
        rw [e1] at hk2 e2
        refine ⟨hk2, rateText_inj SIO (dN _ (N.rateExpr_mem wN hN hj)) (dN' _ (N'.rateExpr_mem wN' hN' (enb ▸ hj))) (List.append_cancel_left e2).symm⟩
    refine ⟨⟨fun h0 => by_contra fun hc => (one hi' hi hM' hM h'.exprs h.exprs hnb.symm (hnb ▸ hj) s2.symm hc).1 h0,
      fun h0 => by_contra fun hc => (one hi hi' hM hM' h.exprs h'.exprs hnb hj s2 hc).1 h0⟩,
      fun hc => (one hi hi' hM hM' h.exprs h'.exprs hnb hj s2 hc).2⟩

/-! ### A concrete case -/

theorem decRound_dom (x : ℚ) : decIO.dom (decRound.round 5 x) := by
  refine ⟨5, ?_⟩
  show ((⌊x * 10 ^ 5 + 1 / 2⌋ : ℚ) / 10 ^ 5).den ∣ 10 ^ 5
  have := Rat.den_dvd ⌊x * 10 ^ 5 + 1 / 2⌋ (10 ^ 5)
  push_cast at this
  exact_mod_cast this

open Prism in
/-- A printer of three expressions, and of rational numbers. -/
def polySym : SymIO ℚ where
  toExprIO := polyIO
  str_chars e h := by rcases h with rfl | rfl | rfl <;> decide +kernel
  number x := decIO.repr (decRound.round 5 x)
  shows := decIO.parse
  number_chars x := repr_notMem decRound (by decide) (decRound_dom x)
  number_err x := by
    refine ⟨_, decIO.parse_repr _ (decRound_dom x), ?_⟩
    show |(⌊x * 10 ^ 5 + 1 / 2⌋ : ℚ) / 10 ^ 5 - x| ≤ 1 / 10 ^ 5
    have h1 := Int.floor_le (x * 10 ^ 5 + 1 / 2)
    have h2 := Int.lt_floor_add_one (x * 10 ^ 5 + 1 / 2)
    rw [abs_le]
    constructor
    · rw [neg_le_sub_iff_le_add, ← add_div, le_div_iff₀ (by positivity)]
      linarith
    · rw [sub_le_iff_le_add, div_le_iff₀ (by positivity), add_mul, one_div_mul_cancel (by positivity)]
      linarith

open Prism in
example : printPCTMC decRound polySym polyPCTMC "toy".toList =
    .ok ("Name: toy\np = 0.5\n\nInitial state: s0\n----STATE 0--init----\nExepected waiting time: 4.0\n" ++
      "s0 -> s1 : lambda = 2*p**3 (=0.25)\n\n----STATE 1--a----\ns1 -> s0 : lambda = q\n\n\n").toList := by
  decide +kernel

open Prism in
/-- The hypotheses of the theorems hold for it. -/
example : polyPCTMC.WF ∧ Printable decRound polySym polyPCTMC "toy".toList ∧ (∀ x ∈ polyPCTMC.initialState, 0 ≤ x) ∧
    polyPCTMC.initialState.sum = 1 := by
  refine ⟨⟨by decide, by decide, by decide, by decide, ?_⟩, ⟨by decide, by decide +kernel, by decide +kernel, ?_, ?_, ?_, ?_⟩, by decide +kernel,
    by decide +kernel⟩
  · intro x hx p hp
    rw [← Expr.mem_free] at hp
    have : ∀ x ∈ polyPCTMC.exprs, ∀ p ∈ x.free, p ∈ polyPCTMC.names := by decide +kernel
    exact this x hx p hp
  · intro p hp
    exact ⟨5, by revert p; decide +kernel⟩
  · intro p hp
    exact ⟨5, by revert p; decide +kernel⟩
  · intro e he
    simp only [polyPCTMC, List.mem_cons, List.not_mem_nil, or_false] at he
    rcases he with rfl | rfl | rfl
    · exact .inl rfl
    · exact .inr (.inr rfl)
    · exact .inr (.inl rfl)
  · intro ρ hρ i hi hf
    have hi : i < 2 := hi
    have hpv : ρ "p" = 1 / 2 := hρ "p" (1 / 2) rfl
    interval_cases i
    · right
      have : ∑ j : Fin polyPCTMC.nb, (polyPCTMC.rateExpr 0 j).den ρ = 1 / 4 := by
        show ∑ j : Fin 2, _ = _
        rw [Fin.sum_univ_two]
        simp [PCTMC.rateExpr, polyPCTMC, Expr.den, hpv]
        norm_num
      rw [this]
      exact ⟨5, by decide +kernel⟩
    · exfalso
      obtain ⟨x, hx⟩ := hf 0 (by decide) "q" (by
        rw [← Expr.mem_free]
        decide +kernel)
      simp [polyPCTMC] at hx

end Print
end Jajapy
