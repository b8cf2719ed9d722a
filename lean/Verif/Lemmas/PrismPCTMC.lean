import Verif.Lemmas.PrismProgram

/-!
Lemmas for C76: the Prism file of a PCTMC.
-/

namespace Jajapy.Prism

open Spec.Prism Files

variable {K : Type} [Field K] [DecidableEq K]

/-- A constant of the file: name, text of the value. -/
abbrev CText := List Char × Option (List Char)

def constLine (c : CText) : List Char :=
  "const double ".toList ++ c.1 ++ (match c.2 with
    | some v => " = ".toList ++ v
    | none => []) ++ ";\n".toList

def constToks (c : CText) : List Tok :=
  [.id "const".toList, .id "double".toList, .id c.1] ++ (match c.2 with
    | some v => [.sym ['='], .real v]
    | none => []) ++ [.sym [';']]

def ConstOK (real : List Char → Option K) (value : List Char → K) (c : CText) : Prop :=
  IsName c.1 ∧ ∀ v, c.2 = some v → Decimal v ∧ real v = some (value v)

variable {real : List Char → Option K} {value : List Char → K}

theorem lex_const (c : CText) (h : ConstOK real value c) (s : List Char) : lex (constLine c ++ s) = (lex s).map (constToks c ++ ·) := by
  obtain ⟨n, v⟩ := c
  obtain ⟨hn, hv⟩ := h
  dsimp only at hn hv
  have hend : lex (';' :: '\n' :: s) = (lex s).map (.sym [';'] :: ·) := by
    rw [lex_sym (by decide), lex_space (by decide)]
  have e1 : "const double ".toList = ['c', 'o', 'n', 's', 't', ' ', 'd', 'o', 'u', 'b', 'l', 'e', ' '] := rfl
  have e2 : ";\n".toList = [';', '\n'] := rfl
  have e3 : " = ".toList = [' ', '=', ' '] := rfl
  have hpre : ∀ r, lex ("const double ".toList ++ r) = (lex r).map (fun x => .id "const".toList :: .id "double".toList :: x) := by
    intro r
    have e : "const double ".toList ++ r = 'c' :: (['o', 'n', 's', 't'] ++ ' ' :: ('d' :: (['o', 'u', 'b', 'l', 'e'] ++ ' ' :: r))) := by
      rw [e1]; rfl
    rw [e, lex_ident (by decide) (by decide) (endId_cons (by decide) _), lex_space (by decide), lex_ident (by decide) (by decide) (endId_cons (by decide) _),
      lex_space (by decide)]
    cases lex r <;> rfl
  cases v with
  | none =>
    have e : constLine (n, none) ++ s = "const double ".toList ++ (n ++ ';' :: '\n' :: s) := by
      show "const double ".toList ++ n ++ [] ++ ";\n".toList ++ s = _
      rw [e2]; simp only [List.append_assoc, List.nil_append, List.cons_append]
    rw [e, hpre, lex_name hn (endId_cons (by decide) _), hend]
    cases lex s <;> rfl
  | some v =>
    have e : constLine (n, some v) ++ s = "const double ".toList ++ (n ++ ' ' :: '=' :: ' ' :: (v ++ ';' :: '\n' :: s)) := by
      show "const double ".toList ++ n ++ (" = ".toList ++ v) ++ ";\n".toList ++ s = _
      rw [e2, e3]; simp only [List.append_assoc, List.nil_append, List.cons_append]
    rw [e, hpre, lex_name hn (endId_cons (by decide) _), lex_space (by decide), lex_sym (by decide), lex_space (by decide),
      lex_decimal (hv v rfl).1 (endNum_cons (by decide) _), hend]
    cases lex s <;> rfl

theorem lex_consts (cs : List CText) (h : ∀ c ∈ cs, ConstOK real value c) (s : List Char) :
    lex (cs.flatMap constLine ++ s) = (lex s).map (cs.flatMap constToks ++ ·) := by
  induction cs with
  | nil => cases hs : lex s <;> simp [hs]
  | cons c cs ih =>
    rw [List.flatMap_cons, List.append_assoc, lex_const c (h c List.mem_cons_self), ih (fun d hd => h d (List.mem_cons_of_mem _ hd))]
    cases lex s <;> simp

def constOf (value : List Char → K) (c : CText) : Const K := ⟨c.1, c.2.map value⟩

theorem constsN_eq (cs : List CText) (h : ∀ c ∈ cs, ConstOK real value c) (f : ℕ) (hf : cs.length ≤ f) (name : List Char) (hi i : ℕ) (r : List Tok) :
    constsN real f (cs.flatMap constToks ++ (headToks name hi i ++ r)) = some (cs.map (constOf value), headToks name hi i ++ r) := by
  induction cs generalizing f with
  | nil => cases f <;> rfl
  | cons c cs ih =>
    obtain ⟨f, rfl⟩ : ∃ g, f = g + 1 := ⟨f - 1, by simp only [List.length_cons] at hf; omega⟩
    have ih := ih (fun d hd => h d (List.mem_cons_of_mem _ hd)) f (by simp only [List.length_cons] at hf; omega)
    obtain ⟨n, v⟩ := c
    obtain ⟨hn, hv⟩ := h (n, v) List.mem_cons_self
    dsimp only at hn hv
    rw [List.flatMap_cons, List.append_assoc]
    generalize cs.flatMap constToks ++ (headToks name hi i ++ r) = ts at ih ⊢
    cases v with
    | none =>
      show (if "const".toList = "const".toList ∧ "double".toList = "double".toList ∧ IsName n then (constsN real f ts).map (fun p => (⟨n, none⟩ :: p.1, p.2)) else _) = _
      rw [if_pos ⟨rfl, rfl, hn⟩, ih]
      rfl
    | some v =>
      show (if "const".toList = "const".toList ∧ "double".toList = "double".toList ∧ IsName n then (real v).bind (fun x => (constsN real f ts).map
        (fun p => (⟨n, some x⟩ :: p.1, p.2))) else _) = _
      rw [if_pos ⟨rfl, rfl, hn⟩, ih, (hv v rfl).2]
      rfl

theorem consts_length (cs : List CText) : cs.length ≤ (cs.flatMap constToks).length := by
  induction cs with
  | nil => simp
  | cons c cs ih => simp only [List.flatMap_cons, List.length_append, List.length_cons, constToks]; omega

variable {V : Type} {expr : List Tok → Option V} {tok : List Char → List Tok} {val : List Char → V}

/-- The program in a file that consists of the given parts. -/
theorem read_ptext (consts : List CText) (hk : ∀ c ∈ consts, ConstOK real value c) (hnd : (['s'] :: consts.map (·.1)).Nodup)
    {name : List Char} (hn : IsName name) (hi i : ℕ) {colon : List Char} (hcol : Colon colon) (cs : List Cmd)
    (hc : ∀ c ∈ cs, CmdOK expr tok val c) (labelling : List String) (hl : ∀ l ∈ labelling, l ≠ "init" → IsName l.toList) :
    readPrism real expr ("ctmc\n\n".toList ++ consts.flatMap constLine ++ "\nmodule ".toList ++ name ++ ['\n'] ++ variableText hi i ++
        cs.flatMap (fun c => commandText colon c.1 c.2.1 c.2.2) ++ "endmodule\n\n".toList ++ (labelTable labelling).flatMap labelText) =
      some ⟨.ctmc, consts.map (constOf value), name, 0, hi, i, cs.map (cmdOf val), (labelTable labelling).map (fun p => (p.1.toList, p.2))⟩ := by
  have hlab := labelTable_ok labelling hl
  obtain ⟨rest, hrest⟩ : ∃ rest : List Char, rest = cs.flatMap (fun c => commandText colon c.1 c.2.1 c.2.2) ++ ("endmodule\n\n".toList ++
    (labelTable labelling).flatMap labelText) := ⟨_, rfl⟩
  have e : "ctmc\n\n".toList ++ consts.flatMap constLine ++ "\nmodule ".toList ++ name ++ ['\n'] ++ variableText hi i ++
        cs.flatMap (fun c => commandText colon c.1 c.2.1 c.2.2) ++ "endmodule\n\n".toList ++ (labelTable labelling).flatMap labelText =
      kindWord .ctmc ++ "\n\n".toList ++ (consts.flatMap constLine ++ ('\n' :: ("module ".toList ++ name ++ ['\n'] ++ variableText hi i ++ rest))) := by
    have e1 : "ctmc\n\n".toList = kindWord .ctmc ++ "\n\n".toList := rfl
    have e2 : "\nmodule ".toList = '\n' :: "module ".toList := rfl
    rw [hrest, e1, e2]; simp only [List.append_assoc, List.cons_append]
  rw [e]
  unfold readPrism
  rw [lex_kind, lex_consts consts hk, lex_space (by decide), lex_head hn, hrest, lex_commands hcol cs hc, lex_end, lex_labels _ hlab]
  simp only [Option.map_some, Option.bind_some]
  unfold program
  rw [kindOf_word]
  simp only [Option.bind_some]
  rw [constsN_eq consts hk]
  · simp only [Option.bind_some]
    rw [header_eq hn]
    simp only [Option.bind_some]
    rw [if_pos (by rw [List.map_map]; exact hnd), commandsN_eq cs hc]
    · simp only [Option.bind_some]
      rw [labelsN_eq _ hlab _ (labels_length _)]
      rfl
    · have := cmds_length (tok := tok) cs
      rw [List.length_append, List.length_cons]
      omega
  · have := consts_length consts
    rw [List.length_append]
    omega

theorem mapM_map {α β : Type} (f : α → Py β) (g : α → β) (l : List α) (h : ∀ a ∈ l, f a = .ok (g a)) : l.mapM f = .ok (l.map g) := by
  induction l with
  | nil => rfl
  | cons a l ih =>
    rw [List.mapM_cons, h a List.mem_cons_self, ih (fun b hb => h b (List.mem_cons_of_mem _ hb))]
    rfl

end Jajapy.Prism
