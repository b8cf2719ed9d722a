import Verif.Model.Files
import Verif.Spec.Storm

/-!
The Prism language, as far as it is needed to read the files written by jajapy: programs with one module and one variable,
whose guards are `x=i` and whose updates are `(x'=j)`. (See the PRISM manual, "The PRISM Language".) Then the meaning of
such a program, and what Storm builds from it.
-/

namespace Jajapy.Spec.Prism

/-! ### Words -/

def isDigit (c : Char) : Bool := '0' ≤ c && c ≤ '9'
def isLetter (c : Char) : Bool := ('a' ≤ c && c ≤ 'z') || ('A' ≤ c && c ≤ 'Z') || c = '_'
def isIdChar (c : Char) : Bool := isLetter c || isDigit c
def isSpace (c : Char) : Bool := c = ' ' || c = '\t' || c = '\n' || c = '\r'

inductive Tok
  | id (s : List Char)
  | int (s : List Char)
  | real (s : List Char)
  | quoted (s : List Char)
  | sym (s : List Char)
  deriving DecidableEq

/-- The longest beginning made of digits, and the rest. -/
def spanDigits (s : List Char) : List Char × List Char := (s.takeWhile isDigit, s.dropWhile isDigit)

/-- The fractional part: a dot and at least one digit (so that `0..3` is not read as a decimal number). -/
def spanFraction : List Char → List Char × List Char
  | '.' :: s => if (spanDigits s).1 = [] then ([], '.' :: s) else ('.' :: (spanDigits s).1, (spanDigits s).2)
  | s => ([], s)

/-- The exponent: `e` or `E`, a sign or none, and at least one digit. -/
def spanExponent : List Char → List Char × List Char
  | c :: s =>
    if c = 'e' ∨ c = 'E' then
      match s with
      | d :: s' =>
        if d = '+' ∨ d = '-' then
          if (spanDigits s').1 = [] then ([], c :: d :: s') else (c :: d :: (spanDigits s').1, (spanDigits s').2)
        else if (spanDigits (d :: s')).1 = [] then ([], c :: d :: s') else (c :: (spanDigits (d :: s')).1, (spanDigits (d :: s')).2)
      | [] => ([], [c])
    else ([], c :: s)
  | [] => ([], [])

/-- A number: digits, a fractional part and an exponent. -/
def number (s : List Char) : Tok × List Char :=
  let a := spanDigits s
  let b := spanFraction a.2
  let c := spanExponent b.2
  (if b.1 ++ c.1 = [] then .int a.1 else .real (a.1 ++ b.1 ++ c.1), c.2)

/-- The first word of a text that does not start with a space. -/
def word : List Char → Option (Tok × List Char)
  | [] => none
  | c :: s =>
    if isLetter c then some (.id (c :: s.takeWhile isIdChar), s.dropWhile isIdChar)
    else if isDigit c then some (number (c :: s))
    else if c = '"' then
      match s.dropWhile (· ≠ '"') with
      | _ :: s' => some (.quoted (s.takeWhile (· ≠ '"')), s')
      | [] => none
    else if c = '-' ∧ s.head? = some '>' then some (.sym ['-', '>'], s.tail)
    else if c = '.' ∧ s.head? = some '.' then some (.sym ['.', '.'], s.tail)
    else if c ∈ ['[', ']', '(', ')', ':', ';', '=', '\'', '+', '|', '-', '*', '/', '^'] then some (.sym [c], s)
    else none

/-- The words of a text; the first argument bounds the number of steps. -/
def lexN : ℕ → List Char → Option (List Tok)
  | _, [] => some []
  | 0, _ :: _ => none
  | f + 1, c :: s =>
    if isSpace c then lexN f s
    else match word (c :: s) with
      | some (t, s') => (lexN f s').map (t :: ·)
      | none => none

def lex (s : List Char) : Option (List Tok) := lexN s.length s

/-! ### Programs -/

/-- The reserved words of the PRISM manual. -/
def reserved : List (List Char) :=
  ["A", "bool", "clock", "const", "ctmc", "C", "double", "dtmc", "E", "endinit", "endinvariant", "endmodule", "endobservables",
   "endrewards", "endsystem", "false", "formula", "filter", "func", "F", "global", "G", "init", "invariant", "I", "int", "label",
   "max", "mdp", "min", "module", "X", "nondeterministic", "observable", "observables", "of", "Pmax", "Pmin", "P", "pomdp", "popta",
   "probabilistic", "prob", "pta", "rate", "rewards", "Rmax", "Rmin", "R", "S", "stochastic", "system", "true", "U", "W"].map String.toList

/-- A name: letters, digits and `_`, the first one not a digit, and not a reserved word. -/
def IsName (s : List Char) : Prop :=
  (∃ c t, s = c :: t ∧ isLetter c = true ∧ ∀ d ∈ t, isIdChar d = true) ∧ s ∉ reserved

instance (s : List Char) : Decidable (IsName s) := by
  unfold IsName
  refine @instDecidableAnd _ _ ?_ _
  cases s with
  | nil => exact isFalse (by rintro ⟨c, t, h, _⟩; cases h)
  | cons c t =>
    exact decidable_of_iff (isLetter c = true ∧ ∀ d ∈ t, isIdChar d = true)
      ⟨fun h => ⟨c, t, rfl, h⟩, by rintro ⟨c', t', h, h'⟩; cases h; exact h'⟩

inductive ModelType
  | dtmc | mdp | ctmc
  deriving DecidableEq

/-- `[action] x=guard -> v1:(x'=j1) + … ;` -/
structure Command (V : Type) where
  action : Option (List Char)
  guard : ℕ
  updates : List (V × ℕ)

/-- `const double name [= value];` -/
structure Const (K : Type) where
  name : List Char
  value : Option K

/-- A program; the variable takes the values `lo..hi`. -/
structure Program (K V : Type) where
  kind : ModelType
  consts : List (Const K)
  name : List Char
  lo : ℕ
  hi : ℕ
  init : ℕ
  commands : List (Command V)
  labels : List (List Char × List ℕ)

/-! ### Reading -/

/-- The value of a sequence of digits. -/
def natOf (s : List Char) : ℕ := s.foldl (fun n c => 10 * n + (c.toNat - 48)) 0

section
variable {K V : Type} (real : List Char → Option K) (expr : List Tok → Option V)

def kindOf : List Tok → Option (ModelType × List Tok)
  | .id s :: r =>
    if s = "dtmc".toList then some (.dtmc, r) else if s = "mdp".toList then some (.mdp, r)
    else if s = "ctmc".toList then some (.ctmc, r) else none
  | _ => none

/-- The declarations of constants; the first argument bounds the number of steps. -/
def constsN : ℕ → List Tok → Option (List (Const K) × List Tok)
  | f + 1, .id c :: .id d :: .id s :: .sym [';'] :: r =>
    if c = "const".toList ∧ d = "double".toList ∧ IsName s then (constsN f r).map (fun p => (⟨s, none⟩ :: p.1, p.2)) else some ([], .id c :: .id d :: .id s :: .sym [';'] :: r)
  | f + 1, .id c :: .id d :: .id s :: .sym ['='] :: .real v :: .sym [';'] :: r =>
    if c = "const".toList ∧ d = "double".toList ∧ IsName s then
      (real v).bind (fun x => (constsN f r).map (fun p => (⟨s, some x⟩ :: p.1, p.2)))
    else some ([], .id c :: .id d :: .id s :: .sym ['='] :: .real v :: .sym [';'] :: r)
  | _, r => some ([], r)

/-- `module name x : [lo..hi] init i;` gives name, x, lo, hi, i. -/
def header : List Tok → Option ((List Char × List Char × ℕ × ℕ × ℕ) × List Tok)
  | .id m :: .id s :: .id x :: .sym [':'] :: .sym ['['] :: .int lo :: .sym ['.', '.'] :: .int hi :: .sym [']'] :: .id i :: .int k :: .sym [';'] :: r =>
    if m = "module".toList ∧ i = "init".toList ∧ IsName s ∧ IsName x then some ((s, x, natOf lo, natOf hi, natOf k), r) else none
  | _ => none

/-- One update: an expression, a colon and `(x'=j)`. -/
def update (x : List Char) (r : List Tok) : Option ((V × ℕ) × List Tok) :=
  (expr (r.takeWhile (· ≠ .sym [':']))).bind (fun v =>
    match r.dropWhile (· ≠ .sym [':']) with
    | _ :: .sym ['('] :: .id y :: .sym ['\''] :: .sym ['='] :: .int j :: .sym [')'] :: r' =>
      if y = x then some ((v, natOf j), r') else none
    | _ => none)

/-- Updates separated by `+` and ended by `;`. -/
def updatesN (x : List Char) : ℕ → List Tok → Option (List (V × ℕ) × List Tok)
  | 0, _ => none
  | f + 1, r =>
    match update expr x r with
    | some (u, .sym ['+'] :: r') => (updatesN x f r').map (fun p => (u :: p.1, p.2))
    | some (u, .sym [';'] :: r') => some ([u], r')
    | _ => none

/-- The action of a command, in brackets. -/
def actionOf : List Tok → Option (Option (List Char) × List Tok)
  | .sym ['['] :: .sym [']'] :: r => some (none, r)
  | .sym ['['] :: .id a :: .sym [']'] :: r => if IsName a then some (some a, r) else none
  | _ => none

/-- One command. -/
def command (x : List Char) (r : List Tok) : Option (Command V × List Tok) :=
  match actionOf r with
  | some (a, .id y :: .sym ['='] :: .int i :: .sym ['-', '>'] :: r') =>
    if y = x then (updatesN expr x r'.length r').map (fun p => (⟨a, natOf i, p.1⟩, p.2)) else none
  | _ => none

/-- The commands, up to `endmodule`. -/
def commandsN (x : List Char) : ℕ → List Tok → Option (List (Command V) × List Tok)
  | 0, _ => none
  | f + 1, r =>
    if r.head? = some (.id "endmodule".toList) then some ([], r.tail)
    else match command expr x r with
      | some (c, r') => (commandsN x f r').map (fun p => (c :: p.1, p.2))
      | none => none

/-- `x=i | x=j | … ;` -/
def guardsN (x : List Char) : ℕ → List Tok → Option (List ℕ × List Tok)
  | f + 1, .id y :: .sym ['='] :: .int i :: .sym ['|'] :: r =>
    if y = x then (guardsN x f r).map (fun p => (natOf i :: p.1, p.2)) else none
  | _ + 1, .id y :: .sym ['='] :: .int i :: .sym [';'] :: r => if y = x then some ([natOf i], r) else none
  | _, _ => none

/-- The labels, up to the end of the file. -/
def labelsN (x : List Char) : ℕ → List Tok → Option (List (List Char × List ℕ))
  | _, [] => some []
  | f + 1, .id l :: .quoted s :: .sym ['='] :: r =>
    if l = "label".toList ∧ IsName s then
      match guardsN x r.length r with
      | some (g, r') => (labelsN x f r').map ((s, g) :: ·)
      | none => none
    else none
  | _, _ => none

/-- A program. The names of the constants and of the variable are distinct. -/
def program (ts : List Tok) : Option (Program K V) :=
  (kindOf ts).bind (fun p1 => (constsN real p1.2.length p1.2).bind (fun p2 => (header p2.2).bind (fun p3 =>
    if (p3.1.2.1 :: p2.1.map Const.name).Nodup then
      (commandsN expr p3.1.2.1 p3.2.length p3.2).bind (fun p4 => (labelsN p3.1.2.1 p4.2.length p4.2).map (fun ls =>
        ⟨p1.1, p2.1, p3.1.1, p3.1.2.2.1, p3.1.2.2.2.1, p3.1.2.2.2.2, p4.1, ls⟩))
    else none)))

/-- The program in a file. -/
def readPrism (text : List Char) : Option (Program K V) := (lex text).bind (program real expr)

/-- The words of a text, before a space. -/
def words (t : List Char) : List Tok := (lex (t ++ [' '])).getD []

/-- The text `t` is read as the expression `e`, before a colon or a space. -/
structure TextOf (t : List Char) (e : V) : Prop where
  words : ∀ c s, (c = ':' ∨ c = ' ') → lex (t ++ c :: s) = (lex (c :: s)).map (words t ++ ·)
  colon : Tok.sym [':'] ∉ Prism.words t
  value : expr (Prism.words t) = some e

/-- The second text is the first one with the Python power `**` written `^`, as in Prism. -/
inductive Powers : List Char → List Char → Prop
  | nil : Powers [] []
  | char {c s t} : c ≠ '*' → Powers s t → Powers (c :: s) (c :: t)
  | times {c s t} : c ≠ '*' → Powers (c :: s) t → Powers ('*' :: c :: s) ('*' :: t)
  | power {c s t} : c ≠ '*' → Powers (c :: s) t → Powers ('*' :: '*' :: c :: s) ('^' :: t)

/-- A numeric literal as the probability or the rate of an update. -/
def literal [NatCast K] : List Tok → Option K
  | [.real s] => real s
  | [.int s] => some (natOf s : K)
  | _ => none

end

/-! ### Meaning -/

section
variable {K V : Type} [Field K]

/-- The commands whose guard holds in the state `s`. -/
def enabled (P : Program K V) (s : ℕ) : List (Command V) := P.commands.filter (fun c => c.guard = s)

/-- The probability (or rate) with which a command goes to `j`. -/
def Command.to (c : Command K) (j : ℕ) : K := ((c.updates.filter (fun u => u.2 = j)).map (·.1)).sum

/-- The states where a label holds. -/
def holds (P : Program K V) (l : List Char) (s : ℕ) : Prop := ∃ p ∈ P.labels, p.1 = l ∧ s ∈ p.2

/-- The program `P` describes the model with the states `0..n-1` that starts in `start`, where `choices s` are the choices of
the state `s` (each with its action, if it has a name, and the probabilities or rates of its successors), and `label s` the
label of `s`. ('init' is the predefined label of the initial state: it is not declared.) -/
structure Describes {n : ℕ} (P : Program K K) (kind : ModelType) (start : Fin n)
    (choices : Fin n → List (Option (List Char) × (Fin n → K))) (label : Fin n → String) : Prop where
  kind : P.kind = kind
  consts : P.consts = []
  lo : P.lo = 0
  hi : P.hi + 1 = n
  init : P.init = start
  choices : ∀ s : Fin n, List.Forall₂ (fun c q => c.action = q.1 ∧ (∀ u ∈ c.updates, u.2 < n) ∧ ∀ j : Fin n, c.to j = q.2 j)
    (enabled P s) (choices s)
  guards : ∀ c ∈ P.commands, c.guard < n
  labels : ∀ (s : ℕ) (l : List Char), holds P l s ↔ ∃ h : s < n, label ⟨s, h⟩ ≠ "init" ∧ (label ⟨s, h⟩).toList = l
  distinct : (P.labels.map (·.1)).Nodup

/-- The choices of a state of an MC or a CTMC: one, with the entries of the row, or none if the row is 0. -/
def chainChoices [DecidableEq K] {n : ℕ} (m : Fin n → Fin n → K) (s : Fin n) : List (Option (List Char) × (Fin n → K)) :=
  if ∃ j, m s j ≠ 0 then [(none, m s)] else []

/-- The choices of a state of an MDP: one for each action whose row is not 0, in the order of the actions. -/
def mdpChoices [DecidableEq K] {n : ℕ} (M : MDP K String n) (s : Fin n) : List (Option (List Char) × (Fin n → K)) :=
  (List.finRange M.actions.length).filterMap (fun a => if ∃ j, M.matrix s a j ≠ 0 then some (some (M.actions[a]).toList, M.matrix s a) else none)

/-- The program `P` describes the parametric CTMC with the states `0..n-1` that starts in `start`, where `rate s j` is the expression of the rate from `s`
to `j` (`none` if there is no transition). Its constants are `consts`. (The variable may have more values than there are states.) -/
structure DescribesP {n : ℕ} (P : Program K V) (consts : List (List Char × Option K)) (start : Fin n) (rate : Fin n → Fin n → Option V)
    (label : Fin n → String) : Prop where
  kind : P.kind = .ctmc
  consts : P.consts.map (fun c => (c.name, c.value)) = consts
  lo : P.lo = 0
  hi : n ≤ P.hi + 1
  init : P.init = start
  actions : ∀ c ∈ P.commands, c.action = none
  one : ∀ s : ℕ, (enabled P s).length ≤ 1
  range : ∀ c ∈ P.commands, c.guard < n ∧ (∀ u ∈ c.updates, u.2 < n) ∧ (c.updates.map (·.2)).Nodup
  rates : ∀ (s j : Fin n) (e : V), (∃ c ∈ enabled P s, (e, j.val) ∈ c.updates) ↔ rate s j = some e
  labels : ∀ (s : ℕ) (l : List Char), holds P l s ↔ ∃ h : s < n, label ⟨s, h⟩ ≠ "init" ∧ (label ⟨s, h⟩).toList = l
  distinct : (P.labels.map (·.1)).Nodup
  nonempty : ∀ c ∈ P.commands, c.updates ≠ []

/-! ### What Storm builds -/

/-- The states that can be reached. -/
inductive Reachable (P : Program K K) : ℕ → Prop
  | init : Reachable P P.init
  | step {s j : ℕ} (c : Command K) (hs : Reachable P s) (hc : c ∈ enabled P s) (hj : c.to j ≠ 0) : Reachable P j

/-- The probability (rate) of going from `s` to `j`: the rates of all the enabled commands are added; in a DTMC one of the enabled
commands is chosen uniformly. -/
def stepValue (P : Program K K) (s j : ℕ) : K :=
  ((enabled P s).map (fun c => c.to j)).sum / (match P.kind with | .dtmc => (enabled P s).length | _ => 1)

/-- The states of the sparse model `S` of `P`: the state number `i` is the reachable state `e i` of `P`. A state has the label 'init' if it is
the initial one, 'deadlock' if no command is enabled, and those declared in `P`. -/
structure BuiltStates (P : Program K K) (S : Jajapy.Storm.Sparse K) (e : Fin S.states.length → ℕ) : Prop where
  valid : Spec.Storm.Valid S
  inj : Function.Injective e
  range : ∀ s, Reachable P s ↔ ∃ i, e i = s
  labels : ∀ (i : Fin S.states.length) (l : String), l ∈ Spec.Storm.labels S i ↔
    (l = "init" ∧ e i = P.init) ∨ (l = "deadlock" ∧ enabled P (e i) = []) ∨ holds P l.toList (e i)

/-- `S` is the sparse model of the DTMC or CTMC `P`. A state without enabled command gets a loop of value 1. -/
structure Built (P : Program K K) (S : Jajapy.Storm.Sparse K) (e : Fin S.states.length → ℕ) : Prop extends BuiltStates P S e where
  one : Spec.Storm.OneAction S
  value : ∀ i j : Fin S.states.length, Spec.Storm.value S i 0 j =
    if enabled P (e i) = [] then (if i = j then 1 else 0) else stepValue P (e i) (e j)

/-- `S` is the sparse model of the MDP `P`: the choices of a state are the enabled commands, in their order. A state without enabled command
gets one choice, a loop of value 1. -/
structure BuiltMDP (P : Program K K) (S : Jajapy.Storm.Sparse K) (e : Fin S.states.length → ℕ) : Prop extends BuiltStates P S e where
  actions : ∀ i : Fin S.states.length, (S.states[i]).actions.length = max 1 (enabled P (e i)).length
  value : ∀ (i j : Fin S.states.length) (a : ℕ), Spec.Storm.value S i a j =
    match (enabled P (e i))[a]? with
    | some c => c.to (e j)
    | none => if enabled P (e i) = [] ∧ a = 0 ∧ i = j then 1 else 0

/-- A chain given by its matrix, its labels and its initial probabilities is the part of another one made of the states `f i`, which
contains the initial states and all that can be reached; but a state that is never left has a loop of value 1. -/
structure Part [DecidableEq K] {n n' : ℕ} (f : Fin n' → Fin n) (m' : Fin n' → Fin n' → K) (label' : Fin n' → String) (init' : Fin n' → K)
    (m : Fin n → Fin n → K) (label : Fin n → String) (init : Fin n → K) : Prop where
  inj : Function.Injective f
  initial : ∀ s, init s ≠ 0 → ∃ i, f i = s
  closed : ∀ i s, m (f i) s ≠ 0 → ∃ j, f j = s
  labels : ∀ i, label' i = label (f i)
  init : ∀ i, init' i = init (f i)
  matrix : ∀ i j, m' i j = if ∀ s, m (f i) s = 0 then (if i = j then 1 else 0) else m (f i) (f j)

/-- The same for an MDP: the action number `a` of a state is the one of the choice number `a` of the state. -/
structure PartMDP {n n' : ℕ} (f : Fin n' → Fin n) {A : ℕ} (m' : Fin n' → Fin A → Fin n' → K) (label' : Fin n' → String) (init' : Fin n' → K)
    (choices : Fin n → List (Option (List Char) × (Fin n → K))) (label : Fin n → String) (init : Fin n → K) : Prop where
  inj : Function.Injective f
  initial : ∀ s, init s ≠ 0 → ∃ i, f i = s
  closed : ∀ i, ∀ q ∈ choices (f i), ∀ s, q.2 s ≠ 0 → ∃ j, f j = s
  labels : ∀ i, label' i = label (f i)
  init : ∀ i, init' i = init (f i)
  number : ∀ i, (choices (f i)).length ≤ A
  matrix : ∀ i a j, m' i a j = match (choices (f i))[a.val]? with
    | some q => q.2 (f j)
    | none => if choices (f i) = [] ∧ a.val = 0 ∧ i = j then 1 else 0

end

/-! ### Numbers -/

/-- The text of a decimal number that is not an integer literal: digits, a fractional part, an exponent. -/
def Decimal (s : List Char) : Prop :=
  ∃ a b c, s = a ++ b ++ c ∧ a ≠ [] ∧ (∀ x ∈ a, isDigit x = true) ∧
    (b = [] ∨ ∃ d, d ≠ [] ∧ (∀ x ∈ d, isDigit x = true) ∧ b = '.' :: d) ∧
    (c = [] ∨ ∃ e d, (e = ['e'] ∨ e = ['e', '+'] ∨ e = ['e', '-']) ∧ d ≠ [] ∧ (∀ x ∈ d, isDigit x = true) ∧ c = e ++ d) ∧
    b ++ c ≠ []

end Jajapy.Spec.Prism
