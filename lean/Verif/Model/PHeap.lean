import Verif.Model.PCompose

/-!
Parametric CTMCs in a memory: the dictionary `parameter_values` is an object that a model shares with whoever gave it to the constructor
(Parametric_Model.py:75-79), and the composition of models gives the dictionary of its first component to the result (PCTMC.py:650, 752).

Histories of calls; a call that raises an exception leaves the models as they are, and the history goes on.
-/

set_option autoImplicit false

namespace Jajapy
namespace PHeap
open PCompose

/-- A model: its attributes (`body.values` is not used), whether its list `synchronous_transitions` is the default argument of the constructor, and the
address of `parameter_values`. -/
structure Obj (K : Type) where
  body : PCTMC K
  shared : Bool
  dict : ℕ

/-- The memory: the dictionaries (`none` is `nan`), the models, the variables of the caller that hold a dictionary, those that hold a model, and the content
of the default argument `synchronous_transitions`. -/
structure Heap (K : Type) where
  dicts : List (List (String × Option K))
  objs : List (Obj K)
  dvars : List ℕ
  vars : List ℕ
  dflt : List (Sync K)

variable {K : Type}

/-- A new memory. -/
def Heap.empty : Heap K := ⟨[], [], [], [], []⟩

/-- The numbers in a dictionary. -/
def known (d : List (String × Option K)) : Valuation K := d.filterMap (fun p => p.2.map (fun x => (p.1, x)))

/-- What a model looks like to someone who reads its attributes. -/
def Heap.view (H : Heap K) (o : Obj K) : Comp K := ⟨{ o.body with values := known (H.dicts.getD o.dict []) }, o.shared⟩

/-- The dictionary given to the constructor: one of the caller, or the attribute `parameter_values` of a model. -/
inductive Src
  | var (k : ℕ)
  | attr (v : ℕ)

/-- The calls. Models and dictionaries are referred to by the number of their variable. -/
inductive Op (K : Type)
  /-- `d = {…}` -/
  | dict (d : List (String × Option K))
  /-- `d[p] = x` -/
  | write (k : ℕ) (p : String) (x : K)
  /-- `m = PCTMC(matrix,labelling,exprs,d,indexes,names[,synchronous_transitions])` -/
  | new (matrix : List (List ℕ)) (labelling : List String) (exprs : List (Expr K)) (d : Src) (indexes : List (List (ℕ × ℕ))) (names : List String)
      (sync : Option (List (Sync K)))
  /-- `m.instantiate(parameters,values)` -/
  | instantiate (v : ℕ) (parameters : List String) (values : List K)
  /-- `m.randomInstantiation(parameters,min_val,max_val)`, also called by `fit_nonInstantiatedParameters` -/
  | random (v : ℕ) (parameters : Option (List String)) (lo hi : Option K) (rounds : List (List K))
  /-- `m = synchronousCompositionPCTMCs([m1,…])` -/
  | compose (vs : List (ℕ × List String)) (perm : List ℕ → List ℕ)

variable [Field K] [LinearOrder K]

/-- The model in a variable. -/
def Heap.obj (H : Heap K) (v : ℕ) : Option (ℕ × Obj K) :=
  match H.vars[v]? with
  | none => none
  | some a => (H.objs[a]?).map (fun o => (a, o))

/-- The address of the dictionary that is given to the constructor. -/
def Heap.src (H : Heap K) : Src → Option ℕ
  | .var k => H.dvars[k]?
  | .attr v => (H.obj v).map (fun o => o.2.dict)

/-- Parametric_Model.py:50-84: the values `nan` are deleted from the dictionary that was given, and the model keeps this dictionary. -/
def Heap.new [FloorRing K] (H : Heap K) (matrix : List (List ℕ)) (labelling : List String) (exprs : List (Expr K)) (d : Src) (indexes : List (List (ℕ × ℕ)))
    (names : List String) (sync : Option (List (Sync K))) : Heap K × Option Err :=
  match H.src d with
  | none => (H, some .indexError)
  | some a =>
    match mkPCTMC matrix labelling exprs (H.dicts.getD a []) indexes names (sync.getD []) with
    | .error e => (H, some e)
    | .ok M =>
      ({ H with
          dicts := H.dicts.modify a (fun d => d.filter (fun p => p.2.isSome))
          objs := H.objs ++ [⟨M, sync.isNone, a⟩]
          vars := H.vars ++ [H.objs.length] }, none)

/-- PCTMC.py:201-206: `self.parameter_values = new_values`, a new dictionary (Parametric_Model.py:241, `deepcopy`). -/
def Heap.setValues (H : Heap K) (a : ℕ) (o : Obj K) (values : Valuation K) : Heap K :=
  { H with dicts := H.dicts ++ [values.map (fun q => (q.1, some q.2))], objs := H.objs.set a { o with dict := H.dicts.length } }

/-- PCTMC.py:183-206 `instantiate`. -/
def Heap.instantiate (H : Heap K) (v : ℕ) (parameters : List String) (values : List K) : Heap K × Option Err :=
  match H.obj v with
  | none => (H, some .indexError)
  | some (a, o) =>
    match (H.view o).model.instantiate parameters values with
    | .error e => (H, some e)
    | .ok (true, M) => (H.setValues a o M.values, none)
    | .ok (false, _) => (H, none)

/-- PCTMC.py:208-257 `randomInstantiation`. If all the `rounds` are refused nothing has changed so far. -/
def Heap.random (H : Heap K) (v : ℕ) (parameters : Option (List String)) (lo hi : Option K) (rounds : List (List K)) : Heap K × Option Err :=
  match H.obj v with
  | none => (H, some .indexError)
  | some (a, o) =>
    match (H.view o).model.randomInstantiation parameters lo hi rounds with
    | .error e => (H, some e)
    | .ok (some M) => (H.setValues a o M.values, none)
    | .ok none => (H, none)

/-- PCTMC.py:548-622 `synchronousCompositionPCTMCs`. With one model the result is that object (PCTMC.py:601-602); otherwise it is a new one, with the
dictionary of the first component. -/
def Heap.compose [FloorRing K] (H : Heap K) (vs : List (ℕ × List String)) (perm : List ℕ → List ℕ) : Heap K × Option Err :=
  match vs with
  | [] => (H, some .valueError)
  | [(v, _)] =>
    match H.vars[v]? with
    | none => (H, some .indexError)
    | some a => ({ H with vars := H.vars ++ [a] }, none)
  | v :: w :: vs =>
    match H.obj v.1, (v :: w :: vs).mapM (fun p => (H.obj p.1).map (fun o => (H.view o.2, p.2))) with
    | some (_, o), some cs =>
      match composeAll perm H.dflt cs with
      | (dflt, .error e) => ({ H with dflt := dflt }, some e)
      | (dflt, .ok M) =>
        ({ H with objs := H.objs ++ [⟨M, true, o.dict⟩], vars := H.vars ++ [H.objs.length], dflt := dflt }, none)
    | _, _ => (H, some .indexError)

/-- `d[p] = x`: the new value takes the place of the old one, or comes last. -/
def put (d : List (String × Option K)) (p : String) (x : K) : List (String × Option K) :=
  if d.any (fun q => q.1 = p) then d.map (fun q => if q.1 = p then (p, some x) else q) else d ++ [(p, some x)]

/-- One call. -/
def Heap.step [FloorRing K] (H : Heap K) : Op K → Heap K × Option Err
  | .dict d => ({ H with dicts := H.dicts ++ [d], dvars := H.dvars ++ [H.dicts.length] }, none)
  | .write k p x =>
    match H.dvars[k]? with
    | none => (H, some .indexError)
    | some a => ({ H with dicts := H.dicts.modify a (fun d => put d p x) }, none)
  | .new matrix labelling exprs d indexes names sync => H.new matrix labelling exprs d indexes names sync
  | .instantiate v parameters values => H.instantiate v parameters values
  | .random v parameters lo hi rounds => H.random v parameters lo hi rounds
  | .compose vs perm => H.compose vs perm

/-- A history: the memory at the end, and what each call raised. -/
def Heap.run [FloorRing K] : List (Op K) → Heap K → Heap K × List (Option Err)
  | [], H => (H, [])
  | o :: os, H =>
    let r := H.step o
    let s := Heap.run os r.1
    (s.1, r.2 :: s.2)

/-- The models in the variables of the caller. -/
def Heap.models (H : Heap K) : List (Comp K) := H.vars.filterMap (fun a => (H.objs[a]?).map H.view)

/-- The numbers in the dictionaries of the caller. -/
def Heap.dictionaries (H : Heap K) : List (Valuation K) := H.dvars.map (fun a => known (H.dicts.getD a []))

end PHeap
end Jajapy
