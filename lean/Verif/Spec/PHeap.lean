import Verif.Model.PHeap

/-!
Specification vocabulary (C114): parametric CTMCs as values. Every call changes the model it is made on, and no other one.
-/

set_option autoImplicit false

namespace Jajapy
namespace PHeap
open PCompose
variable {K : Type}

/-- The numbers in the dictionaries of the caller, the models, the content of the default argument `synchronous_transitions` (C71). -/
structure Values (K : Type) where
  dicts : List (Valuation K)
  models : List (Comp K)
  dflt : List (Sync K)

variable [Field K] [LinearOrder K]

/-- The dictionary that is given to the constructor. -/
def Values.src (V : Values K) : Src → Option (Valuation K)
  | .var k => V.dicts[k]?
  | .attr v => (V.models[v]?).map (fun m => m.model.values)

/-- One call on values. -/
def valueStep [FloorRing K] (V : Values K) : Op K → Values K × Option Err
  | .dict d => ({ V with dicts := V.dicts ++ [known d] }, none)
  | .write k p x =>
    match V.dicts[k]? with
    | none => (V, some .indexError)
    | some d => ({ V with dicts := V.dicts.set k (known (put (d.map (fun q => (q.1, some q.2))) p x)) }, none)
  | .new matrix labelling exprs d indexes names sync =>
    match V.src d with
    | none => (V, some .indexError)
    | some d =>
      match mkPCTMC matrix labelling exprs (d.map (fun q => (q.1, some q.2))) indexes names (sync.getD []) with
      | .error e => (V, some e)
      | .ok M => ({ V with models := V.models ++ [⟨M, sync.isNone⟩] }, none)
  | .instantiate v parameters values =>
    match V.models[v]? with
    | none => (V, some .indexError)
    | some m =>
      match m.model.instantiate parameters values with
      | .error e => (V, some e)
      | .ok r => ({ V with models := V.models.set v ⟨r.2, m.shared⟩ }, none)
  | .random v parameters lo hi rounds =>
    match V.models[v]? with
    | none => (V, some .indexError)
    | some m =>
      match m.model.randomInstantiation parameters lo hi rounds with
      | .error e => (V, some e)
      | .ok (some M) => ({ V with models := V.models.set v ⟨M, m.shared⟩ }, none)
      | .ok none => (V, none)
  | .compose vs perm =>
    match vs with
    | [] => (V, some .valueError)
    | [(v, _)] =>
      match V.models[v]? with
      | none => (V, some .indexError)
      | some m => ({ V with models := V.models ++ [m] }, none)
    | v :: w :: vs =>
      match (v :: w :: vs).mapM (fun p => (V.models[p.1]?).map (fun m => (m, p.2))) with
      | none => (V, some .indexError)
      | some cs =>
        match composeAll perm V.dflt cs with
        | (dflt, .error e) => ({ V with dflt := dflt }, some e)
        | (dflt, .ok M) => ({ V with models := V.models ++ [⟨M, true⟩], dflt := dflt }, none)

/-- A history on values. -/
def valueRun [FloorRing K] : List (Op K) → Values K → Values K × List (Option Err)
  | [], V => (V, [])
  | o :: os, V =>
    let r := valueStep V o
    let s := valueRun os r.1
    (s.1, r.2 :: s.2)

/-- The caller does not change a dictionary that was given to a constructor (or any other one), and does not compose one model only. -/
def Op.Tame : Op K → Prop
  | .write .. => False
  | .compose vs _ => vs.length ≠ 1
  | _ => True

/-- What there is in the memory, as values. -/
def Heap.values (H : Heap K) : Values K := ⟨H.dictionaries, H.models, H.dflt⟩

end PHeap
end Jajapy
