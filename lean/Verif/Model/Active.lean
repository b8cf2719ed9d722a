import Verif.Model.MDP

/-!
Model of `jajapy/mdp/Active_BW_MDP.py`: the scheduler of the active learning, its count table, the sampling of new traces, and
the loop of the active learning with the objects that it changes.
-/

namespace Jajapy.Active

open Finset Tools

variable {K L : Type} {n m : ℕ} [Field K] [LinearOrder K] [DecidableEq L]

/-! ### The scheduler -/

/-- Active_BW_MDP.py:24-33: the attributes of an `ActiveLearningScheduler` that change: the count table `mat`, the last action
`last_act` and the vector `alpha_matrix`. -/
structure ALState (K : Type) (n m : ℕ) where
  mat : Fin n → Fin m → K
  lastAct : Option (Fin m)
  alpha : Fin n → K

omit [LinearOrder K] in
/-- Active_BW_MDP.py:50-51: the weights `(tot-i)/(tot*(nb_actions-1))` for a row of the count table. -/
def weights (row : Fin m → K) (i : Fin m) : K := ((∑ j, row j) - row i) / ((∑ j, row j) * ((m : K) - 1))

/-- Active_BW_MDP.py:35-52 `getActionState`; `row` is `mat[s]`, `r` the random draw. The table holds numpy floats: if the divisor is 0
(the counts are not negative, so each quotient is 0/0) the weights are `nan`; then the comparison of `resolveRandom` is false
(tools.py:61) and the first index is returned. Without actions `resolveRandom` raises IndexError. -/
def getActionState (row : Fin m → K) (r : K) : Py (Fin m) :=
  if h : 0 < m then
    if (∑ j, row j) * ((m : K) - 1) = 0 then .ok ⟨0, h⟩
    else pick (weights row) r
  else .error .indexError

/-- Active_BW_MDP.py:64-68: the weights of the states. -/
def belief (alpha : Fin n → K) (s : Fin n) : K :=
  if (∑ i, alpha i) ≤ 0 then 1 / (n : K) else alpha s / ∑ i, alpha i

/-- Active_BW_MDP.py:55-71 `getAction`: the state is drawn with `r1`, the action with `r2`. -/
def getAction (M : MDP K L n) (st : ALState K n M.actions.length) (r1 r2 : K) : Py (L × ALState K n M.actions.length) := do
  let s ← pick (belief st.alpha) r1
  let i ← getActionState (st.mat s) r2
  return (M.actions[i], { st with lastAct := some i })

/-- Active_BW_MDP.py:74-91 `addObservation`. (`run` calls `getAction` before it, so that `last_act` is not None there;
`actions[None]` raises TypeError.) -/
def addObservation (M : MDP K L n) (st : ALState K n M.actions.length) (obs : L) : Py (ALState K n M.actions.length) :=
  if 0 < ∑ s, st.alpha s then
    match st.lastAct with
    | none => .error .typeError
    | some i => .ok ⟨fun s j => if j = i then st.mat s j + st.alpha s / (∑ s, st.alpha s) else st.mat s j, some i,
        M.fwdStep st.alpha (obs, M.actions[i])⟩
  else .ok st

omit [LinearOrder K] [DecidableEq L] in
/-- Active_BW_MDP.py:28-33 `reset`: the count table is kept. -/
def reset (M : MDP K L n) (st : ALState K n M.actions.length) : ALState K n M.actions.length :=
  ⟨st.mat, none, M.initialState⟩

/-- The scheduler as `MDP.run` uses it. It draws two random numbers per call: those for the states are a stream in the
state of the scheduler, those for the actions are the draws that `run` passes. -/
def sched (M : MDP K L n) : Sched K L (ALState K n M.actions.length × (ℕ → K)) where
  reset := fun st => (reset M st.1, st.2)
  getAction := fun st r => (getAction M st.1 (st.2 0) r).map (fun q => (q.1, (q.2, fun k => st.2 (k + 1))))
  addObservation := fun st o => (addObservation M st.1 o).map (fun q => (q, st.2))

/-! ### The count table -/

/-- Active_BW_MDP.py:341-354 `_computeProbas`; `none` is `False`, `seq[-1]` raises IndexError on an empty trace. -/
def computeProbas (M : MDP K L n) (seq : List L) (times : ℕ) : Py (Option (Fin n → Fin M.actions.length → K)) :=
  match seq.getLast? with
  | none => .error .indexError
  | some last =>
    let steps := pairs seq
    let al := BW.maskLast (M.mask last) (BW.alphas M.tauP M.initialState steps)
    let be := BW.betas M.tauP (M.mask last) steps
    let p := BW.lastSum al
    .ok (if p ≤ 0 then none
      else some (fun s i => BW.visits (fun x => if x.2 = M.actions[i] then 1 else 0) (times / p) al be steps s))

omit [LinearOrder K] in
/-- Active_BW_MDP.py:337: the test `i!=False` in the comprehension. For an array it is the array of the comparisons, whose truth value is
an error unless there is at most one entry. -/
def differsFromFalse [DecidableEq K] : Option (Fin n → Fin m → K) → Py Bool
  | none => .ok false
  | some A =>
    if n * m = 0 then .ok false
    else if n * m = 1 then .ok (decide (∃ s i, A s i ≠ 0))
    else .error .valueError

omit [LinearOrder K] in
/-- Active_BW_MDP.py:337: the comprehension. -/
def dropFalse [DecidableEq K] : List (Option (Fin n → Fin m → K)) → Py (List (Fin n → Fin m → K))
  | [] => .ok []
  | x :: l => do
    let b ← differsFromFalse x
    let r ← dropFalse l
    match b, x with
    | true, some A => return A :: r
    | _, _ => return r

omit [LinearOrder K] in
/-- `sum(temp)` (Active_BW_MDP.py:338): `none` is the number 0, the sum of no arrays. -/
def sumTables : List (Fin n → Fin m → K) → Option (Fin n → Fin m → K)
  | [] => none
  | l => some (fun s i => (l.map (fun A => A s i)).sum)

/-- Active_BW_MDP.py:328-339 `_strategy`. With several processes the test `res != False` is about the task, not its result, and is true;
a `False` among the results counts as 0 in the sum. -/
def strategy (processes : ℕ) (S : TSet L) (M : MDP K L n) : Py (Option (Fin n → Fin M.actions.length → K)) := do
  let res ← (S.sequences.zip S.times).mapM (fun p => computeProbas M p.1 p.2)
  if 1 < processes then return sumTables (res.filterMap id)
  else
    let temp ← dropFalse res
    return sumTables temp

/-! ### The sample -/

/-- The scheduler made with the number 0 instead of a table: `mat[s]` raises TypeError. -/
def brokenSched (M : MDP K L n) : Sched K L (ALState K n M.actions.length × (ℕ → K)) :=
  { sched M with getAction := fun _ _ => .error .typeError }

/-- Active_BW_MDP.py:312: `scheduler_exploit`, for the result of `_strategy`. -/
def exploitSched (M : MDP K L n) : Option (Fin n → Fin M.actions.length → K) → Sched K L (ALState K n M.actions.length × (ℕ → K))
  | some _ => sched M
  | none => brokenSched M

/-- The random numbers of one round of Active_BW_MDP.py:316-320: the one that chooses the scheduler, those of `run`. -/
structure Round (K : Type) where
  coin : K
  draws : List K

/-- Active_BW_MDP.py:316-325: the traces, in the order in which they are generated. `st` is the scheduler `scheduler_exploit`, which keeps its count
table from one trace to the next. `none`: a run has used all its draws (it may never end). -/
def sampleTraces {n' : ℕ} (sul : MDP K L n') (h : MDP K L n) (exploit : Sched K L (ALState K n h.actions.length × (ℕ → K))) (steps : ℕ)
    (eps : K) : List (Round K) → ALState K n h.actions.length × (ℕ → K) → Option (Py (List (List L)))
  | [], _ => some (.ok [])
  | c :: cs, st =>
    if eps < c.coin then
      match sul.run (uniformScheduler h.actions) steps c.draws () with
      | none => none
      | some (.error e) => some (.error e)
      | some (.ok (seq, _)) =>
        match sampleTraces sul h exploit steps eps cs st with
        | none => none
        | some (.error e) => some (.error e)
        | some (.ok l) => some (.ok (seq :: l))
    else
      match sul.run exploit steps c.draws st with
      | none => none
      | some (.error e) => some (.error e)
      | some (.ok (seq, st')) =>
        match sampleTraces sul h exploit steps eps cs st' with
        | none => none
        | some (.error e) => some (.error e)
        | some (.ok l) => some (.ok (seq :: l))

/-- Active_BW_MDP.py:288-326 `_addTraces`: the new set. (Each trace is added as in `Set.setFromList`.) -/
def addTraces {n' : ℕ} (processes : ℕ) (sul : MDP K L n') (h : MDP K L n) (S : TSet L) (steps : ℕ) (eps : K)
    (rounds : List (Round K)) (states : ℕ → K) : Option (Py (TSet L)) :=
  match strategy processes S h with
  | .error e => some (.error e)
  | .ok t =>
    match sampleTraces sul h (exploitSched h t) steps eps rounds (⟨t.getD (fun _ _ => 0), none, h.initialState⟩, states) with
    | none => none
    | some (.error e) => some (.error e)
    | some (.ok l) =>
      let r := TSet.setFromList l
      some (.ok ⟨r.1, r.2, false, some 1⟩)

/-! ### The loop -/

/-- The argument `lr`. -/
inductive Rate (K : Type)
  | const (x : K)
  | dynamic

omit [LinearOrder K] [DecidableEq L] in
/-- Active_BW_MDP.py:272-286 `_mergeModels`: the new value of `self.h`. (Adding arrays of different shapes raises ValueError.) -/
def mergeModels (lr : K) (h old : MDP K L n) : Py (MDP K L n) :=
  if e : h.actions.length = old.actions.length then
    .ok { h with matrix := fun s i s' => lr * h.matrix s i s' + (1 - lr) * old.matrix s (i.cast e) s' }
  else .error .valueError

/-- The objects: the models (by address), the address of `self.h`, and `total_traces`, which is the caller's set. -/
structure Learning (K L : Type) (n : ℕ) where
  models : List (MDP K L n)
  h : ℕ
  total : TSet L

omit [LinearOrder K] [DecidableEq L] in
/-- `super().fit(S, initial_model=…)` for the model with the address `h`: the model object itself is changed, and
`self.h` is this object (BW.py:1431; the theorem `Prep.fit_returns_callers_object`). `train` gives the new value of the model. -/
def superFit (train : TSet L → MDP K L n → Py (MDP K L n)) (S : TSet L) (models : List (MDP K L n)) (h : ℕ) :
    Py (List (MDP K L n) × ℕ) :=
  match models[h]? with
  | none => .error .indexError
  | some M => do
    let M' ← train S M
    return (models.set h M', h)

omit [LinearOrder K] [DecidableEq L] in
/-- `self._mergeModels(old_h,lr_it)` on the objects. -/
def mergeObjects (lr : K) (models : List (MDP K L n)) (h old : ℕ) : Py (List (MDP K L n)) :=
  match models[h]?, models[old]? with
  | some M, some M0 => do
    let M' ← mergeModels lr M M0
    return models.set h M'
  | _, _ => .error .indexError

/-- Active_BW_MDP.py:224-244, one round of the loop; `sample` gives the new traces. For `lr="dynamic"` the divisor is the number of
traces before the round. -/
def round [DecidableEq K] (train : TSet L → MDP K L n → Py (MDP K L n)) (sample : MDP K L n → TSet L → Py (TSet L)) (lr : Rate K)
    (W : Learning K L n) : Py (Learning K L n) :=
  match W.models[W.h]? with
  | none => .error .indexError
  | some M => do
    let traces ← sample M W.total
    let total ← W.total.addSet traces
    match lr with
    | .const x =>
      if x = 0 then
        let q ← superFit train total W.models W.h
        return ⟨q.1, q.2, total⟩
      else
        let q ← superFit train traces W.models W.h
        let models ← mergeObjects x q.1 q.2 W.h
        return ⟨models, q.2, total⟩
    | .dynamic =>
      let q ← superFit train traces W.models W.h
      let models ← mergeObjects ((traces.times.sum : K) / ((total.times.sum : K) - (traces.times.sum : K))) q.1 q.2 W.h
      return ⟨models, q.2, total⟩

/-- Active_BW_MDP.py:222-246: the loop; `samples` are the sampling functions of the successive rounds. -/
def rounds [DecidableEq K] (train : TSet L → MDP K L n → Py (MDP K L n)) (lr : Rate K) :
    List (MDP K L n → TSet L → Py (TSet L)) → Learning K L n → Py (Learning K L n)
  | [], W => .ok W
  | sample :: rest, W => do
    let W' ← round train sample lr W
    rounds train lr rest W'

/-- Active_BW_MDP.py:200-246 `fit` with an initial model (at the address `h`) and a `Set`, without Storm: the objects at the end. `train0` is the first
training, whose options are different (`max_it`). Simplification: the traces start with `init`, so that `super().fit` does not change them (BW.py:1458-1459). -/
def fit [DecidableEq K] (train0 train : TSet L → MDP K L n → Py (MDP K L n)) (lr : Rate K)
    (samples : List (MDP K L n → TSet L → Py (TSet L))) (W : Learning K L n) : Py (Learning K L n) := do
  let q ← superFit train0 W.total W.models W.h
  rounds train lr samples ⟨q.1, q.2, W.total⟩

/-- Active_BW_MDP.py:200-203, the beginning of `fit`: the attribute `verbose` exists only after a first call of `fit` has reached BW.py through line 209. The
result is the new value of `stormpy_output`. -/
def start (stormpyInstalled stormpyOutput : Bool) (verbose : Option ℕ) : Py Bool :=
  if stormpyOutput && !stormpyInstalled then
    match verbose with
    | none => .error .attributeError
    | some _ => .ok false
  else .ok stormpyOutput

end Jajapy.Active
