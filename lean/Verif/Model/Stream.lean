import Verif.Model.Convert

/-!
# Streaming algorithms

Models /repo/sawatabi/algorithm/abstract_algorithm.py lines 28-35 (indices) and 45-191 (`SolveDoFn.process`). Apache Beam
itself (windowing, state storage, scheduling) is not modelled: a run is a sequence of windows, each with its timestamp
and elements. Timestamps are rationals.
-/

namespace Sawatabi.Stream

/-! ## Indices -/

/-- `IndexAssigningStatefulDoFn.process` (abstract_algorithm.py:31-35); the state is the sum of the ones added. -/
def assignIndex {δ : Type} (value : δ) : Py Nat (List (Nat × δ)) := do
  let current ← get
  modify fun n => n + 1
  return [(current, value)]

/-- The elements of a stream one after the other. (abstract_algorithm.py:229-231) -/
def assignIndices {δ : Type} : List δ → Py Nat (List (Nat × δ))
  | [] => pure []
  | v :: vs => do
    let out ← assignIndex v
    let rest ← assignIndices vs
    return out ++ rest

/-! ## Windows -/

/-- An element as `WithTimestampTupleFn` makes it (abstract_algorithm.py:37-39): `(timestamp, (index, data))`. -/
structure El (δ : Type) where
  ts : ℚ
  idx : Nat
  data : δ
  deriving DecidableEq, Repr

/-- `a <= b` on these tuples. Elements of a stream differ in their index, so the data are never compared in the code; here
they are left out. (abstract_algorithm.py:72, 111, 117) -/
def El.le {δ : Type} (a b : El δ) : Bool := decide (a.ts < b.ts) || (decide (a.ts = b.ts) && decide (a.idx ≤ b.idx))

/-- Puts an element before the first one that is not smaller. (abstract_algorithm.py:72, 111, 117) -/
def insert {δ : Type} (a : El δ) : List (El δ) → List (El δ)
  | [] => [a]
  | b :: l => if El.le a b then a :: b :: l else b :: insert a l

/-- `sorted(elements)`; like Python's sort it is stable. (abstract_algorithm.py:72, 111, 117) -/
def sorted {δ : Type} (l : List (El δ)) : List (El δ) := l.foldr insert []

/-- A window: the timestamp and the elements in their arrival order. (abstract_algorithm.py:51-54, 67) -/
structure Win (δ : Type) where
  ts : ℚ
  elements : List (El δ)
  deriving DecidableEq, Repr

/-- `resolve_outgoing` (abstract_algorithm.py:120-126) -/
def resolveOutgoing {δ : Type} : List (El δ) → List (El δ) → Except Err (List (El δ))
  | [], _ => .ok []
  | _ :: _, [] => .error .indexError
  | p :: ps, c :: cs =>
    if p.ts ≥ c.ts then .ok []
    else do
      let rest ← resolveOutgoing ps (c :: cs)
      return p :: rest

/-- `resolve_incoming` (abstract_algorithm.py:131-140) -/
def resolveIncoming {δ : Type} (prev cur : List (El δ)) : List (El δ) :=
  match prev.getLast? with
  | none => cur
  | some last => (cur.reverse.takeWhile fun v => !decide (v.ts ≤ last.ts)).reverse

/-- A call of a user function with its arguments (recorded for the specification only). (abstract_algorithm.py:153, 178, 189) -/
inductive Call (M S δ : Type) where
  | mapFn (model : M) (sampleset : Option S) (elements incoming outgoing : List (El δ))
  | solveFn (model : M) (sampleset : Option S) (elements incoming outgoing : List (El δ))
  | unmapFn (sampleset : S) (elements incoming outgoing : List (El δ))
  deriving DecidableEq, Repr

/-- The states of the DoFn (abstract_algorithm.py:46-49), each holding at most one value, and the record of calls. -/
structure St (M S δ : Type) where
  ts : Option ℚ
  elements : Option (List (El δ))
  model : Option M
  sampleset : Option S
  calls : List (Call M S δ)
  deriving DecidableEq, Repr

/-- The states at the start. (abstract_algorithm.py:81-96) -/
def St.start {M S δ : Type} : St M S δ := ⟨none, none, none, none, []⟩

/-- The user functions. `map_fn` and `solve_fn` get a model object that they may change, also if they raise; they are
assumed not to change their other arguments. (abstract_algorithm.py:61-63, 153, 178, 189) -/
structure Fns (M S δ β : Type) where
  mapFn : Option S → List (El δ) → List (El δ) → List (El δ) → Py M M
  solveFn : Option S → List (El δ) → List (El δ) → List (El δ) → Py M S
  unmapFn : S → List (El δ) → List (El δ) → List (El δ) → Except Err β

/-- The algorithms; `filter_fn` may raise. The step of attenuation is `attenuate` below. (abstract_algorithm.py:107-117, 165) -/
inductive Algorithm (M δ : Type) where
  | window
  | delta
  | incremental
  | «partial» (filterFn : El δ → Except Err Bool)
  | attenuation (step : Py M Unit)

/-- What is yielded. (abstract_algorithm.py:101-104, 155, 180, 189-191) -/
inductive Output (β : Type) where
  | outdated
  | failedMap (e : Err)
  | failedSolve (e : Err)
  | failedUnmap (e : Err)
  | result (b : β)
  deriving DecidableEq, Repr

/-- `filter(filter_fn, prev_elements)` (abstract_algorithm.py:115) -/
def filterE {δ : Type} (f : El δ → Except Err Bool) : List (El δ) → Except Err (List (El δ))
  | [] => .ok []
  | a :: l => do
    let b ← f a
    let rest ← filterE f l
    return if b then a :: rest else rest

/-- The elements of this iteration (abstract_algorithm.py:107-117). -/
def currentElements {M δ : Type} (alg : Algorithm M δ) (prev cur : List (El δ)) : Except Err (List (El δ)) :=
  match alg with
  | .incremental => .ok (sorted (cur ++ prev))
  | .«partial» f => do
    let kept ← filterE f prev
    return sorted (kept ++ cur)
  | _ => .ok cur

section
variable {M S δ β : Type}

/-- abstract_algorithm.py:188-191. -/
def unmapStage (f : Fns M S δ β) (s : S) (els inc out : List (El δ)) : Py (St M S δ) (List (Output β)) := do
  modify fun st => { st with calls := st.calls ++ [.unmapFn s els inc out] }
  match f.unmapFn s els inc out with
  | .ok b => return [.result b]
  | .error e => return [.failedUnmap e]

/-- abstract_algorithm.py:176-191. The model is the object in the state, so its changes by `solve_fn` are kept. -/
def solveStage (f : Fns M S δ β) (prevS : Option S) (model : M) (els inc out : List (El δ)) :
    Py (St M S δ) (List (Output β)) := do
  modify fun st => { st with calls := st.calls ++ [.solveFn model prevS els inc out] }
  match (f.solveFn prevS els inc out).run model with
  | .error e model' =>
    modify fun st => { st with model := some model' }
    return [.failedSolve e]
  | .ok s model' =>
    modify fun st => { st with model := some model', sampleset := some s }
    unmapStage f s els inc out

/-- abstract_algorithm.py:163-174: the object in the state is changed, and an exception is not caught. -/
def attenuationStage (alg : Algorithm M δ) (model : M) : Py (St M S δ) M :=
  match alg with
  | .attenuation step =>
    match step.run model with
    | .error e model' => do
      modify fun st => { st with model := some model' }
      throw e
    | .ok _ model' => do
      modify fun st => { st with model := some model' }
      return model'
  | _ => return model

/-- `SolveDoFn.process` (abstract_algorithm.py:51-191): the list of what is yielded. `initial` is the new model of line 90. `shared` says
whether the model read from the state is the object in the state (Beam: same bundle) or a copy (pickled). -/
def process (alg : Algorithm M δ) (f : Fns M S δ β) (initial : M) (shared : Bool) (w : Win δ) :
    Py (St M S δ) (List (Output β)) := do
  let st ← get
  if w.ts < st.ts.getD (-1) then return [.outdated]
  let prev := st.elements.getD []
  let els ← liftE (currentElements alg prev (sorted w.elements))
  let out ← liftE (resolveOutgoing prev els)
  let inc := resolveIncoming prev els
  modify fun st => { st with ts := some w.ts, elements := some els }
  let prevModel := st.model.getD initial
  modify fun st => { st with calls := st.calls ++ [.mapFn prevModel st.sampleset els inc out] }
  match (f.mapFn st.sampleset els inc out).run prevModel with
  | .error e changed =>
    modify fun st => { st with model := if shared then st.model.map fun _ => changed else st.model }
    return [.failedMap e]
  | .ok model _ =>
    modify fun st => { st with model := some model }
    let model ← attenuationStage alg model
    solveStage f st.sampleset model els inc out

/-- A sequence of windows. (abstract_algorithm.py:250-261) -/
def processAll (alg : Algorithm M δ) (f : Fns M S δ β) (initial : M) : List (Bool × Win δ) → Py (St M S δ) (List (List (Output β)))
  | [] => pure []
  | w :: ws => do
    let o ← process alg f initial w.1 w.2
    let os ← processAll alg f initial ws
    return o :: os

end

/-! ## Attenuation -/

/-- `a < b` on attribute values; comparisons with NaN are false, those of a number and a string raise. (abstract_algorithm.py:168-171) -/
def pyLt : PyVal → PyVal → Except Err Bool
  | .num a, .num b => .ok (decide (a < b))
  | .str a, .str b => .ok (decide (a < b))
  | .nan, .nan => .ok false
  | .nan, .num _ => .ok false
  | .num _, .nan => .ok false
  | _, _ => .error .typeError

/-- `min(l)`: keeps the first of the smallest so far. (abstract_algorithm.py:168) -/
def pyMin : List PyVal → Except Err PyVal
  | [] => .error .valueError
  | a :: l => l.foldlM (fun m x => do return if ← pyLt x m then x else m) a

/-- `max(l)` (abstract_algorithm.py:169) -/
def pyMax : List PyVal → Except Err PyVal
  | [] => .error .valueError
  | a :: l => l.foldlM (fun m x => do return if ← pyLt m x then x else m) a

/-- A scale that is NaN. The model has no such number; an expression that cannot be evaluated stands for it. (abstract_algorithm.py:173) -/
def nanScale : Coef := .expr (.ph "nan")

/-- abstract_algorithm.py:173. `min_ts < max_ts` has been checked, so the bounds are both numbers or both strings; strings cannot be
subtracted. -/
def newScale (minScale : ℚ) (lo hi t : PyVal) : Except Err Coef :=
  match lo, hi, t with
  | .num lo, .num hi, .num t => .ok (.num ((1 - minScale) / (hi - lo) * (t - lo) + minScale))
  | .num _, .num _, .nan => .ok nanScale
  | _, _, _ => .error .typeError

/-- `model._interactions_array["scale"][i] = ...` for one index (abstract_algorithm.py:173-174) -/
def attenuateOne (minScale : ℚ) (lo hi : PyVal) (p : PyVal × Nat) : Py LModel Unit := do
  let c ← liftE (newScale minScale lo hi p.1)
  let m ← get
  if p.2 < m.rows.length then set { m with rows := m.rows.modify p.2 fun r => { r with scale := c } }
  else throw .indexError

/-- The attenuation step (abstract_algorithm.py:163-174), for a key that is an attribute column (`attributes.…`); the default columns as
keys are not modelled. Placeholders are not given to `to_physical`, as in the code. -/
def attenuate (env : Env) (clks : Nat → Nat → ℚ) (ids : Nat → String) (key : String) (minScale : ℚ) : Py LModel Unit := do
  let _ ← toPhysical env clks ids []
  let m ← get
  match dget m.attrCols key with
  | none => throw .keyError
  | some ref =>
    let lo ← liftE (pyMin ref)
    let hi ← liftE (pyMax ref)
    if ← liftE (pyLt lo hi) then
      ref.zipIdx.forM (attenuateOne minScale lo hi)

end Sawatabi.Stream
