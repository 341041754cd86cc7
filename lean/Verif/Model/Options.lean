import Verif.Model.Pipeline

/-!
# Options of the pipelines

Models how `create_pipeline` (window.py, delta.py, incremental.py, partial.py, attenuation.py, lines 23-37 each) and
`_create_pipeline` (abstract_algorithm.py:193-284) read the options and check their arguments, and where `SolveDoFn.process` reads
the others (lines 114, 167, 170). Sizes and periods are numbers.
-/

namespace Sawatabi.Pipeline

open Stream

/-- The algorithms (constants.py:32-37). -/
inductive Kind where
  | window | delta | incremental | «partial» | attenuation
  deriving DecidableEq, Repr

/-- The entries of `algorithm_options` that the algorithms read; `none` if there is no such entry.
(create_pipeline of window.py, delta.py, incremental.py, partial.py, attenuation.py, line 25 each; abstract_algorithm.py:114, 167, 170, 233, 267-276) -/
structure AlgOptions (δ : Type) where
  windowSize : Option ℚ := none
  windowPeriod : Option ℚ := none
  incrementalSize : Option ℚ := none
  filterFn : Option (El δ → Except Err Bool) := none
  attenuationKey : Option String := none
  minScale : Option ℚ := none

/-- The argument `initial_mtype`: a string or something else. (abstract_algorithm.py:205, 210) -/
inductive TypeArg where
  | str (s : String)
  | other
  deriving DecidableEq, Repr

/-- `algorithm_options[key]`
(create_pipeline of window.py, delta.py, incremental.py, partial.py, attenuation.py, line 25 each; abstract_algorithm.py:114, 167, 170) -/
def option {α : Type} : Option α → Except Err α
  | none => .error .keyError
  | some a => .ok a

/-- `SlidingWindows(size, period)` (library): the size must be positive. What Beam does with a period that is not positive is not
modelled. (window.py:25, partial.py:25, attenuation.py:25) -/
def slidingWindows (size period : ℚ) : Except Err Windowing :=
  if size ≤ 0 then .error .valueError else .ok (.sliding size period)

/-- `FixedWindows(size)` (library): the size must be positive. (delta.py:25, incremental.py:25) -/
def fixedWindows (size : ℚ) : Except Err Windowing := if size ≤ 0 then .error .valueError else .ok (.fixed size)

/-- The windows of `create_pipeline` (line 25 of window.py, delta.py, incremental.py, partial.py, attenuation.py). -/
def windowInto {δ : Type} (k : Kind) (o : AlgOptions δ) : Except Err Windowing :=
  match k with
  | .window | .«partial» | .attenuation => do
    let size ← option o.windowSize
    let period ← option o.windowPeriod
    slidingWindows size period
  | .delta => do
    let size ← option o.windowSize
    fixedWindows size
  | .incremental => do
    let size ← option o.incrementalSize
    fixedWindows size

/-- The check of `initial_mtype` (abstract_algorithm.py:210-213). -/
def checkInitialType : TypeArg → Except Err MType
  | .other => .error .typeError
  | .str s => if s = "ising" then .ok .ising else if s = "qubo" then .ok .qubo else .error .valueError

/-- `create_pipeline`: the windows are made before `_create_pipeline` is called.
(create_pipeline of window.py, delta.py, incremental.py, partial.py, attenuation.py, lines 23-36 each) -/
def createPipeline {δ : Type} (k : Kind) (o : AlgOptions δ) (t : TypeArg) : Except Err (Windowing × MType) := do
  let wi ← windowInto k o
  let mt ← checkInitialType t
  return (wi, mt)

/-- The attenuation step (abstract_algorithm.py:163-174) with the options that it reads: the key after `to_physical`, the minimum
scale after minimum and maximum of the column. -/
def attenuateWith (env : Env) (clks : Nat → Nat → ℚ) (ids : Nat → String) (key : Option String) (minScale : Option ℚ) :
    Py LModel Unit := do
  let _ ← toPhysical env clks ids []
  let key ← liftE (option key)
  let m ← get
  match dget m.attrCols key with
  | none => throw .keyError
  | some ref =>
    let lo ← liftE (pyMin ref)
    let hi ← liftE (pyMax ref)
    let minScale ← liftE (option minScale)
    if ← liftE (pyLt lo hi) then
      ref.zipIdx.forM (attenuateOne minScale lo hi)

/-- `SolveDoFn.process` (abstract_algorithm.py:51-191) with its options; `filter_fn` is read at line 113, after the check for outdated
windows and before anything is written. -/
def processWith {S δ β : Type} (env : Env) (clks : Nat → Nat → ℚ) (ids : Nat → String) (k : Kind) (o : AlgOptions δ)
    (f : Fns LModel S δ β) (initial : LModel) (shared : Bool) (w : Win δ) : Py (St LModel S δ) (List (Output β)) :=
  match k with
  | .window => process .window f initial shared w
  | .delta => process .delta f initial shared w
  | .incremental => process .incremental f initial shared w
  | .«partial» =>
    match o.filterFn with
    | some g => process (.«partial» g) f initial shared w
    | none => do
      let st ← get
      if w.ts < st.ts.getD (-1) then return [.outdated]
      throw .keyError
  | .attenuation => process (.attenuation (attenuateWith env clks ids o.attenuationKey o.minScale)) f initial shared w

end Sawatabi.Pipeline
