import Verif.Model.NppStream

/-!
# The travelling salesperson application

Models /repo/sample/algorithm/tsp_window.py lines 28-172: the functions that the sample application gives to the window
algorithm.
-/

namespace Sawatabi.Tsp

open Stream

/-- The data of an element, a dictionary with one entry: the name of a city and its coordinates (of a type `κ`). (tsp_window.py:93, 141) -/
structure City (κ : Type) where
  name : String
  place : κ
  deriving DecidableEq, Repr

/-- PyQUBO expressions as the application builds them. (tsp_window.py:83-103) -/
inductive HExpr where
  | num (q : ℚ)
  | var (v : PVar)
  | ph (n : String)
  | add (a b : HExpr)
  | mul (a b : HExpr)
  | constraint (e : HExpr) (label : String)
  deriving DecidableEq, Repr

/-- `x[i, j]` for a `pyqubo.Array` with two dimensions. (tsp_window.py:85, 90, 100) -/
def item2 (x : VArray) (i j : Nat) : Except Err PVar :=
  match flatIndex x.shape [i, j] with
  | none => .error .indexError
  | some k => match x.bits[k]? with
    | none => .error .indexError
    | some v => .ok v

/-- `pyqubo.Sum(0, n, fun)` (library): the sum of `fun(k)` for `k` from 0 to `n - 1`. (tsp_window.py:85, 90) -/
def sumExpr (n : Nat) (f : Nat → Except Err HExpr) : Except Err HExpr :=
  (List.range n).foldlM (fun acc k => do return .add acc (← f k)) (.num 0)

/-- `pyqubo.Constraint((Sum - 1) ** 2, label=...)` (tsp_window.py:85 and 90). -/
def oneHot (s : HExpr) (label : String) : HExpr :=
  .constraint (.mul (.add s (.num (-1))) (.add s (.num (-1)))) label

/-- The terms of the loop of tsp_window.py:82-85: at each time one city. -/
def timeConst (n : Nat) (x : VArray) : Except Err HExpr :=
  (List.range n).foldlM (fun acc i => do
    let s ← sumExpr n fun j => do return .var (← item2 x i j)
    return .add acc (oneHot s ("time" ++ Nat.repr i))) (.num 0)

/-- The terms of the loop of tsp_window.py:87-90: each city at one time. -/
def cityConst (n : Nat) (x : VArray) : Except Err HExpr :=
  (List.range n).foldlM (fun acc j => do
    let s ← sumExpr n fun i => do return .var (← item2 x i j)
    return .add acc (oneHot s ("city" ++ Nat.repr j))) (.num 0)

/-- The coordinates of a city by index (tsp_window.py:93 and 99). -/
def placeAt {κ : Type} (els : List (El (City κ))) (i : Nat) : Except Err κ :=
  match els[i]? with
  | some e => .ok e.data.place
  | none => .error .indexError

/-- The terms of the loop of tsp_window.py:92-100. `dist` is `geodesic(...).km / 100`, an arbitrary function here. -/
def travel {κ : Type} (dist : κ → κ → ℚ) (els : List (El (City κ))) (x : VArray) : Except Err HExpr :=
  let n := els.length
  (List.range n).foldlM (fun acc i =>
    (List.range n).foldlM (fun acc j =>
      (List.range n).foldlM (fun acc k => do
        let a ← placeAt els i
        let b ← placeAt els j
        let v ← item2 x k i
        let w ← item2 x ((k + 1) % n) j
        return .add acc (.mul (.mul (.num (dist a b)) (.var v)) (.var w))) acc) acc) (.num 0)

/-- The Hamiltonian (tsp_window.py:82-103). -/
def hamiltonian {κ : Type} (dist : κ → κ → ℚ) (els : List (El (City κ))) (x : VArray) : Except Err HExpr := do
  let t ← timeConst els.length x
  let c ← cityConst els.length x
  let d ← travel dist els x
  return .add (.add d (.mul (.ph "time") t)) (.mul (.ph "city") c)

/-- A method of another object: its changes are kept in the result, the own object is not changed. (tsp_window.py:69, 78, 106) -/
def onNew {σ τ α : Type} (t : τ) (x : Py τ α) : Py σ (α × τ) :=
  match x.run t with
  | .ok a t' => pure (a, t')
  | .error e _ => throw e

/-- `tsp_mapping` (tsp_window.py:28-109). `compile` is `expression.compile()` of PyQUBO; `newId` is the id of the new
model; one clock value stands for all interactions added. -/
def mapping {κ S : Type} (dist : κ → κ → ℚ) (compile : HExpr → PModel) (newId : String) (now : ℚ) (_prev : Option S)
    (els _inc _out : List (El (City κ))) : Py LModel LModel := do
  let m ← get
  let model := m.empty newId
  if els.length > 0 then
    let (x, model) ← onNew model (appendVars "city" [(els.length : Int), (els.length : Int)])
    let h ← liftE (hamiltonian dist els x)
    let (_, s) ← onNew (model, compile h) (fromPyqubo now)
    return s.1
  else return model

/-- The placeholder values (tsp_window.py:166). -/
def weights : List (String × ℚ) := [("time", 35 / 2), ("city", 15)]

/-- `tsp_solving` (tsp_window.py:147-172); `solver` is `solver.solve` with the options of the application. -/
def solving {κ S : Type} (env : Env) (clks : Nat → Nat → ℚ) (ids : Nat → String) (solver : Physical → Except Err S)
    (_prev : Option S) (_els _inc _out : List (El (City κ))) : Py LModel S := do
  let p ← toPhysical env clks ids weights
  liftE (solver p)

/-- The inner loop of `tsp_unmapping` (tsp_window.py:139-142), which stops at the first city found; `j` counts the cities. -/
def cityAt {κ : Type} (solution : Sample) (i : Nat) : List (El (City κ)) → Nat → Except Err (List String)
  | [], _ => .ok []
  | e :: es, j =>
    match dget solution ("city[" ++ Nat.repr i ++ "][" ++ Nat.repr j ++ "]") with
    | none => .error .keyError
    | some s => if s = 1 then .ok [e.data.name] else cityAt solution i es (j + 1)

/-- `tsp_unmapping` (tsp_window.py:112-144): the cities in the order of the visits. The text around them is in
Model/TspText.lean. -/
def unmapping {κ : Type} (samples : List (Sample × ℚ)) (els _inc _out : List (El (City κ))) : Except Err (List String) := do
  let solution ← NppStream.best samples
  (List.range els.length).foldlM (fun order i => do return order ++ (← cityAt solution i els 0)) []

/-- The functions of the application. (tsp_window.py:28-172) -/
def fns {κ : Type} (dist : κ → κ → ℚ) (compile : HExpr → PModel) (newId : String) (now : ℚ) (env : Env)
    (clks : Nat → Nat → ℚ) (ids : Nat → String) (solver : Physical → Except Err (List (Sample × ℚ))) :
    Fns LModel (List (Sample × ℚ)) (City κ) (List String) where
  mapFn := mapping dist compile newId now
  solveFn := solving env clks ids solver
  unmapFn := unmapping

end Sawatabi.Tsp
