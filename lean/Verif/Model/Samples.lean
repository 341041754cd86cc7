import Verif.Model.Convert
import Verif.Model.Constraint
import Verif.Model.Physical

/-!
# The sample models

Models /repo/sample/model/constraint/n_hot_from_scratch.py, /repo/sample/model/constraint/n_hot_constraint.py and the
models of /repo/sample/solver/_solver_helper.py. Each function works on a new `LogicalModel`; what it prints is not
modelled. Functions that differ only in a number are modelled as one function of that number.
-/

namespace Sawatabi.Samples

/-- `x[i]` and `x[i, j]` for a `pyqubo.Array`. (n_hot_from_scratch.py:40-44, _solver_helper.py:27-40 and the like) -/
def item (x : VArray) (idx : List Nat) : Except Err PVar :=
  match flatIndex x.shape idx with
  | none => .error .indexError
  | some k => match x.bits[k]? with
    | none => .error .indexError
    | some v => .ok v

/-- The target of a call, by the indices into the array: `x[i]` or `(x[i], x[j])`. (n_hot_from_scratch.py:40-44 and the like) -/
inductive Target where
  | one (i : List Nat)
  | two (i j : List Nat)
  deriving DecidableEq, Repr

/-- The first argument of the call. (n_hot_from_scratch.py:40-44 and the like) -/
def Target.arg (x : VArray) : Target → Except Err PyTarget
  | .one i => do return .var (← item x i)
  | .two i j => do return .tuple [some (← item x i), some (← item x j)]

/-- `model.add_interaction(x[i], coefficient=c)` and `model.add_interaction((x[i], x[j]), coefficient=c)`, the other
arguments being the defaults of logical_model.py:126-134. -/
def add (now : ℚ) (x : VArray) (t : Target) (c : ℚ) : Py LModel Unit := do
  let a ← liftE (t.arg x)
  addInteraction now a (.str "") (.num c) (.num 1) .none .none

/-- Such calls one after the other; `clk k` is the time of the `k`th. (n_hot_from_scratch.py:39-44 and the like) -/
def addEach (clk : Nat → ℚ) (x : VArray) (calls : List (Target × ℚ)) : Py LModel Unit :=
  calls.zipIdx.forM fun c => add (clk c.2) x c.1.1 c.1.2

/-! ## n-hot from scratch -/

/-- The pairs of a list, each element with those after it. (n_hot_from_scratch.py:40, 57-59 and the like) -/
def pairs : List Nat → List (Nat × Nat)
  | [] => []
  | i :: l => l.map (fun j => (i, j)) ++ pairs l

/-- The number called `coeff`: `1.0 - 2 * n` for QUBO models (n_hot_from_scratch.py:42, 61, 81, 104, 128) and
`2.0 * (s - 2 * n)` for Ising models (n_hot_from_scratch.py:147, 166, 186, 209, 233). -/
def scratchCoeff (mt : MType) (s n : Nat) : ℚ :=
  match mt with
  | .qubo => 1 - 2 * n
  | .ising => 2 * (s - 2 * n)

/-- The calls of the ten functions: each pair with coefficient -2.0, then each variable with `-coeff`.
(n_hot_from_scratch.py:39-44, 56-64 and the like) -/
def scratchCalls (mt : MType) (s n : Nat) : List (Target × ℚ) :=
  (pairs (List.range s)).map (fun ij => (.two [ij.1] [ij.2], -2)) ++
    (List.range s).map fun i => (.one [i], -scratchCoeff mt s n)

/-- The functions `n_hot_from_scratch_S_of_N_ising` and `n_hot_from_scratch_S_of_N_qubo`
(n_hot_from_scratch.py:34-241) up to the model given to the solver. The source has S of N = 2 of 1, 3 of 1, 3 of 2, 4 of
1 and 4 of 2 for both kinds. -/
def nHotFromScratch (env : Env) (clk : Nat → ℚ) (clks : Nat → Nat → ℚ) (ids : Nat → String) (mt : MType) (s n : Nat) :
    Py LModel Physical := do
  let x ← createVars "x" [s]
  addEach clk x (scratchCalls mt s n)
  toPhysical env clks ids []

/-! ## n-hot with the class -/

/-- `n_hot_s_of_n_ising` and `n_hot_s_of_n_qubo` (n_hot_constraint.py:34-61) on a model of either kind. -/
def nHotConstraint (env : Env) (clks : Nat → Nat → ℚ) (ids : Nat → String) (s n : Int) : Py LModel Physical := do
  let x ← createVars "x" [s]
  let c ← liftE (mkNHot (some (.array x)) n "n-hot" 1)
  addConstraint c
  toPhysical env clks ids []

/-! ## The models for the solver samples -/

/-- `_create_ising_model` (_solver_helper.py:18-50). -/
def isingModel (env : Env) (clk : Nat → ℚ) (clks : Nat → Nat → ℚ) (ids : Nat → String) : Py LModel Physical := do
  let x ← createVars "x" [1, 2]
  addEach clk x [(.one [0, 0], 1), (.two [0, 0] [0, 1], 1)]
  let x ← appendVars "x" [1, 0]
  addEach (fun k => clk (k + 2)) x [(.two [0, 1] [1, 0], -2), (.two [1, 0] [1, 1], 3)]
  let x ← appendVars "x" [1, 0]
  addEach (fun k => clk (k + 4)) x [(.two [1, 1] [2, 0], -4), (.two [2, 0] [2, 1], 5)]
  setOffset (.num 6)
  toPhysical env clks ids []

/-- `_create_qubo_model` (_solver_helper.py:53-73), with `s` variables; `s = 4` in the source. The label is the default of
n_hot_constraint.py:21. -/
def quboModel (env : Env) (clks : Nat → Nat → ℚ) (ids : Nat → String) (s : Nat) : Py LModel Physical := do
  let a ← createVars "a" [s]
  let c ← liftE (mkNHot (some (.array a)) 1 "Default N-hot Constraint" 1)
  addConstraint c
  setOffset (.num 1)
  toPhysical env clks ids []

/-- `_create_simple_ising_model_with_only_1_body` (_solver_helper.py:76-86), with `n` spins; `n = 12` in the source. -/
def oneBody (env : Env) (clk : Nat → ℚ) (clks : Nat → Nat → ℚ) (ids : Nat → String) (n : Nat) : Py LModel Physical := do
  let x ← createVars "x" [n]
  addEach clk x ((List.range n).map fun i => (.one [i], -1))
  toPhysical env clks ids []

/-- `_create_simple_ising_model_with_only_2_body` (_solver_helper.py:89-99), with `n` spins; `n = 12` in the source. -/
def twoBody (env : Env) (clk : Nat → ℚ) (clks : Nat → Nat → ℚ) (ids : Nat → String) (n : Nat) : Py LModel Physical := do
  let x ← createVars "x" [n]
  addEach clk x ((List.range (n - 1)).map fun i => (.two [i] [i + 1], 1))
  toPhysical env clks ids []

/-- `_create_simple_2x2_ising_model_without_active_var` (_solver_helper.py:102-114) on an Ising model with `name = "a"` and
`_create_simple_2x2_qubo_model_without_active_var` (_solver_helper.py:117-129) on a QUBO model with `name = "b"`. -/
def square (env : Env) (clk : Nat → ℚ) (clks : Nat → Nat → ℚ) (ids : Nat → String) (name : String) : Py LModel Physical := do
  let a ← createVars name [2, 2]
  addEach clk a [(.one [0, 1], 2), (.one [1, 0], 2), (.one [1, 1], 2)]
  setOffset (.num 6)
  toPhysical env clks ids []

end Sawatabi.Samples
