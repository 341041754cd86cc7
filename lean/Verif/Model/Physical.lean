import Verif.Model.Convert

/-!
# `PhysicalModel`: conversions to BQM and polynomial

Models /repo/sawatabi/model/physical_model.py.
-/

namespace Sawatabi

/-- `dimod.BinaryQuadraticModel(linear, quadratic, offset, vartype)` as passed by the code. (physical_model.py:70) -/
structure Bqm where
  vartype : VType
  linear : List (String × ℚ)
  quad : List ((String × String) × ℚ)
  offset : ℚ
  deriving DecidableEq, Repr

/-- `to_bqm(sign)` (physical_model.py:56-72). -/
def Physical.toBqm (sign : ℚ) (p : Physical) : Bqm where
  vartype := p.mtype.vtype
  linear := p.linear.map fun kv => (kv.1, sign * kv.2)
  quad := p.quad.map fun kv => (kv.1, sign * kv.2)
  offset := p.offset

/-- `self._label_to_index[k]` (physical_model.py:83, 86) -/
def Physical.index (p : Physical) (k : String) : Except Err Nat :=
  match dget p.labelToIndex k with
  | some i => .ok i
  | none => .error .keyError

/-- `to_polynomial` (physical_model.py:74-89). -/
def Physical.toPolynomial (p : Physical) : Except Err (List (Nat × Nat × ℚ)) := do
  let l ← p.linear.mapM fun kv => do
    let i ← p.index kv.1
    return (i, i, -1 * kv.2)
  let q ← p.quad.mapM fun kv => do
    let i ← p.index kv.1.1
    let j ← p.index kv.1.2
    return (i, j, -1 * kv.2)
  return l ++ q

/-- The emptiness test of the solvers (local_solver.py:40, optigan_solver.py:50,
dwave_solver.py:48, sawatabi_solver.py:52). -/
def Physical.isEmptyModel (p : Physical) : Bool := p.linear.isEmpty && p.quad.isEmpty

end Sawatabi
