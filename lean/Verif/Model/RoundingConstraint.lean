import Verif.Model.RoundingPhysical

/-!
# Constraints in floating point

Models /repo/sawatabi/model/constraint/*.py (`to_model`) and logical_model.py:498-610 once more, with the rounding of floats:
the coefficients that constraints compute are rounded, and so is all arithmetic of `to_physical` (Model/RoundingPhysical.lean).
The conversion of the models of constraints to Ising, which happens for Ising models only, is left exact here. Overflow and
NaN are not modelled.
-/

namespace Sawatabi

/-- The pair loop shared by the constraints (n_hot_constraint.py:61-64, zero_or_one_hot_constraint.py:56-59,
equality_constraint.py:71-80): `-2.0 * self._strength` is rounded. -/
def addPairsFromR (round : ℚ → ℚ) (now : ℚ) (label : String) (strength : ℚ) (vars : List PVar) (v : PVar) : Py LModel Unit :=
  vars.forM fun w => do
    if v.label < w.label then addPair now label v w (round (-2 * strength))

/-- `NHotConstraint.to_model` (n_hot_constraint.py:53-66). The coefficient is `(-1.0 * strength) * (1 - 2 * n)`, with an exact
integer at the end; the first product only changes the sign, so there is one rounding. -/
def nHotBodyR (round : ℚ → ℚ) (now : ℚ) (label : String) (strength : ℚ) (vars : List PVar) (n : Nat) : Py LModel Unit :=
  vars.forM fun v => do
    addLin now label v (round (-1 * strength * (1 - 2 * n)))
    addPairsFromR round now label strength vars v

/-- `ZeroOrOneHotConstraint.to_model` (zero_or_one_hot_constraint.py:50-61). -/
def zeroOrOneHotBodyR (round : ℚ → ℚ) (now : ℚ) (label : String) (strength : ℚ) (vars : List PVar) : Py LModel Unit :=
  vars.forM fun v => addPairsFromR round now label strength vars v

/-- `EqualityConstraint.to_model` (equality_constraint.py:63-86). -/
def equalityBodyR (round : ℚ → ℚ) (now : ℚ) (label : String) (strength : ℚ) (union vars1 vars2 : List PVar) :
    Py LModel Unit := do
  union.forM fun v => addLin now label v (round (-1 * strength))
  vars1.forM fun v => addPairsFromR round now label strength vars1 v
  vars2.forM fun v => addPairsFromR round now label strength vars2 v
  vars1.forM fun v => vars2.forM fun w => addPair now label v w (round (2 * strength))

/-- The body of `constraint.to_model()` (the three files above).
(n_hot_constraint.py:53-66, zero_or_one_hot_constraint.py:50-61, equality_constraint.py:63-86) -/
def Constraint.bodyR (round : ℚ → ℚ) (now : ℚ) : Constraint → Py LModel Unit
  | .nHot l s vs n => nHotBodyR round now l s vs n
  | .zeroOrOneHot l s vs => zeroOrOneHotBodyR round now l s vs
  | .equality l s v1 v2 => equalityBodyR round now l s (sunion v1 v2) v1 v2

/-- `constraint.to_model()` as a value: the new model, or the exception.
(n_hot_constraint.py:53-66, zero_or_one_hot_constraint.py:50-61, equality_constraint.py:63-86) -/
def Constraint.toModelR (round : ℚ → ℚ) (now : ℚ) (id : String) (c : Constraint) : Except Err LModel :=
  match (c.bodyR round now).run (LModel.new .qubo id) with
  | .ok _ m => .ok m
  | .error e _ => .error e

/-- Merging the model of the `i`-th constraint (logical_model.py:517-519). -/
def mergeConstraintR (round : ℚ → ℚ) (env : Env) (clks : Nat → Nat → ℚ) (ids : Nat → String)
    (p : (String × Constraint) × Nat) : Py LModel Unit := do
  let cm ← liftE (p.1.2.toModelR round (clks p.2 0) (ids p.2))
  ⟨fun s => match (merge env (clks p.2)).run (s, cm) with
    | .ok _ t => .ok () t.1
    | .error e t => .error e t.1⟩

/-- `to_physical` (logical_model.py:498-610). The offsets of the models of constraints are zero for QUBO models, so adding
them is exact. -/
def toPhysicalRC (round : ℚ → ℚ) (env : Env) (clks : Nat → Nat → ℚ) (ids : Nat → String) (ph : List (String × ℚ)) :
    Py LModel Physical := do
  let orig ← get
  orig.constraints.zipIdx.forM (mergeConstraintR round env clks ids)
  let m ← get
  let g ← liftE (groupR round ph m)
  let off ← liftE (m.offset.toExpr.resolveR round ph)
  let p := buildPhysical m g off
  modify fun m => { m with offset := orig.offset, deleted := orig.deleted, fixed := orig.fixed,
                           rows := orig.rows, attrCols := orig.attrCols, attrs := orig.attrs,
                           length := orig.length }
  g.willRemove.forM popRow
  modify fun m => { m with rows := (m.rows.take m.length.toNat).map (fun r => { r with dirty := false })
                                    ++ m.rows.drop m.length.toNat }
  return p

end Sawatabi
