import Verif.Model.Convert

/-!
# `to_physical` in floating point

Models /repo/sawatabi/model/logical_model.py:498-610 once more, with the rounding of floats (as Model/Rounding.lean does for
the annealing). The arithmetic of constraints (`to_model`, the conversion of its result and the sum of the offsets) is left
exact here. Overflow and NaN are not modelled.
-/

namespace Sawatabi

/-- Value of an expression under a placeholder dictionary, as `PExpr.resolve`, with the result of every operation rounded
(logical_model.py:530-537). PyQUBO multiplies out the expression first; here the operations are done in the order in which
they are written. -/
def PExpr.resolveR (round : ℚ → ℚ) (ph : List (String × ℚ)) : PExpr → Except Err ℚ
  | .num q => .ok q
  | .ph n => match dget ph n with
    | some q => .ok q
    | none => .error .placeholderError
  | .add a b => do
    let x ← a.resolveR round ph
    let y ← b.resolveR round ph
    return round (x + y)
  | .mul a b => do
    let x ← a.resolveR round ph
    let y ← b.resolveR round ph
    return round (x * y)

/-- `d[k] += v`, or `d[k] = v` if absent (logical_model.py:541-550): the sum is rounded. -/
def daddR {κ : Type} [DecidableEq κ] (round : ℚ → ℚ) (d : List (κ × ℚ)) (k : κ) (v : ℚ) : List (κ × ℚ) :=
  match dget d k with
  | some q => dset d k (round (q + v))
  | none => dset d k v

/-- One round of the grouping loop (logical_model.py:522-550): `coeff_i * scale_i` and the sums are rounded. -/
def groupStepR (round : ℚ → ℚ) (ph : List (String × ℚ)) (g : Groups) (r : Row) : Except Err Groups := do
  if r.removed then
    return { g with willRemove := g.willRemove ++ [r.name] }
  else
    let c ← (PExpr.mul r.coef.toExpr r.scale.toExpr).resolveR round ph
    match r.inter with
    | .lin v => return { g with linear := daddR round g.linear v.label c }
    | .quad v w => return { g with quad := daddR round g.quad (v.label, w.label) c }

/-- The grouping loop over `range(self._interactions_length)` (logical_model.py:521-550). -/
def groupR (round : ℚ → ℚ) (ph : List (String × ℚ)) (m : LModel) : Except Err Groups := do
  let g ← (m.rows.take m.length.toNat).foldlM (groupStepR round ph) ⟨[], [], []⟩
  if (m.rows.length : Int) < m.length then throw .indexError
  return g

/-- `to_physical` (logical_model.py:498-610). Entries that are zero after rounding are left out (lines 562-570). -/
def toPhysicalR (round : ℚ → ℚ) (env : Env) (clks : Nat → Nat → ℚ) (ids : Nat → String) (ph : List (String × ℚ)) :
    Py LModel Physical := do
  let orig ← get
  orig.constraints.zipIdx.forM (mergeConstraint env clks ids)
  let m ← get
  let g ← liftE (groupR round ph m)
  let off ← liftE (m.offset.toExpr.resolveR round ph)
  let p := buildPhysical m g off
  modify fun m => { m with offset := orig.offset, deleted := orig.deleted, fixed := orig.fixed,
                           rows := orig.rows, attrCols := orig.attrCols, attrs := orig.attrs,
                           length := orig.length }
  g.willRemove.forM popRow
  modify fun m => { m with rows := (m.rows.take m.length.toNat).map (fun r => { r with dirty := false })
                                    ++ m.rows.drop m.length.toNat }
  return p

end Sawatabi
