import Verif.Model.Stream

/-!
# Attenuation by a default column

Models /repo/sawatabi/algorithm/abstract_algorithm.py lines 163-174 for keys that are default columns of the interaction table
(`coefficient`, `scale`, `timestamp`, `dirty`, `removed`, `name`). `Verif/Model/Stream.lean` has the step for attribute columns. The
columns with the variables (`body`, `key`, `key_0`, `key_1`, `interacts`) are left out as keys.
-/

namespace Sawatabi.Stream

/-- A coefficient or scale as a value to compare; `none` stands for an object that has no `<` (a PyQUBO expression). NaN is left
out: there is no such number in the model, and its stand-in `nanScale` makes `to_physical` raise before. (abstract_algorithm.py:168-171) -/
def coefVal : Coef → Option PyVal
  | .num q => some (.num q)
  | .expr _ => none

/-- `model._interactions_array[key]`, line by line, for the default columns named above (abstract_algorithm.py:167). `True` and `False` count as 1 and 0;
`none` stands for an object that has no `<` (an expression, or `None` as a timestamp). -/
def defaultColumn (key : String) : Option (Row → Option PyVal) :=
  if key = "coefficient" then some fun r => coefVal r.coef
  else if key = "scale" then some fun r => coefVal r.scale
  else if key = "timestamp" then some fun r => r.timestamp.map .num
  else if key = "dirty" then some fun r => some (.num (if r.dirty then 1 else 0))
  else if key = "removed" then some fun r => some (.num (if r.removed then 1 else 0))
  else if key = "name" then some fun r => some (.str r.name)
  else none

/-- `a < b` for entries of such a column (abstract_algorithm.py:168-171) -/
def refLt : Option PyVal → Option PyVal → Except Err Bool
  | some a, some b => pyLt a b
  | _, _ => .error .typeError

/-- `min(ref_timestamp)` (abstract_algorithm.py:168) -/
def refMin : List (Option PyVal) → Except Err (Option PyVal)
  | [] => .error .valueError
  | a :: l => l.foldlM (fun m x => do return if ← refLt x m then x else m) a

/-- `max(ref_timestamp)` (abstract_algorithm.py:169) -/
def refMax : List (Option PyVal) → Except Err (Option PyVal)
  | [] => .error .valueError
  | a :: l => l.foldlM (fun m x => do return if ← refLt m x then x else m) a

/-- One round of the loop (abstract_algorithm.py:172-174). The entry is read when its turn comes: with the key `scale` the loop writes to the list it
reads. -/
def attenuateRow (col : Row → Option PyVal) (minScale : ℚ) (lo hi : Option PyVal) (i : Nat) : Py LModel Unit := do
  let m ← get
  match m.rows[i]? with
  | none => throw .indexError
  | some r =>
    match lo, hi, col r with
    | some lo, some hi, some t =>
      let c ← liftE (newScale minScale lo hi t)
      set { m with rows := m.rows.modify i fun r => { r with scale := c } }
    | _, _, _ => throw .typeError

/-- The attenuation step (abstract_algorithm.py:163-174) for a default column. -/
def attenuateDefault (env : Env) (clks : Nat → Nat → ℚ) (ids : Nat → String) (col : Row → Option PyVal) (minScale : ℚ) :
    Py LModel Unit := do
  let _ ← toPhysical env clks ids []
  let m ← get
  let lo ← liftE (refMin (m.rows.map col))
  let hi ← liftE (refMax (m.rows.map col))
  if ← liftE (refLt lo hi) then
    (List.range m.rows.length).forM (attenuateRow col minScale lo hi)

/-- The attenuation step (abstract_algorithm.py:163-174) for the key of the options: a default column, or an attribute column. -/
def attenuateKey (env : Env) (clks : Nat → Nat → ℚ) (ids : Nat → String) (key : String) (minScale : ℚ) : Py LModel Unit :=
  match defaultColumn key with
  | some col => attenuateDefault env clks ids col minScale
  | none => attenuate env clks ids key minScale

end Sawatabi.Stream
