import Verif.Model.Tsp
import Verif.Model.Output

/-!
# The text of the travelling salesperson sample

Models the text that /repo/sample/algorithm/tsp_window.py lines 112-144 makes.
-/

namespace Sawatabi.Tsp

open Stream Text

/-- The text (tsp_window.py:132, 144); `dicts` is what `str` makes of the list of the elements' data. -/
def tourText (dicts : List Char) (order : List (List Char)) : List Char :=
  join ['\n'] [[], chars "INPUT -->", chars "  " ++ dicts, chars "SOLUTION ==>"] ++ chars "\n  " ++ join (chars " -> ") order

/-- `tsp_unmapping` with its text (tsp_window.py:112-144). `showData` is `str` for a list of dictionaries. -/
def unmappingText {κ : Type} (showData : List (City κ) → List Char) (samples : List (Sample × ℚ)) (els inc out : List (El (City κ))) :
    Except Err (List Char) := do
  let order ← unmapping samples els inc out
  return tourText (showData (els.map (·.data))) (order.map String.toList)

/-- The functions of the application with the text of its answers (tsp_window.py:28-172): `unmap_fn` is `tsp_unmapping` with its
text. -/
def textFns {κ : Type} (showData : List (City κ) → List Char) (dist : κ → κ → ℚ) (compile : HExpr → PModel) (newId : String)
    (now : ℚ) (env : Env) (clks : Nat → Nat → ℚ) (ids : Nat → String) (solver : Physical → Except Err (List (Sample × ℚ))) :
    Fns LModel (List (Sample × ℚ)) (City κ) (List Char) where
  mapFn := mapping dist compile newId now
  solveFn := solving env clks ids solver
  unmapFn := unmappingText showData

end Sawatabi.Tsp
