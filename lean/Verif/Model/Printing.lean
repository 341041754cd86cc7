import Verif.Model.Output
import Verif.Model.Core

/-!
# Printing models, checking types, reading clocks

Models the helpers of base_mixin.py:23-70 and abstract_model.py:40-47, `__str__` and `__repr__` of the models
(logical_model.py:886-922, physical_model.py:108-128) and utils/time.py:18-47.
-/

namespace Sawatabi.Text

/-! ## Helpers -/

/-- `text.split("\n")` (abstract_model.py:41, 46) -/
def lines (t : List Char) : List (List Char) := t.splitOn '\n'

/-- `append_prefix` (abstract_model.py:45-47): `" " * length` is empty for a negative length. -/
def appendPrefix (t : List Char) (length : Int) : List Char :=
  join ['\n'] ((lines t).map fun l => ['┃'] ++ List.replicate length.toNat ' ' ++ l)

/-- `str.isspace` for the characters of Latin-1. Other Unicode spaces are left out. (abstract_model.py:42) -/
def isSpace (c : Char) : Bool := c.toNat ∈ [9, 10, 11, 12, 13, 28, 29, 30, 31, 32, 133, 160]

/-- `remove_leading_spaces` (abstract_model.py:40-42). -/
def removeLeadingSpaces (t : List Char) : List Char := join [' '] ((lines t).map fun l => l.dropWhile isSpace)

/-! ## Models -/

/-- How Python, pandas and pprint write things. (logical_model.py:886-922, physical_model.py:108-128) -/
structure Printer where
  keys : List String → List Char
  array : VArray → List Char
  arrays : List (String × VArray) → List Char
  table : LModel → List Char
  json : LModel → List Char
  coef : Coef → List Char
  num : ℚ → List Char
  constraints : List (String × Constraint) → List Char
  pretty : List (String × Constraint) → List Char
  linear : List (String × ℚ) → List Char
  quad : List ((String × String) × ℚ) → List Char
  raw : Physical → List Char

/-- `str(self._mtype)` (constants.py:16-17) -/
def mtypeText : MType → List Char
  | .ising => chars "ising"
  | .qubo => chars "qubo"

/-- `"━" * 64` (logical_model.py:905, 907, 921, physical_model.py:117, 119, 127) -/
def bar : List Char := List.replicate 64 '━'

/-- The list `s` in `LogicalModel.__str__` (logical_model.py:904-922). -/
def modelParts (y : Printer) (m : LModel) : List (List Char) :=
  [['┏'] ++ bar, chars "┃ LOGICAL MODEL", ['┣'] ++ bar, chars "┣━ mtype: " ++ mtypeText m.mtype,
    chars "┣━ variables: " ++ y.keys (m.vars.map (·.1))] ++
  m.vars.flatMap (fun v => [chars "┃  name: " ++ chars v.1, appendPrefix (y.array v.2) 4]) ++
  [chars "┣━ interactions:",
    if m.rows.isEmpty then appendPrefix (chars "Empty") 4 else appendPrefix (y.table m) 4,
    chars "┣━ offset: " ++ y.coef m.offset, chars "┣━ constraints:",
    appendPrefix (y.pretty m.constraints) 4, ['┗'] ++ bar]

/-- `LogicalModel.__str__` (logical_model.py:901-922). -/
def modelText (y : Printer) : Py LModel (List Char) := do
  makeFrame
  let m ← get
  return join ['\n'] (modelParts y m)

/-- `LogicalModel.__repr__` (logical_model.py:886-899). -/
def modelRepr (y : Printer) : Py LModel (List Char) := do
  makeFrame
  let m ← get
  let inter := if m.rows.isEmpty then chars "'interactions': 'Empty', " else chars "'interactions': " ++ y.json m ++ chars ", "
  return chars "LogicalModel({" ++ chars "'mtype': '" ++ mtypeText m.mtype ++ chars "', " ++
    chars "'variables': " ++ removeLeadingSpaces (y.arrays m.vars) ++ chars ", " ++ inter ++
    chars "'offset': " ++ y.coef m.offset ++ chars ", " ++ chars "'constraints': " ++ y.constraints m.constraints ++ chars "})"

/-- `PhysicalModel.__str__` (physical_model.py:115-128). -/
def physicalText (y : Printer) (p : Physical) : List Char :=
  join ['\n'] [['┏'] ++ bar, chars "┃ PHYSICAL MODEL", ['┣'] ++ bar, chars "┣━ mtype: " ++ mtypeText p.mtype,
    chars "┣━ raw_interactions:", chars "┃  linear:", appendPrefix (y.linear p.linear) 4,
    chars "┃  quadratic:", appendPrefix (y.quad p.quad) 4, chars "┣━ offset: " ++ y.num p.offset, ['┗'] ++ bar]

/-- `PhysicalModel.__repr__` (physical_model.py:108-113): the brackets close before the offset. -/
def physicalRepr (y : Printer) (p : Physical) : List Char :=
  chars "PhysicalModel({" ++ chars "'mtype': '" ++ mtypeText p.mtype ++ chars "', " ++
    chars "'raw_interactions': " ++ y.raw p ++ chars "}), " ++ chars "'offset': " ++ y.num p.offset

/-! ## Checks of argument types -/

/-- The articles in messages (base_mixin.py:23-29). An empty name raises IndexError. -/
def article : List Char → Except Err (List Char)
  | [] => .error .indexError
  | c :: _ => if c.toLower ∈ ['a', 'e', 'i', 'o', 'u'] then .ok (chars "an") else .ok (chars "a")

/-- `_check_argument_type` (base_mixin.py:32-40); `isInstance` is the class relation, a tuple of classes is a list. -/
def checkType {T V : Type} (isInstance : V → T → Bool) (v : V) (types : List T) : Except Err Unit :=
  if types.any (isInstance v) then .ok ⟨⟩ else .error .typeError

/-- `_check_argument_type_in_tuple` (base_mixin.py:43-55) and `_check_argument_type_in_list` (base_mixin.py:58-70). -/
def checkTypes {T V : Type} (isInstance : V → T → Bool) (vs : List V) (types : List T) : Except Err Unit := do
  if vs.length = 0 then throw .typeError
  vs.forM fun v => do
    let ok := types.foldl (fun ok t => if isInstance v t then true else ok) false
    if !ok then throw .typeError

/-! ## Clocks -/

/-- `int(x)` cuts off the fraction. (utils/time.py:23, 31, 39, 47) -/
def pyTrunc (x : ℚ) : ℤ := if 0 ≤ x then ⌊x⌋ else -⌊-x⌋

/-- The functions of utils/time.py (current_time and current_time_as_int, utils/time.py:18-23) for one reading of the clock: seconds, and as a whole number. -/
def timeS (t : ℚ) : ℚ × ℤ := (t, pyTrunc t)
/-- The same in milliseconds (utils/time.py:26-31). -/
def timeMs (t : ℚ) : ℚ × ℤ := (t * 1000, pyTrunc (t * 1000))
/-- The same in microseconds (utils/time.py:34-39). -/
def timeUs (t : ℚ) : ℚ × ℤ := (t * 1000000, pyTrunc (t * 1000000))
/-- The same in nanoseconds (utils/time.py:42-47). -/
def timeNs (t : ℚ) : ℚ × ℤ := (t * 1000000000, pyTrunc (t * 1000000000))

end Sawatabi.Text
