import Verif.Model.Equality
import Verif.Model.Output

/-!
# The texts of constraints

Models `__ne__`, `__repr__` and `__str__` of the constraints (n_hot_constraint.py:82-96,
zero_or_one_hot_constraint.py:76-89, equality_constraint.py:102-116).
-/

namespace Sawatabi.Text

/-- `w` hexadecimal digits of a number. (n_hot_constraint.py:88-96, zero_or_one_hot_constraint.py:82-89, equality_constraint.py:108-116) -/
def hex : Nat → Nat → List Char
  | 0, _ => []
  | w + 1, n => hex w (n / 16) ++ [Nat.digitChar (n % 16)]

/-- One character in `repr` of a string with the quotes `q` (CPython). `printable` is `str.isprintable` for characters that are
not ASCII. (n_hot_constraint.py:88-96, zero_or_one_hot_constraint.py:82-89, equality_constraint.py:108-116) -/
def escaped (printable : Char → Bool) (q c : Char) : List Char :=
  if c = q ∨ c = '\\' then ['\\', c]
  else if c = '\t' then ['\\', 't']
  else if c = '\n' then ['\\', 'n']
  else if c = '\r' then ['\\', 'r']
  else if c.toNat < 32 ∨ c.toNat = 127 then ['\\', 'x'] ++ hex 2 c.toNat
  else if c.toNat < 127 then [c]
  else if printable c then [c]
  else if c.toNat < 256 then ['\\', 'x'] ++ hex 2 c.toNat
  else if c.toNat < 65536 then ['\\', 'u'] ++ hex 4 c.toNat
  else ['\\', 'U'] ++ hex 8 c.toNat

/-- The quotes that `repr` of a string uses. (n_hot_constraint.py:88-96, zero_or_one_hot_constraint.py:82-89, equality_constraint.py:108-116) -/
def quoteOf (t : List Char) : Char := if '\'' ∈ t ∧ '"' ∉ t then '"' else '\''

/-- `repr` of a string. (n_hot_constraint.py:88-96, zero_or_one_hot_constraint.py:82-89, equality_constraint.py:108-116) -/
def quoted (printable : Char → Bool) (t : List Char) : List Char :=
  [quoteOf t] ++ t.flatMap (escaped printable (quoteOf t)) ++ [quoteOf t]

/-- `repr` of a pyqubo variable (library, version 0.4): the label is written as it is.
(n_hot_constraint.py:88-96, zero_or_one_hot_constraint.py:82-89, equality_constraint.py:108-116) -/
def varText (v : PVar) : List Char :=
  (match v.vt with | .spin => chars "Spin" | .binary => chars "Binary") ++ chars "(" ++ v.label.toList ++ chars ")"

/-- `repr` of a set of variables, in its iteration order.
(n_hot_constraint.py:88-96, zero_or_one_hot_constraint.py:82-89, equality_constraint.py:108-116) -/
def setText : List PVar → List Char
  | [] => chars "set()"
  | vs => chars "{" ++ join (chars ", ") (vs.map varText) ++ chars "}"

/-- `__class__.__name__` (n_hot_constraint.py:23, zero_or_one_hot_constraint.py:28, equality_constraint.py:23) -/
def className : Constraint → String
  | .nHot .. => "NHotConstraint"
  | .zeroOrOneHot .. => "ZeroOrOneHotConstraint"
  | .equality .. => "EqualityConstraint"

/-- `str` of a dictionary, from the texts of its entries.
(n_hot_constraint.py:88-96, zero_or_one_hot_constraint.py:82-89, equality_constraint.py:108-116) -/
def dictText (entries : List (List Char × List Char)) : List Char :=
  chars "{" ++ join (chars ", ") (entries.map fun e => chars "'" ++ e.1 ++ chars "': " ++ e.2) ++ chars "}"

/-- `_strength` (n_hot_constraint.py:88-96, zero_or_one_hot_constraint.py:82-89, equality_constraint.py:108-116) -/
def strengthOf : Constraint → ℚ
  | .nHot _ s _ _ => s
  | .zeroOrOneHot _ s _ => s
  | .equality _ s _ _ => s

/-- The entries of `data` between the class and the label.
(n_hot_constraint.py:88-96, zero_or_one_hot_constraint.py:82-89, equality_constraint.py:108-116) -/
def variablesData : Constraint → List (List Char × List Char)
  | .nHot _ _ vs n => [(chars "variables", setText vs), (chars "n", strInt n)]
  | .zeroOrOneHot _ _ vs => [(chars "variables", setText vs)]
  | .equality _ _ v1 v2 => [(chars "variables_1", setText v1), (chars "variables_2", setText v2)]

/-- The dictionary `data` in `__str__` (n_hot_constraint.py:89-95, zero_or_one_hot_constraint.py:83-88,
equality_constraint.py:109-115), with the texts of its values. `_constraint_class` is the name of the class. `num` is `repr` of a
strength. -/
def constraintData (printable : Char → Bool) (num : ℚ → List Char) (c : Constraint) : List (List Char × List Char) :=
  [(chars "constraint_class", chars "'" ++ chars (className c) ++ chars "'")] ++
    variablesData c ++
    [(chars "label", quoted printable c.label.toList), (chars "strength", num (strengthOf c))]

/-- `__str__` (n_hot_constraint.py:88-96, zero_or_one_hot_constraint.py:82-89, equality_constraint.py:108-116). -/
def constraintText (printable : Char → Bool) (num : ℚ → List Char) (c : Constraint) : List Char :=
  dictText (constraintData printable num c)

/-- `__repr__` (n_hot_constraint.py:85-86, zero_or_one_hot_constraint.py:79-80, equality_constraint.py:105-106). -/
def constraintRepr (printable : Char → Bool) (num : ℚ → List Char) (c : Constraint) : List Char :=
  chars (className c) ++ chars "(" ++ constraintText printable num c ++ chars ")"

/-- `__ne__` (n_hot_constraint.py:82-83, zero_or_one_hot_constraint.py:76-77, equality_constraint.py:102-103). -/
def _root_.Sawatabi.Constraint.ne (c d : Constraint) : Bool := !c.eq d

end Sawatabi.Text
