import Verif.Base
import Mathlib.Algebra.Order.Field.Rat

/-!
# Data types of the model

Rationals stand for Python numbers (no rounding, NaN or infinities).
-/

namespace Sawatabi

/-- `constants.MODEL_ISING`, `constants.MODEL_QUBO` (constants.py:15-17). -/
inductive MType where
  | ising | qubo
  deriving DecidableEq, Repr

/-- `pyqubo.Spin` / `pyqubo.Binary`. (base_mixin.py:73-80) -/
inductive VType where
  | spin | binary
  deriving DecidableEq, Repr

/-- `BaseMixin._modeltype_to_vartype` on valid model types (base_mixin.py:72-80). The string version
with its error case is in `Model/Utils.lean`. -/
def MType.vtype : MType → VType
  | .ising => .spin
  | .qubo => .binary

/-- A pyqubo variable: its class and label. pyqubo compares and hashes variables by these. (logical_model.py:286-290) -/
structure PVar where
  vt : VType
  label : String
  deriving DecidableEq, Repr

/-- Coefficient expressions with placeholders (`pyqubo.Placeholder`, `Express` without variables, and
`pyqubo.Coefficient`, all merged into one type). (logical_model.py:142-143, 531-538) -/
inductive PExpr where
  | num (q : ℚ)
  | ph (n : String)
  | add (a b : PExpr)
  | mul (a b : PExpr)
  deriving DecidableEq, Repr

/-- A stored coefficient, scale or offset: a plain number, or a pyqubo object. The distinction matters
because `update_interaction` accepts only numbers. (logical_model.py:142, 531, 554) -/
inductive Coef where
  | num (q : ℚ)
  | expr (e : PExpr)
  deriving DecidableEq, Repr

/-- The expression of a coefficient. (logical_model.py:535-536) -/
def Coef.toExpr : Coef → PExpr
  | .num q => .num q
  | .expr e => e

/-- `a * b` on coefficients: numbers multiply, anything else becomes a pyqubo expression. (logical_model.py:407, 418, 535) -/
def Coef.mul : Coef → Coef → Coef
  | .num a, .num b => .num (a * b)
  | a, b => .expr (.mul a.toExpr b.toExpr)

/-- `a + b` on coefficients. (logical_model.py:407, 669, 724) -/
def Coef.add : Coef → Coef → Coef
  | .num a, .num b => .num (a + b)
  | a, b => .expr (.add a.toExpr b.toExpr)

/-- `isinstance(c, numbers.Number)` (logical_model.py:217, 219) -/
def Coef.isNum : Coef → Bool
  | .num _ => true
  | .expr _ => false

/-- An attribute value: `np.nan`, a number or some other object (represented by a string). (logical_model.py:186, 194, 258) -/
inductive PyVal where
  | nan
  | num (q : ℚ)
  | str (s : String)
  deriving DecidableEq, Repr

/-- The stored `interacts` value: a variable, or an ordered pair. `body`, `key`, `key_0`, `key_1`
are stored beside it by the code and always written together with it (logical_model.py:170-175); the
model derives them. -/
inductive Inter where
  | lin (v : PVar)
  | quad (v w : PVar)
  deriving DecidableEq, Repr

/-- The `key_0` column. (logical_model.py:163-166, 173) -/
def Inter.key0 : Inter → String
  | .lin v => v.label
  | .quad v _ => v.label

/-- The `key_1` column, `none` for NaN. (logical_model.py:163-166, 174) -/
def Inter.key1 : Inter → Option String
  | .lin _ => none
  | .quad _ w => some w.label

/-- The `body` column. (logical_model.py:287, 297, 170) -/
def Inter.body : Inter → Nat
  | .lin _ => 1
  | .quad _ _ => 2

/-- The default name of an interaction (logical_model.py:290, 306, 310). -/
def Inter.defaultName : Inter → String
  | .lin v => v.label
  | .quad v w => v.label ++ "*" ++ w.label

/-- One interaction (the default columns, logical_model.py:44). `timestamp` is `none` for a stored
`None` (possible through `update_interaction(timestamp=None)`). -/
structure Row where
  name : String
  inter : Inter
  coef : Coef
  scale : Coef
  timestamp : Option ℚ
  dirty : Bool
  removed : Bool
  deriving DecidableEq, Repr

/-- A `pyqubo.Array`: its shape and its flattened variables (`Functions._flatten(bit_list)`). (logical_model.py:62, 80, 576) -/
structure VArray where
  shape : List Nat
  bits : List PVar
  deriving DecidableEq, Repr

/-- The three constraint classes. Variable sets are lists without duplicates, in the (arbitrary)
order in which Python iterates over the set. (n_hot_constraint.py:21-34, zero_or_one_hot_constraint.py:26-34, equality_constraint.py:21-33) -/
inductive Constraint where
  /-- n_hot_constraint.py:20-34 -/
  | nHot (label : String) (strength : ℚ) (vars : List PVar) (n : Nat)
  /-- zero_or_one_hot_constraint.py:26-34 -/
  | zeroOrOneHot (label : String) (strength : ℚ) (vars : List PVar)
  /-- equality_constraint.py:20-33 -/
  | equality (label : String) (strength : ℚ) (vars1 vars2 : List PVar)
  deriving DecidableEq, Repr

/-- `AbstractConstraint.get_label` (abstract_constraint.py:50-51). -/
def Constraint.label : Constraint → String
  | .nHot l _ _ _ => l
  | .zeroOrOneHot l _ _ => l
  | .equality l _ _ _ => l

/-- A `LogicalModel` object (logical_model.py:34-48). Default columns of `_interactions_array` are
`rows`, attribute columns are `attrCols`. `_deleted`/`_fixed` are dictionaries with constant value
`True`, kept as key lists. `_interactions` (a cache rebuilt before each use) and
`_previous_physical_model` (never read) are left out. `length` is an integer: after a raising call it can differ from the
number of rows, and a later conversion can make it negative. `id` is the Python object id in decimal. -/
structure LModel where
  mtype : MType
  vars : List (String × VArray)
  offset : Coef
  deleted : List String
  fixed : List String
  constraints : List (String × Constraint)
  rows : List Row
  attrCols : List (String × List PyVal)
  attrs : List String
  length : Int
  id : String
  deriving DecidableEq, Repr

/-- A `PhysicalModel` object (physical_model.py:24-33). -/
structure Physical where
  mtype : MType
  linear : List (String × ℚ)
  quad : List ((String × String) × ℚ)
  offset : ℚ
  varsSet : List String
  labelToIndex : List (String × Nat)
  indexToLabel : List (Nat × String)
  deriving DecidableEq, Repr

/-! ## Python arguments -/

/-- A `target` argument. (logical_model.py:286-312) -/
inductive PyTarget where
  | none
  | var (v : PVar)
  /-- a tuple; `none` stands for an element that is not a pyqubo variable -/
  | tuple (l : List (Option PVar))
  /-- any other truthy object -/
  | other
  /-- any other falsy object (`0`, `""`, `[]`) -/
  | falsy
  deriving DecidableEq, Repr

/-- Python truth value of a target. (logical_model.py:137, 211-213, 316-318) -/
def PyTarget.truthy : PyTarget → Bool
  | .none => false
  | .var _ => true
  | .tuple l => !l.isEmpty
  | .other => true
  | .falsy => false

/-- A `name` argument. Falsy objects of other types behave as `""`. (logical_model.py:150-152, 211-213, 228-233) -/
inductive PyName where
  | str (s : String)
  /-- a non-empty tuple -/
  | tuple
  /-- any other truthy object -/
  | other
  deriving DecidableEq, Repr

/-- Python truth value of a name. (logical_model.py:150, 211-213, 228) -/
def PyName.truthy : PyName → Bool
  | .str s => s != ""
  | .tuple => true
  | .other => true

/-- A `coefficient` or `scale` argument. (logical_model.py:142-143, 216-219) -/
inductive PyCoef where
  | num (q : ℚ)
  | expr (e : PExpr)
  /-- an object of another type -/
  | bad
  deriving DecidableEq, Repr

/-- An `attributes` argument. (logical_model.py:135, 144, 220-221) -/
inductive PyAttrs where
  | none
  | dict (d : List (String × PyVal))
  | bad
  deriving DecidableEq, Repr

/-- A `timestamp` argument. (logical_model.py:139-145, 222-223) -/
inductive PyTs where
  | none
  | num (q : ℚ)
  | bad
  deriving DecidableEq, Repr

end Sawatabi
