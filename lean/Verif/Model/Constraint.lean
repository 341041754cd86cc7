import Verif.Model.Core

/-!
# Constraints

Models /repo/sawatabi/model/constraint/*.py: construction checks, variable sets and `to_model`.
-/

namespace Sawatabi

/-! ## Variable sets -/

/-- A `variables` argument of a constraint method (abstract_constraint.py:35-45). An element `none`
is an object that is not a pyqubo variable. -/
inductive PyVars where
  | array (a : VArray)
  | var (v : PVar)
  | list (l : List (Option PVar))
  /-- a Python set, in its iteration order -/
  | set (l : List (Option PVar))
  | other
  deriving DecidableEq, Repr

/-- `set(l)`: first occurrences. The iteration order of a Python set is arbitrary; nothing below
depends on it (see `Props/Constraints.lean`). (abstract_constraint.py:45) -/
def toSet (l : List PVar) : List PVar := l.foldl sadd []

/-- `_check_argument_type_in_list` (base_mixin.py:58-70) on pyqubo variables. -/
def checkVarList : List (Option PVar) → Except Err (List PVar)
  | [] => .error .typeError
  | l => l.mapM fun o => match o with
    | some v => .ok v
    | none => .error .typeError

/-- `_check_variables_and_to_set` (abstract_constraint.py:35-45). -/
def checkVarsToSet : PyVars → Except Err (List PVar)
  | .array a => .ok (toSet a.bits)
  | .var v => .ok [v]
  | .list l => toSet <$> checkVarList l
  | .set l => toSet <$> checkVarList l
  | .other => .error .typeError

/-- `self._variables.union(s)` (n_hot_constraint.py:38, zero_or_one_hot_constraint.py:38, equality_constraint.py:37, 41) -/
def sunion (a b : List PVar) : List PVar := b.foldl sadd a

/-- `self._variables.difference(s)` (n_hot_constraint.py:45, zero_or_one_hot_constraint.py:45, equality_constraint.py:48, 55) -/
def sdiff (a b : List PVar) : List PVar := a.filter (· ∉ b)

/-- `add_variable`, on the variable set (n_hot_constraint.py:36-38,
zero_or_one_hot_constraint.py:36-38, equality_constraint.py:35-41). -/
def addVariable (arg : PyVars) : Py (List PVar) Unit := do
  let s ← liftE (checkVarsToSet arg)
  modify fun vs => sunion vs s

/-- `remove_variable`, on the variable set (n_hot_constraint.py:40-45,
zero_or_one_hot_constraint.py:40-45, equality_constraint.py:43-55). -/
def removeVariable (arg : PyVars) : Py (List PVar) Unit := do
  let s ← liftE (checkVarsToSet arg)
  s.forM fun v => do
    let vs ← get
    if v ∉ vs then throw .valueError
  modify fun vs => sdiff vs s

/-- `AbstractConstraint.__init__` checks (abstract_constraint.py:24-33), with a string label and a
number as strength. -/
def checkLabel (label : String) : Except Err Unit :=
  if label = "" then .error .valueError else .ok ()

/-- `NHotConstraint.__init__` (n_hot_constraint.py:21-34); `variables = none` for `None`. -/
def mkNHot (vars : Option PyVars) (n : Int) (label : String) (strength : ℚ) : Except Err Constraint := do
  checkLabel label
  let vs ← match vars with
    | none => pure []
    | some a => checkVarsToSet a
  if n ≤ 0 then throw .valueError
  return .nHot label strength vs n.toNat

/-- `ZeroOrOneHotConstraint.__init__` (zero_or_one_hot_constraint.py:26-34). -/
def mkZeroOrOneHot (vars : Option PyVars) (label : String) (strength : ℚ) : Except Err Constraint := do
  checkLabel label
  let vs ← match vars with
    | none => pure []
    | some a => checkVarsToSet a
  return .zeroOrOneHot label strength vs

/-- `EqualityConstraint.__init__` (equality_constraint.py:21-33). -/
def mkEquality (vars1 vars2 : Option PyVars) (label : String) (strength : ℚ) :
    Except Err Constraint := do
  checkLabel label
  let v1 ← match vars1 with
    | none => pure []
    | some a => checkVarsToSet a
  let v2 ← match vars2 with
    | none => pure []
    | some a => checkVarsToSet a
  return .equality label strength v1 v2

/-! ## `to_model` -/

/-- `model.add_interaction(var, name=f"{var.label} ({label})", coefficient=coeff)` (n_hot_constraint.py:60, equality_constraint.py:70) -/
def addLin (now : ℚ) (label : String) (v : PVar) (coeff : ℚ) : Py LModel Unit :=
  addInteraction now (.var v) (.str (v.label ++ " (" ++ label ++ ")")) (.num coeff) (.num 1) .none .none

/-- `model.add_interaction((var, adj), name=f"{var.label}*{adj.label} ({label})", coefficient=coeff)`
(n_hot_constraint.py:64, zero_or_one_hot_constraint.py:59, equality_constraint.py:75, 80, 84) -/
def addPair (now : ℚ) (label : String) (v w : PVar) (coeff : ℚ) : Py LModel Unit :=
  addInteraction now (.tuple [some v, some w]) (.str (v.label ++ "*" ++ w.label ++ " (" ++ label ++ ")"))
    (.num coeff) (.num 1) .none .none

/-- The pair loop shared by the constraints: all `(var, adj)` with `var.label < adj.label`
(n_hot_constraint.py:61-64, zero_or_one_hot_constraint.py:56-59, equality_constraint.py:72-74). -/
def addPairsFrom (now : ℚ) (label : String) (strength : ℚ) (vars : List PVar) (v : PVar) : Py LModel Unit :=
  vars.forM fun w => do
    if v.label < w.label then addPair now label v w (-2 * strength)

/-- `NHotConstraint.to_model` (n_hot_constraint.py:53-66). The clock is read once per interaction in
the code; the timestamps of these interactions play no further role, so one value `now` is used. -/
def nHotBody (now : ℚ) (label : String) (strength : ℚ) (vars : List PVar) (n : Nat) : Py LModel Unit :=
  vars.forM fun v => do
    addLin now label v (-1 * strength * (1 - 2 * n))
    addPairsFrom now label strength vars v

/-- `ZeroOrOneHotConstraint.to_model` (zero_or_one_hot_constraint.py:50-61). -/
def zeroOrOneHotBody (now : ℚ) (label : String) (strength : ℚ) (vars : List PVar) : Py LModel Unit :=
  vars.forM fun v => addPairsFrom now label strength vars v

/-- `EqualityConstraint.to_model` (equality_constraint.py:63-86). `union` is the iteration order of
`variables_1.union(variables_2)`. -/
def equalityBody (now : ℚ) (label : String) (strength : ℚ) (union vars1 vars2 : List PVar) :
    Py LModel Unit := do
  union.forM fun v => addLin now label v (-1 * strength)
  vars1.forM fun v => addPairsFrom now label strength vars1 v
  vars2.forM fun v => addPairsFrom now label strength vars2 v
  vars1.forM fun v => vars2.forM fun w => addPair now label v w (2 * strength)

/-- `constraint.to_model()`; `id` is the id of the model object created.
(n_hot_constraint.py:53-66, zero_or_one_hot_constraint.py:50-61, equality_constraint.py:63-86) -/
def Constraint.body (now : ℚ) : Constraint → Py LModel Unit
  | .nHot l s vs n => nHotBody now l s vs n
  | .zeroOrOneHot l s vs => zeroOrOneHotBody now l s vs
  | .equality l s v1 v2 => equalityBody now l s (sunion v1 v2) v1 v2

/-- `constraint.to_model()` as a value: the new model, or the exception.
(n_hot_constraint.py:53-66, zero_or_one_hot_constraint.py:50-61, equality_constraint.py:63-86) -/
def Constraint.toModel (now : ℚ) (id : String) (c : Constraint) : Except Err LModel :=
  match (c.body now).run (LModel.new .qubo id) with
  | .ok _ m => .ok m
  | .error e _ => .error e

end Sawatabi
