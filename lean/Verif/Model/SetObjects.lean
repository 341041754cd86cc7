import Verif.Model.Constraint

/-!
# The sets that constraints hold

`_check_variables_and_to_set` returns a set that is passed to it without a copy (abstract_constraint.py:39-40), and `get_variables` hands
out the set of the constraint (n_hot_constraint.py:47-48, zero_or_one_hot_constraint.py:47-48, equality_constraint.py:57-61). Here sets are
objects with addresses: constraints refer to them, and the caller may change any of them. The other files treat the variables of a
constraint as a value.
-/

namespace Sawatabi.SetObj

/-- The class of a constraint object with the fields that only this class has; the second set of an equality is an address.
(n_hot_constraint.py:21-34, zero_or_one_hot_constraint.py:26-34, equality_constraint.py:21-33) -/
inductive Kind where
  | nHot (n : Nat)
  | zeroOrOneHot
  | equality (set2 : Nat)
  deriving DecidableEq, Repr

/-- A constraint object (n_hot_constraint.py:21-34, zero_or_one_hot_constraint.py:26-34, equality_constraint.py:21-33): `set1` is the
address of `_variables` or `_variables_1`. -/
structure Con where
  label : String
  strength : ℚ
  kind : Kind
  set1 : Nat
  deriving DecidableEq, Repr

/-- The objects that exist. Sets hold variables only.
(n_hot_constraint.py:21-34, zero_or_one_hot_constraint.py:26-34, equality_constraint.py:21-33) -/
structure Objs where
  sets : List (List PVar)
  cons : List Con
  deriving DecidableEq, Repr

/-- The content of a set object. (abstract_constraint.py:35-45) -/
def Objs.content (w : Objs) (k : Nat) : List PVar := w.sets[k]?.getD []

/-- The addresses that a constraint refers to. (n_hot_constraint.py:21-34, zero_or_one_hot_constraint.py:26-34, equality_constraint.py:21-33) -/
def Con.addrs (c : Con) : List Nat :=
  match c.kind with
  | .equality k => [c.set1, k]
  | _ => [c.set1]

/-- A constraint as its methods see it. (n_hot_constraint.py:21-34, zero_or_one_hot_constraint.py:26-34, equality_constraint.py:21-33) -/
def Objs.view (w : Objs) (c : Con) : Constraint :=
  match c.kind with
  | .nHot n => .nHot c.label c.strength (w.content c.set1) n
  | .zeroOrOneHot => .zeroOrOneHot c.label c.strength (w.content c.set1)
  | .equality k => .equality c.label c.strength (w.content c.set1) (w.content k)

/-- A `variables` argument: an existing set object, or anything else (a set written down in the call is a new object).
(abstract_constraint.py:36) -/
inductive Arg where
  | obj (k : Nat)
  | val (a : PyVars)
  deriving DecidableEq, Repr

/-- A new set object. (abstract_constraint.py:45) -/
def alloc (s : List PVar) : Py Objs Nat := do
  let w ← get
  set { w with sets := w.sets ++ [s] }
  return w.sets.length

/-- `_check_variables_and_to_set` (abstract_constraint.py:35-45): the address of the set that is returned. -/
def keep : Arg → Py Objs Nat
  | .obj k => do
    let w ← get
    match w.sets[k]? with
    | none => throw .typeError
    | some s => if s = [] then throw .typeError else return k
  | .val a => do
    let s ← liftE (checkVarsToSet a)
    alloc s

/-- `variables=None` makes an empty set, anything else is checked (n_hot_constraint.py:26-29 and the like). -/
def keepOrNew : Option Arg → Py Objs Nat
  | none => alloc []
  | some a => keep a

/-- A new constraint object. (n_hot_constraint.py:21-34, zero_or_one_hot_constraint.py:26-34, equality_constraint.py:21-33) -/
def addCon (c : Con) : Py Objs Unit := modify fun w => { w with cons := w.cons ++ [c] }

/-- `NHotConstraint.__init__` (n_hot_constraint.py:21-34). -/
def newNHot (vars : Option Arg) (n : Int) (label : String) (strength : ℚ) : Py Objs Unit := do
  liftE (checkLabel label)
  let k ← keepOrNew vars
  if n ≤ 0 then throw .valueError
  addCon ⟨label, strength, .nHot n.toNat, k⟩

/-- `ZeroOrOneHotConstraint.__init__` (zero_or_one_hot_constraint.py:26-34). -/
def newZeroOrOneHot (vars : Option Arg) (label : String) (strength : ℚ) : Py Objs Unit := do
  liftE (checkLabel label)
  let k ← keepOrNew vars
  addCon ⟨label, strength, .zeroOrOneHot, k⟩

/-- `EqualityConstraint.__init__` (equality_constraint.py:21-33). -/
def newEquality (vars1 vars2 : Option Arg) (label : String) (strength : ℚ) : Py Objs Unit := do
  liftE (checkLabel label)
  let k1 ← keepOrNew vars1
  let k2 ← keepOrNew vars2
  addCon ⟨label, strength, .equality k2, k1⟩

/-- The methods that change the variables of a constraint.
(n_hot_constraint.py:36-45, zero_or_one_hot_constraint.py:36-45, equality_constraint.py:35-55) -/
inductive Method where
  | add | remove | add1 | add2 | remove1 | remove2
  deriving DecidableEq, Repr

/-- Which set a method of a class changes, and whether it adds. A method that the class does not have raises AttributeError.
(n_hot_constraint.py:36-45, zero_or_one_hot_constraint.py:36-45, equality_constraint.py:35-55) -/
def Method.slot : Kind → Method → Except Err (Bool × Bool)
  | .equality _, .add1 => .ok (false, true)
  | .equality _, .add2 => .ok (true, true)
  | .equality _, .remove1 => .ok (false, false)
  | .equality _, .remove2 => .ok (true, false)
  | .nHot _, .add => .ok (false, true)
  | .nHot _, .remove => .ok (false, false)
  | .zeroOrOneHot, .add => .ok (false, true)
  | .zeroOrOneHot, .remove => .ok (false, false)
  | _, _ => .error .attributeError

/-- The address in a slot: the second one is for equalities only.
(n_hot_constraint.py:36-45, zero_or_one_hot_constraint.py:36-45, equality_constraint.py:35-55) -/
def Con.addr (c : Con) (second : Bool) : Nat :=
  match second, c.kind with
  | true, .equality k => k
  | _, _ => c.set1

/-- `self._variables = ...`: refer to another set object.
(n_hot_constraint.py:36-45, zero_or_one_hot_constraint.py:36-45, equality_constraint.py:35-55) -/
def Con.point (c : Con) (second : Bool) (k : Nat) : Con :=
  match second, c.kind with
  | true, .equality _ => { c with kind := .equality k }
  | _, _ => { c with set1 := k }

/-- `add_variable` and `remove_variable` of the classes (n_hot_constraint.py:36-45, zero_or_one_hot_constraint.py:36-45,
equality_constraint.py:35-55): `union` and `difference` make new set objects. -/
def editCon (i : Nat) (f : Method) (arg : Arg) : Py Objs Unit := do
  let w ← get
  match w.cons[i]? with
  | none => throw .indexError
  | some c =>
    let (second, isAdd) ← liftE (f.slot c.kind)
    let k ← keep arg
    let w ← get
    let own := w.content (c.addr second)
    let s := w.content k
    if !isAdd then
      s.forM fun v => if v ∉ own then throw .valueError else pure ()
    let k' ← alloc (if isAdd then sunion own s else sdiff own s)
    modify fun w => { w with cons := w.cons.set i (c.point second k') }

/-- What happens to the objects: calls of the library, and what the caller does with sets.
(n_hot_constraint.py:21-34, zero_or_one_hot_constraint.py:26-34, equality_constraint.py:21-33; n_hot_constraint.py:36-45, zero_or_one_hot_constraint.py:36-45, equality_constraint.py:35-55) -/
inductive Call where
  | nHot (vars : Option Arg) (n : Int) (label : String) (strength : ℚ)
  | zeroOrOneHot (vars : Option Arg) (label : String) (strength : ℚ)
  | equality (vars1 vars2 : Option Arg) (label : String) (strength : ℚ)
  | edit (i : Nat) (f : Method) (arg : Arg)
  /-- the caller makes a set -/
  | newSet (s : List PVar)
  /-- the caller changes a set in place (`add`, `discard`, `clear`, ...), maybe one that `get_variables` returned -/
  | mutate (k : Nat) (s : List PVar)

/-- The call.
(n_hot_constraint.py:21-34, zero_or_one_hot_constraint.py:26-34, equality_constraint.py:21-33; n_hot_constraint.py:36-45, zero_or_one_hot_constraint.py:36-45, equality_constraint.py:35-55) -/
def Call.run : Call → Py Objs Unit
  | .nHot vars n label strength => newNHot vars n label strength
  | .zeroOrOneHot vars label strength => newZeroOrOneHot vars label strength
  | .equality v1 v2 label strength => newEquality v1 v2 label strength
  | .edit i f arg => editCon i f arg
  | .newSet s => do
    let _ ← alloc s
  | .mutate k s => modify fun w => { w with sets := w.sets.set k s }

/-- The objects after calls, returning or raising.
(n_hot_constraint.py:21-34, zero_or_one_hot_constraint.py:26-34, equality_constraint.py:21-33; n_hot_constraint.py:36-45, zero_or_one_hot_constraint.py:36-45, equality_constraint.py:35-55) -/
def Objs.after (w : Objs) (calls : List Call) : Objs := calls.foldl (fun w c => (c.run.run w).state) w

end Sawatabi.SetObj
