import Verif.Model.Convert

/-!
# `__eq__` of models and constraints
-/

namespace Sawatabi

/-- Python `d == e` for dictionaries whose values are compared by `veq`: as many entries, and every key of `d` in `e` with
an equal value. The order of the entries does not matter. (logical_model.py:873-879) -/
def dictEq {κ ν : Type} [DecidableEq κ] (veq : ν → ν → Bool) (d e : List (κ × ν)) : Bool :=
  d.length == e.length && d.all fun p => match dget e p.1 with
    | some w => veq p.2 w
    | none => false

/-- Python `a == b` for sets (and for dictionaries with the constant value `True`).
(logical_model.py:878-879, n_hot_constraint.py:76, zero_or_one_hot_constraint.py:71, equality_constraint.py:96-97) -/
def setEq {κ : Type} [DecidableEq κ] (a b : List κ) : Bool := a.length == b.length && a.all (· ∈ b)

/-- `__eq__` of constraints (n_hot_constraint.py:72-80, zero_or_one_hot_constraint.py:67-74, equality_constraint.py:92-100).
`_constraint_class` is the name of the class. -/
def Constraint.eq : Constraint → Constraint → Bool
  | .nHot l s vs n, .nHot l' s' vs' n' => setEq vs vs' && n == n' && l == l' && s == s'
  | .zeroOrOneHot l s vs, .zeroOrOneHot l' s' vs' => setEq vs vs' && l == l' && s == s'
  | .equality l s v1 v2, .equality l' s' v1' v2' => setEq v1 v1' && setEq v2 v2' && l == l' && s == s'
  | _, _ => false

/-- `LogicalModel.__eq__` (logical_model.py:869-881). `_interactions_array` is compared as a dictionary of lists: the default
columns (rows here) and the attribute columns. NaN entries are the object `np.nan` and compare equal within lists. pyqubo
arrays, variables and expressions compare by structure (library behaviour, trusted). -/
def LModel.eq (m n : LModel) : Bool :=
  m.mtype == n.mtype && dictEq (· == ·) m.vars n.vars && (m.rows == n.rows && dictEq (· == ·) m.attrCols n.attrCols) &&
    m.attrs == n.attrs && m.length == n.length && dictEq Constraint.eq m.constraints n.constraints &&
    setEq m.deleted n.deleted && setEq m.fixed n.fixed && m.offset == n.offset

/-- `PhysicalModel.__eq__` (physical_model.py:95-103). -/
def Physical.eq (p q : Physical) : Bool :=
  p.mtype == q.mtype && (dictEq (· == ·) p.linear q.linear && dictEq (· == ·) p.quad q.quad) && p.offset == q.offset &&
    dictEq (· == ·) p.labelToIndex q.labelToIndex && dictEq (· == ·) p.indexToLabel q.indexToLabel

end Sawatabi
