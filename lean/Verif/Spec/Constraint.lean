import Verif.Model.Constraint
import Verif.Spec.Energy

/-!
# Specification: constraints
-/

namespace Sawatabi

/-- A set of binary variables as a list; pyqubo does not allow `*` in labels. -/
structure IsVarSet (vs : List PVar) : Prop where
  nodup : vs.Nodup
  binary : ∀ v ∈ vs, v.vt = .binary
  label : ∀ v ∈ vs, '*' ∉ v.label.toList

/-- How many of the variables are 1. -/
def ones (σ : Assign) (vs : List PVar) : Nat := (vs.filter fun v => decide (σ v.label = 1)).length

/-- `σ` has the lowest energy among all binary assignments. -/
def IsMinimiser (E : Assign → ℚ) (σ : Assign) : Prop := ∀ τ : Assign, τ.IsBinary → E σ ≤ E τ

/-- The penalty polynomial of a constraint as a function of the bits (README; n_hot_constraint.py:20-34,
zero_or_one_hot_constraint.py:26-34, equality_constraint.py:20-33), up to a constant for `n`-hot. -/
def Constraint.penalty (σ : Assign) : Constraint → ℚ
  | .nHot _ s vs n => s * (((ones σ vs : ℚ) - n) ^ 2 - (n : ℚ) ^ 2)
  | .zeroOrOneHot _ s vs => s * ((ones σ vs : ℚ) * ((ones σ vs : ℚ) - 1))
  | .equality _ s v1 v2 => s * ((ones σ v1 : ℚ) - (ones σ v2 : ℚ)) ^ 2

/-- What the constraint asks for (README; the docstrings of the three classes): `n` ones, at most one 1, equally many. -/
def Constraint.Satisfied (σ : Assign) : Constraint → Prop
  | .nHot _ _ vs n => ones σ vs = n
  | .zeroOrOneHot _ _ vs => ones σ vs ≤ 1
  | .equality _ _ v1 v2 => ones σ v1 = ones σ v2

/-- The strength. -/
def Constraint.weight : Constraint → ℚ
  | .nHot _ s _ _ => s
  | .zeroOrOneHot _ s _ => s
  | .equality _ s _ _ => s

/-- Each variable set of the constraint has distinct labels (as sets of variables of one type have). -/
def Constraint.Distinct : Constraint → Prop
  | .nHot _ _ vs _ => (vs.map (·.label)).Nodup
  | .zeroOrOneHot _ _ vs => (vs.map (·.label)).Nodup
  | .equality _ _ v1 v2 => (v1.map (·.label)).Nodup ∧ (v2.map (·.label)).Nodup

/-- The constraint is over sets of binary variables; those of an equality are disjoint. -/
def Constraint.Sound : Constraint → Prop
  | .nHot _ _ vs _ => IsVarSet vs
  | .zeroOrOneHot _ _ vs => IsVarSet vs
  | .equality _ _ v1 v2 => IsVarSet (v1 ++ v2)

/-- The sets of variables of a constraint. -/
def Constraint.sets : Constraint → List (List PVar)
  | .nHot _ _ vs _ => [vs]
  | .zeroOrOneHot _ _ vs => [vs]
  | .equality _ _ v1 v2 => [v1, v2]

/-- Each variable set has distinct labels, without `*`, which pyqubo does not allow. The variables may have either type. -/
def Constraint.Regular (c : Constraint) : Prop :=
  ∀ vs ∈ c.sets, (vs.map (·.label)).Nodup ∧ ∀ v ∈ vs, '*' ∉ v.label.toList

/-- No label is in two of the sets (of an equality constraint). -/
def Constraint.Apart : Constraint → Prop
  | .equality _ _ v1 v2 => ∀ v ∈ v1, ∀ w ∈ v2, v.label ≠ w.label
  | _ => True

/-- No label has a space. -/
def Constraint.SpaceFree (c : Constraint) : Prop := ∀ vs ∈ c.sets, ∀ v ∈ vs, ' ' ∉ v.label.toList

/-- What converting a constraint to Ising adds to its penalty: minus twice the average penalty over all bits. (It ought
to be nothing; the offset of the conversion has the wrong sign.) -/
def Constraint.drift : Constraint → ℚ
  | .nHot _ s vs n => s * (vs.length * (2 * n - 1) - vs.length * (vs.length - 1) / 2)
  | .zeroOrOneHot _ s vs => -s * (vs.length * (vs.length - 1) / 2)
  | .equality _ s v1 v2 => -s * ((v1.length + v2.length) / 2 + ((v1.length : ℚ) - v2.length) ^ 2 / 2)

/-- A `variables` argument that is accepted. -/
def PyVars.Valid : PyVars → Prop
  | .array _ => True
  | .var _ => True
  | .list l => l ≠ [] ∧ none ∉ l
  | .set l => l ≠ [] ∧ none ∉ l
  | .other => False

/-- `v` is in the argument. -/
def PyVars.Has (v : PVar) : PyVars → Prop
  | .array a => v ∈ a.bits
  | .var w => v = w
  | .list l => some v ∈ l
  | .set l => some v ∈ l
  | .other => False

/-- A call that changes the variable set of a constraint. -/
inductive SetOp where
  | add (a : PyVars)
  | remove (a : PyVars)

/-- The call on the model. -/
def SetOp.run : SetOp → Py (List PVar) Unit
  | .add a => addVariable a
  | .remove a => removeVariable a

/-- Sets of variables after a call. -/
inductive SetOp.Means : SetOp → (PVar → Prop) → (PVar → Prop) → Prop
  | add (a : PyVars) (S : PVar → Prop) (h : a.Valid) : Means (.add a) S fun v => S v ∨ a.Has v
  | remove (a : PyVars) (S : PVar → Prop) (h : a.Valid) (hs : ∀ v, a.Has v → S v) :
      Means (.remove a) S fun v => S v ∧ ¬ a.Has v
  | addBad (a : PyVars) (S : PVar → Prop) (h : ¬ a.Valid) : Means (.add a) S S
  | removeBad (a : PyVars) (S : PVar → Prop) (h : ¬ (a.Valid ∧ ∀ v, a.Has v → S v)) : Means (.remove a) S S

/-- Sets of variables after a history. -/
inductive SetOps : List SetOp → (PVar → Prop) → (PVar → Prop) → Prop
  | nil (S : PVar → Prop) : SetOps [] S S
  | cons (op : SetOp) (ops : List SetOp) (S T U : PVar → Prop) (h : op.Means S T) (hs : SetOps ops T U) :
      SetOps (op :: ops) S U

end Sawatabi
