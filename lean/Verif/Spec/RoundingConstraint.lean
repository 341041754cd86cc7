import Verif.Spec.RoundingPhysical
import Verif.Spec.Constraint

/-!
# Rounding errors of penalties
-/

namespace Sawatabi

/-- The sum of the absolute coefficients of the penalty of a constraint, multiplied out: `k` variables make `k` linear
coefficients and `k * (k - 1) / 2` quadratic ones. -/
def Constraint.mass : Constraint → ℚ
  | .nHot _ s vs n => |s| * (|1 - 2 * (n : ℚ)| * vs.length + vs.length * (vs.length - 1))
  | .zeroOrOneHot _ s vs => |s| * (vs.length * (vs.length - 1))
  | .equality _ s v1 v2 => |s| * ((v1.length : ℚ) + v2.length) ^ 2

/-- The sum of the absolute weights of a model and the absolute coefficients of its penalties. -/
def LModel.totalWeights (m : LModel) : ℚ := m.weights + (m.constraints.map fun c => c.2.mass).sum

/-- The labels of the variables of an interaction. -/
def Inter.ends : Inter → List String
  | .lin v => [v.label]
  | .quad v w => [v.label, w.label]

/-- The labels of the variables of a constraint. -/
def Constraint.over (c : Constraint) : List String := c.sets.flatten.map (·.label)

/-- At most `K` of the active interactions and constraints are about the same variables. -/
def LModel.SharedAtMost (m : LModel) (K : Nat) : Prop := ∀ i : Inter,
  (m.active.filter fun r => decide (i.Same r.inter)).length +
    (m.constraints.filter fun c => i.ends.all fun l => c.2.over.contains l).length ≤ K

end Sawatabi
