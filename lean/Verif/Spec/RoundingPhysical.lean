import Verif.Spec.Rounding
import Verif.Spec.Energy

/-!
# Rounding errors of the physical model
-/

namespace Sawatabi

/-- The active interactions. -/
def LModel.active (m : LModel) : List Row := m.rows.filter fun r => !r.removed

/-- The offset, and the coefficients and scales of the active interactions, are numbers: there are no placeholders. -/
def LModel.Plain (m : LModel) : Prop :=
  (∃ q, m.offset = .num q) ∧ ∀ r ∈ m.active, ∃ a b, r.coef = .num a ∧ r.scale = .num b

/-- The weight of an interaction. -/
def Row.weight : Row → ℚ
  | ⟨_, _, .num a, .num b, _, _, _⟩ => a * b
  | _ => 0

/-- The sum of the absolute weights of the active interactions. -/
def LModel.weights (m : LModel) : ℚ := (m.active.map fun r => |r.weight|).sum

/-- Two interactions are about the same variables. -/
def Inter.Same : Inter → Inter → Prop
  | .lin v, .lin w => v.label = w.label
  | .quad v w, .quad x y => v.label = x.label ∧ w.label = y.label
  | _, _ => False

instance : DecidableRel Inter.Same := fun a b => by cases a <;> cases b <;> unfold Inter.Same <;> infer_instance

/-- At most `K` active interactions are about the same variables. -/
def LModel.AtMost (m : LModel) (K : Nat) : Prop := ∀ i : Inter, (m.active.filter fun r => decide (i.Same r.inter)).length ≤ K

/-- All weights, and the offset, are multiples of `w`. -/
def LModel.Multiples (w : ℚ) (m : LModel) : Prop :=
  (∃ z : ℤ, m.offset = .num (z * w)) ∧ ∀ r ∈ m.active, ∃ z : ℤ, r.weight = z * w

end Sawatabi
