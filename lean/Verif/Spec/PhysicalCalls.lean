import Verif.Model.PhysicalCalls
import Verif.Spec.Solver
import Verif.Spec.Physical
import Verif.Spec.History

/-!
# Specification: physical models that are written by hand
-/

namespace Sawatabi

/-- The coefficient of a label after calls: the last one given, else the one from before. -/
def PhysCall.lastLinear (l : String) : List PhysCall → Option ℚ → Option ℚ
  | [], old => old
  | .linear l' c :: calls, old => lastLinear l calls (if l' = l then some c else old)
  | _ :: calls, old => lastLinear l calls old

/-- The coefficient of a pair of labels (in this order) after calls: the last one given, else the one from before. -/
def PhysCall.lastPair (a b : String) : List PhysCall → Option ℚ → Option ℚ
  | [], old => old
  | .quadratic a' b' c :: calls, old => lastPair a b calls (if a' = a ∧ b' = b then some c else old)
  | _ :: calls, old => lastPair a b calls old

/-- No coefficient belongs to a pair of a label with itself. -/
def Physical.LoopFree (p : Physical) : Prop := ∀ a, dget p.quad (a, a) = none

/-- A physical model that was made by hand or by `to_physical`, and then extended by hand. -/
def Physical.ByHand (p : Physical) : Prop :=
  ∃ p₀ calls, ((∃ t, p₀ = Physical.new t) ∨ p₀.FromCalls) ∧ p = p₀.after calls

/-- The label occurs in the model. -/
def Physical.Occurs (p : Physical) (l : String) : Prop :=
  (∃ c, dget p.linear l = some c) ∨ ∃ b c, dget p.quad (l, b) = some c ∨ dget p.quad (b, l) = some c

end Sawatabi
