import Verif.Model.Utils
import Verif.Spec.Arrays

/-!
# Specification: helper functions
-/

namespace Sawatabi.Utils

/-- The value of a string of decimal digits by place values. -/
def decimal : List Char → Nat
  | [] => 0
  | c :: cs => (c.toNat - 48) * 10 ^ cs.length + decimal cs

/-- One or more of the ten decimal digits. -/
def IsDecimal (s : List Char) : Prop := s ≠ [] ∧ ∀ c ∈ s, c ∈ ['0', '1', '2', '3', '4', '5', '6', '7', '8', '9']

instance (s : List Char) : Decidable (IsDecimal s) := by unfold IsDecimal; infer_instance

/-- `x[i][j]...` in a nested list. -/
def Nested.at {α : Type} : Nested α → List Nat → Option (Nested α)
  | t, [] => some t
  | .leaf _, _ :: _ => none
  | .node l, i :: is => l[i]?.bind fun t => t.at is

/-- A regular array of this shape. -/
inductive Nested.HasShape {α : Type} : Nested α → List Nat → Prop
  | leaf (a : α) : HasShape (.leaf a) []
  | node {l : List (Nested α)} {n : Nat} {sh : List Nat} (hl : l.length = n) (h : ∀ t ∈ l, HasShape t sh) : HasShape (.node l) (n :: sh)

end Sawatabi.Utils
