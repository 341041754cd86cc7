import Verif.Spec.Solver

/-!
# Specification: what sweeps can do

The states a sweep of single flips can lead to, without temperatures, random numbers and energies kept along the way.
-/

namespace Sawatabi

/-- The state with spin `i` turned. -/
def flipAt (x : List ℤ) (i : Nat) : List ℤ := x.set i ((x[i]?).getD 0 * -1)

/-- One pass over the spins `ps` that leads from a state to another: each spin is turned, or left, the latter only where
turning it would raise the energy. -/
inductive SweepPath (E : List ℤ → ℚ) : List Nat → List ℤ → List ℤ → Prop
  | done (x : List ℤ) : SweepPath E [] x x
  | flip {ps : List Nat} {x y : List ℤ} {i : Nat} : SweepPath E ps (flipAt x i) y → SweepPath E (i :: ps) x y
  | stay {ps : List Nat} {x y : List ℤ} {i : Nat} : E x < E (flipAt x i) → SweepPath E ps x y → SweepPath E (i :: ps) x y

/-- The orders in which a sweep may take `n` spins. -/
def Pickup.Order : Pickup → Nat → List Nat → Prop
  | .random, n, ps => ps.Perm (List.range n)
  | .sequential, n, ps => ps = List.range n
  | .other, _, _ => False

/-- `k` passes over `n` spins can lead from `x` to `y`. -/
def Reaches (E : List ℤ → ℚ) (mode : Pickup) (n : Nat) : Nat → List ℤ → List ℤ → Prop
  | 0, x, y => x = y
  | k + 1, x, y => ∃ z ps, mode.Order n ps ∧ SweepPath E ps x z ∧ Reaches E mode n k z y

/-- A state where turning any single spin raises the energy. -/
def StrictOptimum (E : List ℤ → ℚ) (n : Nat) (x : List ℤ) : Prop := ∀ i < n, E x < E (flipAt x i)

end Sawatabi
