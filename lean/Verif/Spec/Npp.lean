import Mathlib.Algebra.Order.Field.Rat

/-!
# Specification: number partitioning

Indices are those of the list; a partition assigns a side to each index.
-/

namespace Sawatabi.Npp

/-- The sum of the numbers whose index is on the given side. -/
def sideSum (numbers : List Nat) (side : Nat → Bool) : Nat :=
  (numbers.zipIdx.map fun vi => if side vi.2 then vi.1 else 0).sum

/-- The difference of the sums of the two sides. -/
def difference (numbers : List Nat) (side : Nat → Bool) : Nat :=
  ((sideSum numbers side : Int) - sideSum numbers (fun i => !side i)).natAbs

/-- The side that consists of the indices in a list. -/
def within (p : List Nat) : Nat → Bool := fun i => decide (i ∈ p)

/-- The difference of the sums of the two sides, for numbers of any sign. -/
def differenceZ (numbers : List Int) (side : Nat → Bool) : Nat :=
  Int.natAbs (numbers.zipIdx.map fun vi => if side vi.2 then vi.1 else -vi.1).sum

end Sawatabi.Npp
