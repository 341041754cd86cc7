import Verif.Spec.Boltzmann
import Mathlib.Data.List.Permutation

/-!
# Drawing the orders of the sweeps
-/

namespace Sawatabi

/-- All ways to draw the orders of `k` sweeps over `n` spins. -/
def orderings (n : Nat) : Nat → List (List (List Nat))
  | 0 => [[]]
  | k + 1 => (List.range n).permutations.flatMap fun ps => (orderings n k).map (ps :: ·)

/-- A generator whose permutations are the given ones. -/
def Rng.ordering : Rng (List (List Nat)) where
  integers n g := (List.replicate n true, g)
  random n g := (List.replicate n 0, g)
  permutation n g := (match g with
    | [] => List.range n
    | ps :: _ => if ps.Perm (List.range n) then ps else List.range n, g.tail)

/-- The chance of an event if the orders of `k` sweeps over `n` spins and `k * n` numbers are drawn, each way being equally
likely. -/
def runChance (N n k : Nat) (event : List (List Nat) → List ℚ → Bool) : ℚ :=
  ((orderings n k).map fun pss => chance N (k * n) (event pss)).sum / ((orderings n k).length : ℚ)

end Sawatabi
