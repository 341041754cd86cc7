import Verif.Spec.Physical
import Verif.Model.Solver

/-!
# Specification: solvers
-/

namespace Sawatabi

/-- A physical model as `to_physical` builds it when every variable has an index: `ls` are the labels by index. -/
structure Physical.Ready (p : Physical) (ls : List String) : Prop where
  linear : (dkeys p.linear).Nodup
  quad : (dkeys p.quad).Nodup
  ordered : ∀ k ∈ dkeys p.quad, k.1 < k.2
  nodup : ls.Nodup
  mem : ∀ l, l ∈ ls ↔ l ∈ dkeys p.linear ∨ ∃ k ∈ dkeys p.quad, k.1 = l ∨ k.2 = l
  labelToIndex : p.labelToIndex = ls.zipIdx
  indexToLabel : p.indexToLabel = ls.zipIdx.map Prod.swap

/-- The values of a sample (0 for other labels). -/
def Sample.assign (s : Sample) : Assign := fun l => (((dget s l).getD 0 : ℤ) : ℚ)

/-- The assignment that a spin vector stands for: entry `i` belongs to the `i`-th label. -/
def spinAssign (ls : List String) (x : List ℤ) : Assign := fun l => (((x[ls.idxOf l]?).getD 0 : ℤ) : ℚ)

/-- A spin vector. -/
def IsSpins (x : List ℤ) : Prop := ∀ a ∈ x, a = 1 ∨ a = -1

/-- The domain of a variable. -/
def VType.Domain : VType → ℤ → Prop
  | .spin, a => a = 1 ∨ a = -1
  | .binary, a => a = 0 ∨ a = 1

/-- A random generator draws what it should: as many bits and numbers as asked for, numbers in `[0, 1)`, and
permutations. -/
structure Rng.Ok {γ : Type} (rng : Rng γ) : Prop where
  integers : ∀ n g, (rng.integers n g).1.length = n
  random : ∀ n g, (rng.random n g).1.length = n
  unit : ∀ n g, ∀ r ∈ (rng.random n g).1, 0 ≤ r ∧ r < 1
  permutation : ∀ n g, (rng.permutation n g).1.Perm (List.range n)

end Sawatabi
