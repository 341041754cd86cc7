import Verif.Spec.Rounding

/-!
# Sums in floats, in any order
-/

namespace Sawatabi

/-- A sum of numbers in floats; the additions are done in any order and any grouping, each is rounded. -/
inductive Summed (round : ℚ → ℚ) : List ℚ → ℚ → Prop
  | one (q : ℚ) : Summed round [q] q
  | add {l l' : List ℚ} {a b : ℚ} (h : Summed round l a) (h' : Summed round l' b) : Summed round (l ++ l') (round (a + b))
  | perm {l l' : List ℚ} {a : ℚ} (h : Summed round l a) (hp : l.Perm l') : Summed round l' a

/-- `c` is what dimod makes of `b` when it substitutes `(s + 1) / 2` for the binary variables: halves and quarters are
exact in binary floats, sums are rounded. -/
structure ToSpins (round : ℚ → ℚ) (b c : Bqm) : Prop where
  vartype : c.vartype = .spin
  labels : dkeys c.linear = b.variables
  quad : c.quad = b.quad.map fun kv => (kv.1, kv.2 / 4)
  linear : ∀ v ∈ b.variables, Summed round (b.bias v / 2 :: (b.neighbours v).map fun e => e.2 / 4) (c.bias v)
  offset : Summed round (b.offset :: ((b.variables.map fun v => b.bias v / 2) ++ b.quad.map fun kv => kv.2 / 4)) c.offset

end Sawatabi
