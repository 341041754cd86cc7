import Verif.Spec.Solver
import Mathlib.Data.Int.Log
import Mathlib.Data.Rat.Floor

/-!
# Rounding errors

What the rounding of floats may be, and how large the error of an energy can become.
-/

namespace Sawatabi

/-- The error of a rounding is at most `u` times the number that is rounded. -/
def Relative (u : ℚ) (round : ℚ → ℚ) : Prop := ∀ q, |round q - q| ≤ u * |q|

/-- The rounding keeps the multiples of `w` up to `top`. -/
def Keeps (w top : ℚ) (round : ℚ → ℚ) : Prop := ∀ z : ℤ, |(z : ℚ) * w| ≤ top → round (z * w) = z * w

/-- The sum of the absolute values of all coefficients. -/
def Bqm.mass (b : Bqm) : ℚ := |b.offset| + (b.linear.map fun kv => |kv.2|).sum + (b.quad.map fun kv => |kv.2|).sum

/-- All coefficients are multiples of `w`. -/
def Bqm.Multiples (w : ℚ) (b : Bqm) : Prop :=
  (∃ z : ℤ, b.offset = z * w) ∧ (∀ kv ∈ b.linear, ∃ z : ℤ, kv.2 = z * w) ∧ ∀ kv ∈ b.quad, ∃ z : ℤ, kv.2 = z * w

/-- The sum of the absolute values of all coefficients of a physical model. -/
def Physical.mass (p : Physical) : ℚ :=
  |p.offset| + (p.linear.map fun kv => |kv.2|).sum + (p.quad.map fun kv => |kv.2|).sum

/-- All coefficients of a physical model are multiples of `w`. -/
def Physical.Multiples (w : ℚ) (p : Physical) : Prop :=
  (∃ z : ℤ, p.offset = z * w) ∧ (∀ kv ∈ p.linear, ∃ z : ℤ, kv.2 = z * w) ∧ ∀ kv ∈ p.quad, ∃ z : ℤ, kv.2 = z * w

/-- No variable has more than `D` interactions with others. -/
def Physical.DegreeAtMost (p : Physical) (D : Nat) : Prop :=
  ∀ v, (p.quad.filter fun kv => kv.1.1 = v ∨ kv.1.2 = v).length ≤ D

/-- The summands of an energy. -/
def Bqm.summands (b : Bqm) (σ : Assign) : List ℚ :=
  b.offset :: ((b.linear.map fun kv => kv.2 * σ kv.1) ++ b.quad.map fun kv => kv.2 * (σ kv.1.1 * σ kv.1.2))

/-- A sum in floats, from left to right. -/
def roundedSum (round : ℚ → ℚ) (d : ℚ) (l : List ℚ) : ℚ := l.foldl (fun d t => round (d + t)) d

/-- The energies of spins on the labels `ls` are sums of the summands, in some order, rounded after every addition. -/
def SumsUp (round : ℚ → ℚ) (energy : Bqm → Sample → Except Err ℚ) (b : Bqm) (ls : List String) : Prop :=
  ∀ x : List ℤ, x.length = ls.length → IsSpins x → ∀ q, energy b (ls.zip x) = .ok q →
    ∃ l, l.Perm (b.summands (spinAssign ls x)) ∧ q = roundedSum round 0 l

/-- How far an energy can be from the true one after `k` flips: `e` at the start, `D` the number of terms of a
difference, `A` the sum of the absolute coefficients. -/
def driftBound (u : ℚ) (D : Nat) (A e : ℚ) (k : Nat) : ℚ :=
  (1 + u) ^ k * e + ((List.range k).map fun i => (1 + u) ^ i).sum * (2 * (1 + u) * ((1 + u) ^ D - 1) + u) * A

/-- Rounding to the nearest number with `p` binary digits, without limits of the exponent; a number in the middle is
rounded up. `p = 53` for the floats of Python. -/
def nearest (p : Nat) (q : ℚ) : ℚ :=
  if q = 0 then 0 else
    let ulp : ℚ := 2 ^ (Int.log 2 |q| - (p : ℤ) + 1)
    ⌊q / ulp + 1 / 2⌋ * ulp

end Sawatabi
