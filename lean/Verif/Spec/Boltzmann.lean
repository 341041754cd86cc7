import Verif.Spec.Reach
import Mathlib.Analysis.Complex.Exponential
import Mathlib.Algebra.BigOperators.Group.Finset.Basic

/-!
# Specification: distributions of states

The Boltzmann distribution of spin vectors, and the chance of an event when random numbers are drawn evenly from a grid.
-/

namespace Sawatabi

/-- The numbers that a generator with resolution `1 / N` draws from; for `Generator.random` of numpy `N` is `2 ^ 53`. -/
def grid (N : Nat) : List ℚ := (List.range N).map fun (k : Nat) => (k : ℚ) / N

/-- All ways to draw `n` of these numbers. -/
def draws (N : Nat) : Nat → List (List ℚ)
  | 0 => [[]]
  | n + 1 => (grid N).flatMap fun r => (draws N n).map (r :: ·)

/-- The chance of an event if `n` numbers are drawn, each way being equally likely. -/
def chance (N n : Nat) (event : List ℚ → Bool) : ℚ := ((draws N n).countP event : ℚ) / ((draws N n).length : ℚ)

/-- All spin vectors of a length. -/
def spinVectors : Nat → Finset (List ℤ)
  | 0 => {[]}
  | n + 1 => (spinVectors n).image (1 :: ·) ∪ (spinVectors n).image (-1 :: ·)

/-- The Boltzmann weight of a state at a temperature. -/
noncomputable def boltzmann (E : List ℤ → ℚ) (T : ℚ) (x : List ℤ) : ℝ := Real.exp ((-(E x) / T : ℚ) : ℝ)

/-- `exp` is the exponential function with error at most `η`, for arguments that are not positive. -/
def NearExp (exp : ℚ → Except Err ℚ) (η : ℝ) : Prop :=
  ∀ a : ℚ, a ≤ 0 → ∃ v : ℚ, exp a = .ok v ∧ 0 ≤ v ∧ |(v : ℝ) - Real.exp (a : ℝ)| ≤ η

/-- Does a run of the inner loop end with these spins? -/
def endsAt (y : List ℤ) (r : Except Err Inner) : Bool :=
  match r with
  | .ok t => decide (t.x = y)
  | .error _ => false

/-- A generator that draws the given numbers. -/
def Rng.drawing {γ : Type} (rng : Rng γ) (d : List ℚ) : Rng γ := { rng with random := fun _ g => (d, g) }

/-- Does a run of the annealing return this sample? -/
def returns {γ : Type} (sample : Sample) (r : Except Err (Annealed × γ)) : Bool :=
  match r with
  | .ok (a, _) => decide (a.sample = sample)
  | .error _ => false

end Sawatabi
