import Verif.Spec.Energy
import Verif.Spec.Arrays
import Verif.Spec.Solver
import Verif.Model.Solver

/-!
# Specification: what the sample models are for
-/

namespace Sawatabi.Samples

/-- The value of a variable in a sample. -/
def value (s : Sample) (v : String) : ℤ := (dget s v).getD 0

/-- What an exhaustive solver is to return for a problem over the variables `labels` with optimum `E`, reached by the
`good` assignments only: every assignment occurs, with nothing but the variables of the problem, the energies are
at least `E`, and `E` is the energy of the good ones. -/
structure Finds (labels : List String) (vt : VType) (E : ℚ) (good : (String → ℤ) → Prop) (res : List (Sample × ℚ)) : Prop where
  keys : ∀ r ∈ res, (dkeys r.1).Nodup ∧ ∀ v, v ∈ dkeys r.1 ↔ v ∈ labels
  domain : ∀ r ∈ res, ∀ v ∈ labels, vt.Domain (value r.1 v)
  all : ∀ f : String → ℤ, (∀ v, vt.Domain (f v)) → ∃ r ∈ res, ∀ v ∈ labels, value r.1 v = f v
  once : (res.map (·.1)).Nodup
  bound : ∀ r ∈ res, E ≤ r.2
  optimal : ∀ r ∈ res, r.2 = E ↔ good (value r.1)
  reached : ∃ r ∈ res, r.2 = E

/-- The labels `x[0], ..., x[s-1]`. -/
def row (name : String) (s : Nat) : List String := (List.range s).map fun i => arrayLabel name [i]

/-- How many of the variables are 1. -/
def hot (labels : List String) (f : String → ℤ) : Nat := (labels.filter fun v => decide (f v = 1)).length

end Sawatabi.Samples
