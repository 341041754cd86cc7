import Verif.Spec.Energy
import Verif.Spec.Arrays
import Verif.Model.Convert

/-!
# Specification: compiled PyQUBO models
-/

namespace Sawatabi

/-- The energy of a compiled PyQUBO model: offset plus the QUBO form. -/
def PModel.energy (ρ : PEnv) (σ : Assign) (p : PModel) : ℚ :=
  p.offset.eval ρ + (p.qubo.map fun kv => kv.2.eval ρ * (σ kv.1.1 * σ kv.1.2)).sum

/-- The structure of a PyQUBO model names the array and the index tuple of a label. -/
def PModel.Labelled (p : PModel) : Prop :=
  ∀ k n idx, dget p.struct k = some (n, idx) → k = arrayLabel n idx

/-- All coefficients are plain numbers. -/
def PModel.Numeric (p : PModel) : Prop := ∀ kv ∈ p.qubo, kv.2.isNum = true

end Sawatabi
