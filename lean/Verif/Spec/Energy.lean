import Verif.Model.Types
import Mathlib.Algebra.BigOperators.Group.List.Basic

/-!
# Specification: Hamiltonians

The meaning of a model as a function from assignments to energies, in sawatabi's sign convention
`H = offset - Σ coefficient * scale * (product of the variables)` (physical_model.py:57-59 and the
README). Nothing here uses the functions of the model.
-/

namespace Sawatabi

/-- Values of the placeholders. -/
abbrev PEnv := String → ℚ
/-- Values of the variables, by label. -/
abbrev Assign := String → ℚ

/-- Value of an expression. -/
def PExpr.eval (ρ : PEnv) : PExpr → ℚ
  | .num q => q
  | .ph n => ρ n
  | .add a b => a.eval ρ + b.eval ρ
  | .mul a b => a.eval ρ * b.eval ρ

/-- Value of a coefficient. -/
def Coef.eval (ρ : PEnv) : Coef → ℚ
  | .num q => q
  | .expr e => e.eval ρ

/-- The monomial of an interaction. -/
def Inter.value (σ : Assign) : Inter → ℚ
  | .lin v => σ v.label
  | .quad v w => σ v.label * σ w.label

/-- What one interaction contributes (before the sign). A removed interaction contributes nothing. -/
def Row.term (ρ : PEnv) (σ : Assign) (r : Row) : ℚ :=
  if r.removed then 0 else r.coef.eval ρ * r.scale.eval ρ * r.inter.value σ

/-- What an interaction would contribute if it were active. -/
def Row.full (ρ : PEnv) (σ : Assign) (r : Row) : ℚ := r.coef.eval ρ * r.scale.eval ρ * r.inter.value σ

/-- Energy of a logical model without its constraints. -/
def LModel.energy (ρ : PEnv) (σ : Assign) (m : LModel) : ℚ :=
  m.offset.eval ρ - (m.rows.map (Row.term ρ σ)).sum

/-- Energy of a physical model. -/
def Physical.energy (σ : Assign) (p : Physical) : ℚ :=
  p.offset - (p.linear.map fun kv => kv.2 * σ kv.1).sum
    - (p.quad.map fun kv => kv.2 * (σ kv.1.1 * σ kv.1.2)).sum

/-- `σ` with the variable `l` set to `a`. -/
def Assign.subst (σ : Assign) (l : String) (a : ℚ) : Assign := fun x => if x = l then a else σ x

/-- A placeholder dictionary agrees with `ρ`. -/
def PEnv.Extends (ρ : PEnv) (ph : List (String × ℚ)) : Prop := ∀ n q, (n, q) ∈ ph → ρ n = q

/-- All values are spins. -/
def Assign.IsSpin (σ : Assign) : Prop := ∀ l, σ l = 1 ∨ σ l = -1

/-- All values are bits. -/
def Assign.IsBinary (σ : Assign) : Prop := ∀ l, σ l = 0 ∨ σ l = 1

/-- The spin assignment that corresponds to a binary one: `s = 2x - 1`. -/
def Assign.toSpin (x : Assign) : Assign := fun l => 2 * x l - 1

/-- The binary assignment that corresponds to a spin one: `x = (s + 1) / 2`. -/
def Assign.toBinary (s : Assign) : Assign := fun l => (s l + 1) / 2

end Sawatabi
