import Verif.Spec.Energy
import Verif.Model.Physical

/-!
# Specification: the coefficients of a physical model
-/

namespace Sawatabi

/-- What an interaction contributes to the linear coefficient of `l`. -/
def Row.linCoef (ρ : PEnv) (l : String) (r : Row) : ℚ :=
  if r.removed then 0 else match r.inter with
    | .lin v => if v.label = l then r.coef.eval ρ * r.scale.eval ρ else 0
    | .quad _ _ => 0

/-- What an interaction contributes to the coefficient of the pair `{a, b}`. -/
def Row.pairCoef (ρ : PEnv) (a b : String) (r : Row) : ℚ :=
  if r.removed then 0 else match r.inter with
    | .lin _ => 0
    | .quad v w =>
      if (v.label = a ∧ w.label = b) ∨ (v.label = b ∧ w.label = a) then r.coef.eval ρ * r.scale.eval ρ else 0

/-- The linear coefficient of `l` in a table of interactions. -/
def linTotal (ρ : PEnv) (rows : List Row) (l : String) : ℚ := (rows.map (Row.linCoef ρ l)).sum

/-- The coefficient of the pair `{a, b}` in a table of interactions. -/
def pairTotal (ρ : PEnv) (rows : List Row) (a b : String) : ℚ := (rows.map (Row.pairCoef ρ a b)).sum

/-- The names of the placeholders of an expression. -/
def PExpr.placeholders : PExpr → List String
  | .num _ => []
  | .ph n => [n]
  | .add a b => a.placeholders ++ b.placeholders
  | .mul a b => a.placeholders ++ b.placeholders

/-- The names of the placeholders of a coefficient. -/
def Coef.placeholders : Coef → List String
  | .num _ => []
  | .expr e => e.placeholders

/-- The active interactions and the offset use only placeholders of the dictionary. -/
def LModel.Filled (m : LModel) (ph : List (String × ℚ)) : Prop :=
  (∀ r ∈ m.rows, r.removed = false →
    (∀ n ∈ r.coef.placeholders, n ∈ ph.map (·.1)) ∧ ∀ n ∈ r.scale.placeholders, n ∈ ph.map (·.1)) ∧
  ∀ n ∈ m.offset.placeholders, n ∈ ph.map (·.1)

/-- Label `l` occurs in the interaction. -/
def Inter.mentions (l : String) : Inter → Prop
  | .lin v => v.label = l
  | .quad v w => v.label = l ∨ w.label = l

/-- The entries of a column that belong to active rows. -/
def activeEntries {α : Type} (rows : List Row) (col : List α) : List α :=
  ((rows.zip col).filter fun x => !x.1.removed).map (·.2)

/-- The model without its removed interactions, everything else marked clean. -/
def LModel.cleaned (m : LModel) : LModel :=
  { m with rows := (m.rows.filter fun r => !r.removed).map fun r => { r with dirty := false }
           attrCols := m.attrCols.map fun p => (p.1, activeEntries m.rows p.2)
           length := (m.rows.filter fun r => !r.removed).length }

/-- The name of no removed interaction ends with `)`, as the names that constraints generate do. -/
def LModel.NoClash (m : LModel) : Prop := ∀ r ∈ m.rows, r.removed = true → r.name.toList.getLast? ≠ some ')'

/-- Energy of a binary quadratic model as dimod defines it. -/
def Bqm.energy (σ : Assign) (b : Bqm) : ℚ :=
  b.offset + (b.linear.map fun kv => kv.2 * σ kv.1).sum + (b.quad.map fun kv => kv.2 * (σ kv.1.1 * σ kv.1.2)).sum

/-- The value of an Optigan polynomial: the sum of `Q_ij x_i x_j`. -/
def polyValue (y : Nat → ℚ) (t : List (Nat × Nat × ℚ)) : ℚ := (t.map fun e => e.2.2 * (y e.1 * y e.2.1)).sum

end Sawatabi
