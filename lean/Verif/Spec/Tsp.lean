import Verif.Spec.Pyqubo
import Verif.Spec.Energy
import Verif.Spec.Physical
import Verif.Model.Tsp
import Mathlib.Algebra.BigOperators.Group.Finset.Basic
import Mathlib.Data.List.Rotate

/-!
# Specification: the travelling salesperson problem
-/

namespace Sawatabi.Tsp

open Finset

/-! ## Expressions -/

/-- Value of an expression. -/
def HExpr.eval (ρ : PEnv) (σ : Assign) : HExpr → ℚ
  | .num q => q
  | .var v => σ v.label
  | .ph n => ρ n
  | .add a b => a.eval ρ σ + b.eval ρ σ
  | .mul a b => a.eval ρ σ * b.eval ρ σ
  | .constraint e _ => e.eval ρ σ

/-- The labels of the variables of an expression. -/
def HExpr.labels : HExpr → List String
  | .var v => [v.label]
  | .add a b | .mul a b => a.labels ++ b.labels
  | .constraint e _ => e.labels
  | _ => []

/-- The placeholders of an expression. -/
def HExpr.placeholders : HExpr → List String
  | .ph n => [n]
  | .add a b | .mul a b => a.placeholders ++ b.placeholders
  | .constraint e _ => e.placeholders
  | _ => []

/-- The degree of an expression in its variables. -/
def HExpr.degree : HExpr → Nat
  | .var _ => 1
  | .add a b => max a.degree b.degree
  | .mul a b => a.degree + b.degree
  | .constraint e _ => e.degree
  | _ => 0

/-- The two labels of a key of a QUBO, smaller first. -/
def pairOf (k : String × String) : String × String := if k.2 < k.1 then (k.2, k.1) else k

/-- What is expected of `expression.compile()`: the QUBO form has the values of the expression for all bits and all values
of the placeholders, it has no variables and placeholders besides those of the expression, each pair of variables occurs
once, and the structure names array and indices of each label. -/
structure Compiles (h : HExpr) (pm : PModel) : Prop where
  energy : ∀ (ρ : PEnv) (σ : Assign), σ.IsBinary → pm.energy ρ σ = h.eval ρ σ
  labels : ∀ kv ∈ pm.qubo, kv.1.1 ∈ h.labels ∧ kv.1.2 ∈ h.labels
  once : (pm.qubo.map fun kv => pairOf kv.1).Nodup
  placeholders : ∀ kv ∈ pm.qubo, ∀ n ∈ kv.2.placeholders, n ∈ h.placeholders
  offset : ∀ n ∈ pm.offset.placeholders, n ∈ h.placeholders
  labelled : pm.Labelled
  struct : ∀ n idx, '[' ∉ n.toList → arrayLabel n idx ∈ h.labels → dget pm.struct (arrayLabel n idx) = some (n, idx)

/-! ## Tours -/

/-- The label of the variable for city `j` at time `i`. -/
def lab (i j : Nat) : String := arrayLabel "city" [i, j]

/-- The distances between the cities of a window by index. -/
def distances {κ : Type} (dist : κ → κ → ℚ) (els : List (Stream.El (City κ))) (i j : Nat) : ℚ :=
  match els[i]?, els[j]? with
  | some a, some b => dist a.data.place b.data.place
  | _, _ => 0

/-- The Hamiltonian of the problem for `n` cities with distances `d`. -/
def cost (n : Nat) (d : Nat → Nat → ℚ) (A B : ℚ) (X : Nat → Nat → ℚ) : ℚ :=
  (∑ i ∈ range n, ∑ j ∈ range n, ∑ k ∈ range n, d i j * X k i * X ((k + 1) % n) j) +
  A * (∑ i ∈ range n, (∑ j ∈ range n, X i j - 1) ^ 2) + B * ∑ j ∈ range n, (∑ i ∈ range n, X i j - 1) ^ 2

/-- A tour visits each of the cities `0, ..., n - 1` once. -/
def Tour (n : Nat) (t : List Nat) : Prop := t.Perm (List.range n)

/-- The length of a tour that returns to its start. -/
def tourLength (d : Nat → Nat → ℚ) (t : List Nat) : ℚ := (List.zipWith d t (t.rotate 1)).sum

/-- A shortest tour. -/
def Shortest (n : Nat) (d : Nat → Nat → ℚ) (t : List Nat) : Prop :=
  Tour n t ∧ ∀ t', Tour n t' → tourLength d t ≤ tourLength d t'

/-- The bits say which city is visited at which time. -/
def Follows (n : Nat) (X : Nat → Nat → ℤ) (t : List Nat) : Prop :=
  ∀ i < n, ∀ j < n, X i j = if t[i]? = some j then 1 else 0

/-- The names of the cities that the bits select: for each time the first city whose bit is set, if any. -/
def selected {κ : Type} (els : List (Stream.El (City κ))) (X : Nat → Nat → ℤ) : List String :=
  (List.range els.length).flatMap fun i => ((els.zipIdx.find? fun e => decide (X i e.2 = 1)).map (·.1.data.name)).toList

/-- The names of the cities of a tour. -/
def Names {κ : Type} (els : List (Stream.El (City κ))) (t : List Nat) (r : List String) : Prop :=
  r.map some = t.map fun j => els[j]?.map (·.data.name)

/-- The bits minimise the Hamiltonian. -/
def Minimises (n : Nat) (d : Nat → Nat → ℚ) (A B : ℚ) (X : Nat → Nat → ℤ) : Prop :=
  (∀ i j, X i j = 0 ∨ X i j = 1) ∧ ∀ Y : Nat → Nat → ℤ, (∀ i j, Y i j = 0 ∨ Y i j = 1) →
    cost n d A B (fun i j => (X i j : ℚ)) ≤ cost n d A B (fun i j => (Y i j : ℚ))

end Sawatabi.Tsp
