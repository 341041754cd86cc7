import Verif.Model.Core
import Mathlib.Algebra.BigOperators.Group.List.Basic

/-!
# Specification: arrays of variables
-/

namespace Sawatabi

/-- An index tuple of an array of shape `sh`. -/
def InShape (idx sh : List Nat) : Prop := List.Forall₂ (· < ·) idx sh

/-- The label of a variable of an array: `name[i][j]...`. -/
def arrayLabel (name : String) (idx : List Nat) : String :=
  name ++ String.join (idx.map fun i => "[" ++ toString i ++ "]")

/-- Position of an index tuple in row-major order. -/
def rowMajor : List Nat → List Nat → Nat
  | _ :: ds, i :: is => i * ds.prod + rowMajor ds is
  | _, _ => 0

/-- `a` is the array `name` of shape `sh`: one variable per index tuple, with distinct labels, in row-major
order. -/
structure IsArray (name : String) (sh : List Nat) (vt : VType) (a : VArray) : Prop where
  shape : a.shape = sh
  mem : ∀ v, v ∈ a.bits ↔ ∃ idx, InShape idx sh ∧ v = ⟨vt, arrayLabel name idx⟩
  nodup : (a.bits.map (·.label)).Nodup
  count : a.bits.length = sh.prod
  order : ∀ idx, InShape idx sh → a.bits[rowMajor sh idx]? = some ⟨vt, arrayLabel name idx⟩

/-- The labels of the variables of a model. -/
def LModel.allLabels (m : LModel) : List String := m.vars.flatMap fun p => p.2.bits.map (·.label)

/-- The variable dictionary holds arrays of the model's type under their own names. -/
structure VarsOk (m : LModel) : Prop where
  keys : (dkeys m.vars).Nodup
  arrays : ∀ n a, (n, a) ∈ m.vars → IsArray n a.shape m.mtype.vtype a ∧ a.shape ≠ [] ∧ (∀ d ∈ a.shape, 0 < d) ∧
    '*' ∉ n.toList

end Sawatabi
