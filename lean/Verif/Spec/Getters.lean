import Verif.Model.Getters
import Verif.Spec.Registry

/-!
# Specification: the rows of the table, and the shapes of the arrays after a history of calls
-/

namespace Sawatabi

/-- `fr` is line `i` of the table: the interaction at that place, with one entry per attribute column. -/
def LModel.Line (m : LModel) (i : Nat) (fr : FrameRow) : Prop :=
  m.rows[i]? = some fr.row ∧ List.Forall₂ (fun c e => e.1 = c.1 ∧ c.2[i]? = some e.2) m.attrCols fr.attrs

/-- Every attribute column has one entry per interaction. -/
def LModel.Even (m : LModel) : Prop := ∀ c ∈ m.attrCols, c.2.length = m.rows.length

/-- The lines of a selection with their index labels. -/
def Selection.lines : Selection → List (Nat × FrameRow)
  | .frame l => l
  | .dict d => d

/-- Shapes by name. -/
abbrev Shapes := String → Option (List Int)

/-- The shapes after one more is registered, if its entries are positive. -/
def Shapes.put (s : Shapes) (n : String) (sh : List Int) : Shapes :=
  if sh ≠ [] ∧ ∀ d ∈ sh, 0 < d then fun k => if k = n then some sh else s k else s

/-- The shapes after a call: `variables` sets a shape, `append` adds to it as far as both have entries, no other call changes
it. -/
def Shapes.after (s : Shapes) : Op → Shapes
  | .variables n sh => if '*' ∈ n.toList then s else s.put n sh
  | .append n sh => match s n with
    | none => if '*' ∈ n.toList then s else s.put n sh
    | some old => if sh = [] then s else s.put n (List.zipWith (· + ·) old sh)
  | _ => s

/-- The shapes after a history. -/
def shapesAfter (ops : List Op) : Shapes := ops.foldl Shapes.after fun _ => none

/-- Calls that register arrays by name and shape, if at all. -/
def Op.Named : Op → Prop
  | .variablesArray _ => False
  | .merge _ _ => False
  | _ => True

end Sawatabi
