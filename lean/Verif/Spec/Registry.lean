import Verif.Spec.History

/-!
# Specification: the constraints and arrays a model holds after a history of calls
-/

namespace Sawatabi

/-- The model after a history of calls, each of which returned or raised. -/
def afterOps (env : Env) (m : LModel) (ops : List Op) : LModel := ops.foldl (Op.step env) m

/-- The call adds a constraint with that label, or removes that label. -/
def Op.Touches (l : String) : Op → Prop
  | .addConstraint c => c.label = l
  | .removeConstraint l' => l' = l
  | _ => False

/-- The constraint of that label was added by a call of the history, and no later call touches the label. -/
def AddedLast (ops : List Op) (l : String) (c : Constraint) : Prop :=
  ∃ pre post, ops = pre ++ .addConstraint c :: post ∧ c.label = l ∧ ∀ op ∈ post, ¬ op.Touches l

/-- Calls other than `delete_variable` and `merge` (for these see C12 and C41). -/
def Op.Plain : Op → Prop
  | .delete _ => False
  | .merge _ _ => False
  | _ => True

/-- The labels that the delete calls of a history name, whether the calls returned or raised. -/
def DeletedBy (ops : List Op) (l : String) : Prop := ∃ v : PVar, .delete v ∈ ops ∧ v.label = l

/-- A value that a variable of the model type can take. -/
inductive ValueOf : MType → PyNum → Prop
  | one (mt : MType) : ValueOf mt (.num 1)
  | minus : ValueOf .ising (.num (-1))
  | zero : ValueOf .qubo (.num 0)

/-- A fix call of the history names the label with a value that fits the type the model had at that time. -/
def FixedBy (env : Env) (m : LModel) (ops : List Op) (l : String) : Prop :=
  ∃ pre clk v x post, ops = pre ++ .fix clk v x :: post ∧ v.label = l ∧ ValueOf (afterOps env m pre).mtype x

/-- Calls other than `merge`. -/
def Op.NotMerge : Op → Prop
  | .merge _ _ => False
  | _ => True

/-- An array fits the model and is named: its first variable has the type of the model and a label with a bracket. -/
def VArray.Fits (a : VArray) (mt : MType) (name : String) : Prop :=
  ∃ v rest tail, a.bits = v :: rest ∧ (v.vt = .spin ↔ mt = .ising) ∧ v.label = name ++ "[" ++ tail ∧ '[' ∉ name.toList

end Sawatabi
