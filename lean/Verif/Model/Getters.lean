import Verif.Model.Convert

/-!
# Selecting interactions and reading a model

Models `select_interaction` (logical_model.py:104-113) and the getters of logical_model.py:779-802.
-/

namespace Sawatabi

/-- A row of the data frame: an interaction and its attributes. (logical_model.py:348) -/
structure FrameRow where
  row : Row
  attrs : List (String × PyVal)
  deriving DecidableEq, Repr

/-- The rows of the data frame with their index labels `0, 1, …` (logical_model.py:344-348). -/
def LModel.frame (m : LModel) : List (Nat × FrameRow) :=
  m.rows.zipIdx.map fun p => (p.2, ⟨p.1, m.attrCols.filterMap fun c => (c.2[p.2]?).map (c.1, ·)⟩)

/-- A `fmt` argument (constants.py:29-30). -/
inductive SelectFormat where
  | series
  | dict
  | other
  deriving DecidableEq, Repr

/-- What `select_interaction` returns: rows of the data frame, or a dictionary from index labels to rows. (logical_model.py:109-113) -/
inductive Selection where
  | frame (rows : List (Nat × FrameRow))
  | dict (d : List (Nat × FrameRow))
  deriving DecidableEq, Repr

/-- `select_interaction` (logical_model.py:104-113). `query` stands for pandas: from the names of the attribute columns it makes a
condition on rows, or raises. Conditions that look at several rows at once (like `coefficient == coefficient.max()`) are left out. -/
def selectInteraction (query : List String → Except Err (FrameRow → Bool)) (fmt : SelectFormat) : Py LModel Selection := do
  makeFrame
  let m ← get
  let c ← liftE (query (dkeys m.attrCols))
  let searched := m.frame.filter fun p => c p.2
  match fmt with
  | .series => return .frame searched
  | .dict => return .dict (searched.foldl (fun d p => dset d p.1 p.2) [])
  | .other => throw .valueError

/-- `get_variables` (logical_model.py:780-784). -/
def LModel.getVariables (m : LModel) : List (String × VArray) := m.vars

/-- `get_variables_by_name` (logical_model.py:786-790). -/
def LModel.getVariablesByName (m : LModel) (name : String) : Except Err VArray :=
  match dget m.vars name with
  | some a => .ok a
  | none => .error .keyError

/-- `get_deleted_array` (logical_model.py:792-796). -/
def LModel.getDeletedArray (m : LModel) : List String := m.deleted

/-- `get_fixed_array` (logical_model.py:798-802). -/
def LModel.getFixedArray (m : LModel) : List String := m.fixed

end Sawatabi
