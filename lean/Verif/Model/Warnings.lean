import Verif.Model.Convert

/-!
# The warnings of `LogicalModel`

Models the five calls of `warnings.warn` in /repo/sawatabi/model/logical_model.py (lines 90, 238, 395, 739, 774) with the
methods around them. The methods are written out again with the model and the warnings given so far as state; whatever cannot
warn is taken from Model/Core.lean and Model/Convert.lean.
-/

namespace Sawatabi.Warnings

/-- What a warning says (logical_model.py:90, 238, 395, 739, 774). -/
inductive Warning where
  /-- "Variables name '...' is not defined in the model, but will be created instead of appending it." -/
  | created (name : String)
  /-- "An interaction named '...' does not exist yet in the model, but will be added instead of updating it." -/
  | added (name : String)
  /-- "No interactions updated." -/
  | nothing
  /-- "The model is already an Ising model." or "The model is already a QUBO model." -/
  | already (mtype : MType)
  deriving DecidableEq, Repr

/-- A model and the warnings given so far (logical_model.py:90, 238, 395, 739, 774). -/
structure WState where
  model : LModel
  warnings : List Warning

/-- A step that does not warn (logical_model.py:33-774, the parts that do not call `warnings.warn`). -/
def quiet {α : Type} (x : Py LModel α) : Py WState α :=
  ⟨fun w => match x.run w.model with
    | .ok a m => .ok a { w with model := m }
    | .error e m => .error e { w with model := m }⟩

/-- `warnings.warn(...)` (logical_model.py:90, 238, 395, 739, 774). `strict` says that the filter of the caller turns warnings into
exceptions (`python -W error`); the exception is then `UserWarning`, here `userError`. That by default a warning is
shown only once for each place is left out: every call of `warnings.warn` is noted. -/
def warn (strict : Bool) (w : Warning) : Py WState Unit :=
  if strict then throw .userError else modify fun s => { s with warnings := s.warnings ++ [w] }

/-- `append` (logical_model.py:83-98) for a name and a tuple of integers. -/
def appendVars (strict : Bool) (name : String) (shape : List Int) : Py WState VArray := do
  if shape = [] then throw .typeError
  let m := (← get).model
  match dget m.vars name with
  | none =>
    warn strict (.created name)
    quiet (createVars name shape)
  | some old =>
    let newShape := elementwiseAdd (old.shape.map Int.ofNat) shape
    let a ← liftE (arrayCreate name newShape m.mtype.vtype)
    modify fun s => { s with model := { s.model with vars := dset s.model.vars name a } }
    return a

/-- `update_interaction` (logical_model.py:202-260), with arguments as in Model/Core.lean. -/
def updateInteraction (strict : Bool) (importTime now : ℚ) (target : PyTarget) (name : PyName)
    (coefficient scale : Option PyCoef) (attributes : PyAttrs) (timestamp : Option PyTs) : Py WState Unit := do
  if !target.truthy && !name.truthy then throw .valueError
  if target.truthy && name.truthy then throw .valueError
  let c ← liftE (checkNum? coefficient)
  let s ← liftE (checkNum? scale)
  if attributes = .bad then throw .typeError
  let timestamp := timestamp.getD (.num importTime)
  if timestamp = .bad then throw .typeError
  let info? ← liftE (optInfo target)
  let m := (← get).model
  let internalName? ← liftE (updateName m info? name)
  match internalName? with
  | none =>
    warn strict (.added ((info?.map Inter.defaultName).getD ""))
    quiet (addInteraction now target (.str "") (.num (c.getD 0)) (.num (s.getD 1)) .none timestamp)
  | some n =>
    if ← liftE (m.isRemoved n) then throw .valueError
    let idx ← liftE (m.indexOf n)
    quiet (writeRow idx c s attributes.entries timestamp.stored)

/-- `fix_variable` (logical_model.py:375-420) for a pyqubo variable. The loops only add by name and remove, which does not warn. -/
def fixVariable (strict : Bool) (clk : Nat → ℚ) (v : PVar) (value : PyNum) : Py WState Unit := do
  let m := (← get).model
  let q ← liftE (checkFixValue m.mtype value)
  modify fun s => { s with model := { s.model with fixed := sadd s.model.fixed v.label } }
  let selected ← quiet (selectByVariable v)
  if selected.isEmpty then
    warn strict .nothing
    return ()
  if q = 0 then
    quiet (selected.forM fun n => removeInteraction .none (.str n))
  else
    quiet (selected.zipIdx.forM fun p => fixOne (clk p.2) v q p.1)

/-- `self.update_interaction(name=..., coefficient=...)` in the conversions (logical_model.py:723, 730, 758, 765). -/
def updateCoef (strict : Bool) (env : Env) (name : String) (c : Coef) : Py WState Unit :=
  updateInteraction strict env.importTime 0 .none (.str name) (some c.toPy) none .none none

/-- One linear interaction in `to_ising` (logical_model.py:722-724). -/
def toIsingLin (strict : Bool) (env : Env) (h : Row) : Py WState Unit := do
  updateCoef strict env h.name (h.coef.mul (.num (1/2)))
  quiet (modify fun m => { m with offset := m.offset.add (h.coef.mul (.num (1/2))) })

/-- One quadratic interaction in `to_ising` (logical_model.py:729-737). -/
def toIsingQuad (strict : Bool) (env : Env) (clk : Nat → ℚ) (J : Row) : Py WState Unit := do
  match J.inter with
  | .lin _ => throw .typeError
  | .quad v w =>
    updateCoef strict env J.name (J.coef.mul (.num (1/4)))
    quiet (addInteraction (clk 1) (.var v) (.str (addedName env v.label J.name (clk 0)))
      (J.coef.mul (.num (1/4))).toPy (.num 1) .none .none)
    quiet (addInteraction (clk 3) (.var w) (.str (addedName env w.label J.name (clk 2)))
      (J.coef.mul (.num (1/4))).toPy (.num 1) .none .none)
    quiet (modify fun m => { m with offset := m.offset.add (J.coef.mul (.num (1/4))) })

/-- `to_ising` (logical_model.py:706-739). -/
def toIsing (strict : Bool) (env : Env) (clk : Nat → ℚ) : Py WState Unit := do
  if (← get).model.mtype ≠ .ising then
    quiet (modify fun m => { m with mtype := .ising })
    quiet updateVariablesType
    let hs ← quiet (selectBody 1)
    hs.forM (toIsingLin strict env)
    let js ← quiet (selectBody 2)
    js.zipIdx.forM fun p => toIsingQuad strict env (fun i => clk (4 * p.2 + i)) p.1
  else
    warn strict (.already .ising)

/-- One linear interaction in `to_qubo` (logical_model.py:757-759). -/
def toQuboLin (strict : Bool) (env : Env) (h : Row) : Py WState Unit := do
  updateCoef strict env h.name (h.coef.mul (.num 2))
  quiet (modify fun m => { m with offset := m.offset.add (h.coef.mul (.num (-1))) })

/-- One quadratic interaction in `to_qubo` (logical_model.py:764-772). -/
def toQuboQuad (strict : Bool) (env : Env) (clk : Nat → ℚ) (J : Row) : Py WState Unit := do
  match J.inter with
  | .lin _ => throw .typeError
  | .quad v w =>
    updateCoef strict env J.name (J.coef.mul (.num 4))
    quiet (addInteraction (clk 1) (.var v) (.str (addedName env v.label J.name (clk 0)))
      (J.coef.mul (.num (-2))).toPy (.num 1) .none .none)
    quiet (addInteraction (clk 3) (.var w) (.str (addedName env w.label J.name (clk 2)))
      (J.coef.mul (.num (-2))).toPy (.num 1) .none .none)
    quiet (modify fun m => { m with offset := m.offset.add J.coef })

/-- `to_qubo` (logical_model.py:741-774). -/
def toQubo (strict : Bool) (env : Env) (clk : Nat → ℚ) : Py WState Unit := do
  if (← get).model.mtype ≠ .qubo then
    quiet (modify fun m => { m with mtype := .qubo })
    quiet updateVariablesType
    let hs ← quiet (selectBody 1)
    hs.forM (toQuboLin strict env)
    let js ← quiet (selectBody 2)
    js.zipIdx.forM fun p => toQuboQuad strict env (fun i => clk (4 * p.2 + i)) p.1
  else
    warn strict (.already .qubo)

/-- `_convert_mtype` (logical_model.py:673-680). -/
def convertMtype (strict : Bool) (env : Env) (clk : Nat → ℚ) : Py WState Unit := do
  match (← get).model.mtype with
  | .qubo => toIsing strict env clk
  | .ising => toQubo strict env clk

/-- One round of the variable loop of merge (logical_model.py:626-633). -/
def mergeVar (strict : Bool) (p : String × VArray) : Py WState Unit := do
  let m := (← get).model
  match dget m.vars p.1 with
  | none => quiet (set { m with vars := dset m.vars p.1 p.2 })
  | some cur =>
    let c := cur.shape.map Int.ofNat
    let mx := elementwiseMax (p.2.shape.map Int.ofNat) c
    let _ ← appendVars strict p.1 (elementwiseSub mx c)

/-- The two models of a merge and the warnings given so far (logical_model.py:612-671). -/
structure MState where
  self : LModel
  other : LModel
  warnings : List Warning

/-- A step of merge on the model itself (logical_model.py:626-633). -/
def onSelf {α : Type} (x : Py WState α) : Py MState α :=
  ⟨fun s => match x.run ⟨s.self, s.warnings⟩ with
    | .ok a w => .ok a ⟨w.model, s.other, w.warnings⟩
    | .error e w => .error e ⟨w.model, s.other, w.warnings⟩⟩

/-- A step of merge on the other model (logical_model.py:616-617). -/
def onOther {α : Type} (x : Py WState α) : Py MState α :=
  ⟨fun s => match x.run ⟨s.other, s.warnings⟩ with
    | .ok a w => .ok a ⟨s.self, w.model, w.warnings⟩
    | .error e w => .error e ⟨s.self, w.model, w.warnings⟩⟩

/-- A step of merge that does not warn (logical_model.py:635-671). -/
def quietBoth {α : Type} (x : Py (LModel × LModel) α) : Py MState α :=
  ⟨fun s => match x.run (s.self, s.other) with
    | .ok a t => .ok a ⟨t.1, t.2, s.warnings⟩
    | .error e t => .error e ⟨t.1, t.2, s.warnings⟩⟩

/-- `merge` after the type check (logical_model.py:619-671). -/
def mergeSame (strict : Bool) : Py MState Unit := do
  let s ← get
  if rankClash s.self s.other then throw .valueError
  onSelf (s.other.vars.forM (mergeVar strict))
  quietBoth mergeTables
  quietBoth mergeRest

/-- `merge` (logical_model.py:612-671). -/
def merge (strict : Bool) (env : Env) (clk : Nat → ℚ) : Py MState Unit := do
  let s ← get
  if s.self.mtype ≠ s.other.mtype then onOther (convertMtype strict env clk)
  mergeSame strict

/-- Merging the model of the `i`-th constraint (logical_model.py:517-519); `to_model` does not warn. -/
def mergeConstraint (strict : Bool) (env : Env) (clks : Nat → Nat → ℚ) (ids : Nat → String) (p : (String × Constraint) × Nat) :
    Py WState Unit := do
  let cm ← liftE (p.1.2.toModel (clks p.2 0) (ids p.2))
  ⟨fun w => match (merge strict env (clks p.2)).run ⟨w.model, cm, w.warnings⟩ with
    | .ok _ t => .ok () ⟨t.self, t.warnings⟩
    | .error e t => .error e ⟨t.self, t.warnings⟩⟩

/-- `to_physical` (logical_model.py:498-610). -/
def toPhysical (strict : Bool) (env : Env) (clks : Nat → Nat → ℚ) (ids : Nat → String) (ph : List (String × ℚ)) :
    Py WState Physical := do
  let orig := (← get).model
  orig.constraints.zipIdx.forM (mergeConstraint strict env clks ids)
  let m := (← get).model
  let g ← liftE (group ph m)
  let off ← liftE (m.offset.resolve ph)
  let p := buildPhysical m g off
  quiet (modify fun m => { m with offset := orig.offset, deleted := orig.deleted, fixed := orig.fixed,
                                  rows := orig.rows, attrCols := orig.attrCols, attrs := orig.attrs,
                                  length := orig.length })
  quiet (g.willRemove.forM popRow)
  quiet (modify fun m => { m with rows := (m.rows.take m.length.toNat).map (fun r => { r with dirty := false })
                                           ++ m.rows.drop m.length.toNat })
  return p

end Sawatabi.Warnings
