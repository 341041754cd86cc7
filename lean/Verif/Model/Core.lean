import Verif.Model.Types

/-!
# `LogicalModel`: variables, interactions, delete, fix, constraints

Models /repo/sawatabi/model/logical_model.py lines 50-449 and 780-863.
-/

namespace Sawatabi

/-! ## Construction and variables -/

/-- `LogicalModel(mtype)` for a valid `mtype` (logical_model.py:34-48). -/
def LModel.new (mtype : MType) (id : String) : LModel where
  mtype := mtype
  vars := []
  offset := .num 0
  deleted := []
  fixed := []
  constraints := []
  rows := []
  attrCols := []
  attrs := []
  length := 0
  id := id

/-- `LogicalModel.empty` (logical_model.py:50-54); `newId` is the id of the new object. -/
def LModel.empty (m : LModel) (newId : String) : LModel := LModel.new m.mtype newId

/-- All index tuples of a shape, in the nesting order of `pyqubo.Array.create`. (logical_model.py:80, 97, 685) -/
def indices : List Nat → List (List Nat)
  | [] => [[]]
  | d :: ds => (List.range d).flatMap fun i => (indices ds).map (i :: ·)

/-- `"[i][j]..."`: the index part of a pyqubo array label. (logical_model.py:80, 97, 685) -/
def idxSuffix : List Nat → String
  | [] => ""
  | i :: is => "[" ++ Nat.repr i ++ "]" ++ idxSuffix is

/-- `pyqubo.Array.create(name, shape, vartype)`: library behaviour (trusted). Labels are `name[i][j]...`;
an empty shape raises IndexError, a non-positive entry raises ValueError (the shape of an empty nested
list cannot be determined), a `*` in the name fails pyqubo's label assertion. (logical_model.py:80, 97, 685) -/
def arrayCreate (name : String) (shape : List Int) (vt : VType) : Except Err VArray :=
  if shape = [] then .error .indexError
  else if shape.any (· ≤ 0) then .error .valueError
  else if '*' ∈ name.toList then .error .assertionError
  else
    let sh := shape.map Int.toNat
    .ok { shape := sh, bits := (indices sh).map fun i => ⟨vt, name ++ idxSuffix i⟩ }

/-- `variables(name, shape)` with a string name and a tuple of ints (logical_model.py:75-81); the
other argument types raise TypeError before any effect and are left out. An empty tuple raises
TypeError in `_check_argument_type_in_tuple` (base_mixin.py:43-45). -/
def createVars (name : String) (shape : List Int) : Py LModel VArray := do
  if shape = [] then throw .typeError
  let m ← get
  let a ← liftE (arrayCreate name shape m.mtype.vtype)
  modify fun m => { m with vars := dset m.vars name a }
  return a

/-- The part of a label before the first `[`, or `none` (Python `label.index("[")` fails). (logical_model.py:69-70) -/
def labelStem (label : String) : Option String :=
  if '[' ∈ label.toList then some (String.ofList (label.toList.takeWhile (· ≠ '['))) else none

/-- `variables(array)` with a `pyqubo.Array` (logical_model.py:61-73). -/
def variablesArray (a : VArray) : Py LModel VArray := do
  match a.bits with
  | [] => throw .indexError
  | v :: _ =>
    let m ← get
    if v.vt ≠ m.mtype.vtype then throw .typeError
    match labelStem v.label with
    | none => throw .valueError
    | some n =>
      modify fun m => { m with vars := dset m.vars n a }
      return a

/-- `Functions.elementwise_add` on two tuples: `map` stops at the shorter one (functions.py:29-35). -/
def elementwiseAdd (a b : List Int) : List Int := List.zipWith (· + ·) a b

/-- `append(name, shape)` with a string name and a tuple of ints (logical_model.py:83-98). -/
def appendVars (name : String) (shape : List Int) : Py LModel VArray := do
  if shape = [] then throw .typeError
  let m ← get
  match dget m.vars name with
  | none => createVars name shape
  | some old =>
    let newShape := elementwiseAdd (old.shape.map Int.ofNat) shape
    let a ← liftE (arrayCreate name newShape m.mtype.vtype)
    modify fun m => { m with vars := dset m.vars name a }
    return a

/-! ## Helpers for targets and names -/

/-- `_get_interaction_info_from_target` (logical_model.py:284-313). The returned dictionary is
represented by the interaction, from which body, key and default name are derived. -/
def getInfo : PyTarget → Except Err Inter
  | .var v => .ok (.lin v)
  | .tuple [a, b] =>
    match a, b with
    | some v, some w =>
      if v.label = w.label then .error .valueError
      else if v.label < w.label then .ok (.quad v w)
      else .ok (.quad w v)
    | _, _ => .error .typeError
  | .tuple _ => .error .typeError
  | .none => .error .typeError
  | .other => .error .typeError
  | .falsy => .error .typeError

/-- `_has_name` (logical_model.py:337-338). -/
def LModel.hasName (m : LModel) (n : String) : Bool := m.rows.any (·.name = n)

/-- `self._interactions_array["name"].index(n)` (logical_model.py:246, 273, 341, 403, 599) -/
def LModel.indexOf (m : LModel) (n : String) : Except Err Nat :=
  match m.rows.findIdx? (·.name = n) with
  | some i => .ok i
  | none => .error .valueError

/-- `_is_removed` (logical_model.py:340-342). -/
def LModel.isRemoved (m : LModel) (n : String) : Except Err Bool := do
  let i ← m.indexOf n
  match m.rows[i]? with
  | some r => .ok r.removed
  | none => .error .indexError

/-- `_check_argument_type("coefficient", ...)` for add (logical_model.py:142): number or pyqubo
expression. -/
def checkCoef : PyCoef → Except Err Coef
  | .num q => .ok (.num q)
  | .expr e => .ok (.expr e)
  | .bad => .error .typeError

/-- `_check_argument_type("coefficient", ...)` for update (logical_model.py:216-219): `None` or a
number. -/
def checkNum? : Option PyCoef → Except Err (Option ℚ)
  | none => .ok none
  | some (.num q) => .ok (some q)
  | some _ => .error .typeError

/-- The column name of an attribute (logical_model.py:190, 255). -/
def attrKey (k : String) : String := "attributes." ++ k

/-! ## Add -/

/-- `self._interactions_array[attr].append(np.nan)` (logical_model.py:185-186). -/
def pushNan (attr : String) : Py LModel Unit := do
  let m ← get
  match dget m.attrCols attr with
  | none => throw .keyError
  | some col => set { m with attrCols := dset m.attrCols attr (col ++ [PyVal.nan]) }

/-- One round of the loop that sets new attributes in add (logical_model.py:189-194). -/
def setLastAttr (kv : String × PyVal) : Py LModel Unit := do
  let key := attrKey kv.1
  let m ← get
  if (dget m.attrCols key).isNone then
    set { m with
      attrCols := dset m.attrCols key (List.replicate (m.length + 1).toNat PyVal.nan)
      attrs := m.attrs ++ [key] }
  let m ← get
  match dget m.attrCols key with
  | none => throw .keyError
  | some [] => throw .indexError
  | some col => set { m with attrCols := dset m.attrCols key (col.dropLast ++ [kv.2]) }

/-- `add_interaction` (logical_model.py:126-196). `now` is the value of `current_time()` during the
call. The eleven appends to default columns are one append of a row. -/
def addInteraction (now : ℚ) (target : PyTarget) (name : PyName) (coefficient scale : PyCoef)
    (attributes : PyAttrs) (timestamp : PyTs) : Py LModel Unit := do
  if !target.truthy then throw .valueError
  let c ← liftE (checkCoef coefficient)
  let s ← liftE (checkCoef scale)
  let ats ← match attributes with
    | .none => pure []
    | .dict d => pure d
    | .bad => throw .typeError
  let ts ← match timestamp with
    | .none => pure now
    | .num q => pure q
    | .bad => throw .typeError
  let info ← liftE (getInfo target)
  let internalName ← if name.truthy then
      match name with
      | .str n => pure n
      | _ => throw .typeError
    else pure info.defaultName
  let m ← get
  if m.hasName internalName then throw .valueError
  modify fun m => { m with rows := m.rows ++
    [{ name := internalName, inter := info, coef := c, scale := s, timestamp := some ts,
       dirty := true, removed := false }] }
  (← get).attrs.forM pushNan
  ats.forM setLastAttr
  modify fun m => { m with length := m.length + 1 }

/-! ## Update -/

/-- One round of the attribute loop of update (logical_model.py:254-258). -/
def setAttrAt (idx : Nat) (kv : String × PyVal) : Py LModel Unit := do
  let key := attrKey kv.1
  let m ← get
  if (dget m.attrCols key).isNone then
    set { m with attrCols := dset m.attrCols key (List.replicate m.length.toNat PyVal.nan) }
  let m ← get
  match dget m.attrCols key with
  | none => throw .keyError
  | some col =>
    if idx < col.length then set { m with attrCols := dset m.attrCols key (col.set idx kv.2) }
    else throw .indexError

/-- The attribute entries of an argument: none for `None`. (logical_model.py:135-136, 189, 253-254) -/
def PyAttrs.entries : PyAttrs → List (String × PyVal)
  | .dict d => d
  | .none => []
  | .bad => []

/-- The timestamp that update stores: `None` is stored as it is. (logical_model.py:259) -/
def PyTs.stored : PyTs → Option ℚ
  | .num q => some q
  | .none => Option.none
  | .bad => Option.none

/-- `self._interactions_array[col][idx] = ...` for a default column. (logical_model.py:250-260, 277-278) -/
def setRow (idx : Nat) (f : Row → Row) : Py LModel Unit :=
  modify fun m => { m with rows := m.rows.modify idx f }

/-- A default column set only if the argument was given (logical_model.py:249-252). -/
def setRow? (idx : Nat) (f : ℚ → Row → Row) : Option ℚ → Py LModel Unit
  | some q => setRow idx (f q)
  | none => pure ()

/-- The mutations of update on an existing row (logical_model.py:248-260). -/
def writeRow (idx : Nat) (c s : Option ℚ) (ats : List (String × PyVal)) (ts : Option ℚ) :
    Py LModel Unit := do
  setRow? idx (fun q r => { r with coef := .num q }) c
  setRow? idx (fun q r => { r with scale := .num q }) s
  ats.forM (setAttrAt idx)
  setRow idx fun r => { r with timestamp := ts }
  setRow idx fun r => { r with dirty := true }

/-- `if target is not None: interaction_info = ...` (logical_model.py:225-226 and 321-322). -/
def optInfo (target : PyTarget) : Except Err (Option Inter) :=
  if target = .none then .ok none
  else match getInfo target with
    | .ok i => .ok (some i)
    | .error e => .error e

/-- The name resolution of update (logical_model.py:228-241): `none` means that the interaction does
not exist and is added instead. A falsy `name` with `target = None` cannot get here; Python would
raise UnboundLocalError. -/
def updateName (m : LModel) (info? : Option Inter) (name : PyName) : Except Err (Option String) :=
  if name.truthy then
    match name with
    | .str n => if m.hasName n then .ok (some n) else .error .keyError
    | _ => .error .keyError
  else
    match info? with
    | none => .error .unboundLocalError
    | some info => if m.hasName info.defaultName then .ok (some info.defaultName) else .ok none

/-- `update_interaction` (logical_model.py:202-260). `timestamp = none` means that the argument was
not given, in which case it is `importTime`: the default `current_time()` is evaluated once, when the
module is imported (line 209). -/
def updateInteraction (importTime now : ℚ) (target : PyTarget) (name : PyName)
    (coefficient scale : Option PyCoef) (attributes : PyAttrs) (timestamp : Option PyTs) :
    Py LModel Unit := do
  if !target.truthy && !name.truthy then throw .valueError
  if target.truthy && name.truthy then throw .valueError
  let c ← liftE (checkNum? coefficient)
  let s ← liftE (checkNum? scale)
  if attributes = .bad then throw .typeError
  let timestamp := timestamp.getD (.num importTime)
  if timestamp = .bad then throw .typeError
  let info? ← liftE (optInfo target)
  let m ← get
  let internalName? ← liftE (updateName m info? name)
  match internalName? with
  | none =>
    addInteraction now target (.str "") (.num (c.getD 0)) (.num (s.getD 1)) .none timestamp
  | some n =>
    if ← liftE (m.isRemoved n) then throw .valueError
    let idx ← liftE (m.indexOf n)
    writeRow idx c s attributes.entries timestamp.stored

/-! ## Remove -/

/-- `_get_internal_name_from_target_and_name` (logical_model.py:315-335). -/
def internalName (m : LModel) (target : PyTarget) (name : PyName) : Except Err String := do
  if !target.truthy && !name.truthy then throw .valueError
  if target.truthy && name.truthy then throw .valueError
  let info? ← optInfo target
  let n ← if name.truthy then
      match name with
      | .str n => pure (some n)
      | .tuple => pure none
      | .other => throw .typeError
    else
      match info? with
      | none => throw .unboundLocalError
      | some info => pure (some info.defaultName)
  match n with
  | none => throw .keyError
  | some n => if m.hasName n then pure n else throw .keyError

/-- `remove_interaction` (logical_model.py:266-278). -/
def removeInteraction (target : PyTarget) (name : PyName) : Py LModel Unit := do
  let m ← get
  let n ← liftE (internalName m target name)
  let idx ← liftE (m.indexOf n)
  setRow idx fun r => { r with removed := true }
  setRow idx fun r => { r with dirty := true }

/-! ## Select -/

/-- `_update_interactions_dataframe_from_arrays` (logical_model.py:344-348): `pd.DataFrame` raises
ValueError if the columns differ in length. -/
def makeFrame : Py LModel Unit := do
  let m ← get
  if m.attrCols.any (fun c => c.2.length ≠ m.rows.length) then throw .valueError

/-- Does an interaction touch a label (the condition of logical_model.py:120)? -/
def Row.touches (r : Row) (label : String) : Bool :=
  r.inter.key0 = label || r.inter.key1 = some label

/-- `select_interactions_by_variable` (logical_model.py:115-120). -/
def selectByVariable (v : PVar) : Py LModel (List String) := do
  makeFrame
  let m ← get
  return (m.rows.filter (·.touches v.label)).map (·.name)

/-! ## Delete and fix -/

/-- `constraint.remove_variable(variables=target)` for one variable (n_hot_constraint.py:40-45,
zero_or_one_hot_constraint.py:40-45). `EqualityConstraint` has no such method. -/
def Constraint.removeVariable (v : PVar) : Constraint → Except Err Constraint
  | .nHot l s vs n => if v ∈ vs then .ok (.nHot l s (vs.filter (· ≠ v)) n) else .error .valueError
  | .zeroOrOneHot l s vs =>
    if v ∈ vs then .ok (.zeroOrOneHot l s (vs.filter (· ≠ v))) else .error .valueError
  | .equality .. => .error .attributeError

/-- One round of the constraint loop of `delete_variable` (logical_model.py:363-364). Constraint
objects are owned by the model here; sharing them between models is not modelled. -/
def removeFromConstraint (v : PVar) (label : String) : Py LModel Unit := do
  let m ← get
  match dget m.constraints label with
  | none => throw .keyError
  | some c =>
    let c' ← liftE (c.removeVariable v)
    set { m with constraints := dset m.constraints label c' }

/-- `delete_variable` (logical_model.py:354-369) for a pyqubo variable; other arguments raise
ValueError or TypeError before any effect. -/
def deleteVariable (v : PVar) : Py LModel Unit := do
  modify fun m => { m with deleted := sadd m.deleted v.label }
  let m ← get
  (dkeys m.constraints).forM (removeFromConstraint v)
  let names ← selectByVariable v
  names.forM fun n => removeInteraction .none (.str n)

/-- A `value` argument of `fix_variable`. (logical_model.py:375-386) -/
inductive PyNum where
  | num (q : ℚ)
  | other
  deriving DecidableEq, Repr

/-- The value check of `fix_variable` (logical_model.py:381-386). -/
def checkFixValue (mt : MType) : PyNum → Except Err ℚ
  | .num q =>
    match mt with
    | .ising => if q = 1 ∨ q = -1 then .ok q else .error .valueError
    | .qubo => if q = 1 ∨ q = 0 then .ok q else .error .valueError
  | .other => .error .valueError

/-- Passing a stored coefficient as an argument (logical_model.py:419, 487, 490, 723, 730; no conversion in the
code, the model only changes the type). -/
def Coef.toPy : Coef → PyCoef
  | .num q => .num q
  | .expr e => .expr e

/-- One round of the loop of `fix_variable` for a non-zero value (logical_model.py:402-420).
`now` is `current_time()` in the nested `add_interaction`. -/
def fixOne (now : ℚ) (v : PVar) (value : ℚ) (s : String) : Py LModel Unit := do
  let m ← get
  let idx ← liftE (m.indexOf s)
  match m.rows[idx]? with
  | none => throw .indexError
  | some r =>
    match r.inter with
    | .lin _ =>
      set { m with offset := m.offset.add (((Coef.num (-1 * value)).mul r.coef).mul r.scale) }
      removeInteraction .none (.str s)
    | .quad a b =>
      let keep ← if a.label = v.label then pure b
        else if b.label = v.label then pure a
        else throw .unboundLocalError
      let newName := keep.label ++ " (before fixed: " ++ s ++ ")"
      let newCoef := ((Coef.num value).mul r.coef).mul r.scale
      addInteraction now (.var keep) (.str newName) newCoef.toPy (.num 1) .none .none
      removeInteraction .none (.str s)

/-- `fix_variable` (logical_model.py:375-420) for a pyqubo variable. `clk i` is the clock in the i-th
round. -/
def fixVariable (clk : Nat → ℚ) (v : PVar) (value : PyNum) : Py LModel Unit := do
  let m ← get
  let q ← liftE (checkFixValue m.mtype value)
  modify fun m => { m with fixed := sadd m.fixed v.label }
  let selected ← selectByVariable v
  if selected.isEmpty then return ()
  if q = 0 then
    selected.forM fun n => removeInteraction .none (.str n)
  else
    selected.zipIdx.forM fun p => fixOne (clk p.2) v q p.1

/-! ## Constraints and offset -/

/-- `add_constraint` (logical_model.py:426-429). -/
def addConstraint (c : Constraint) : Py LModel Unit :=
  modify fun m => { m with constraints := dset m.constraints c.label c }

/-- `remove_constraint` (logical_model.py:431-433). -/
def removeConstraint (label : String) : Py LModel Unit := do
  let m ← get
  if (dget m.constraints label).isNone then throw .keyError
  set { m with constraints := dpop m.constraints label }

/-- `offset` (logical_model.py:439-443). -/
def setOffset (c : Coef) : Py LModel Unit := modify fun m => { m with offset := c }

/-! ## Getters -/

/-- `get_all_size` (logical_model.py:822-832). -/
def LModel.allSize (m : LModel) : Nat :=
  m.vars.foldl (fun acc p => acc + p.2.shape.foldl (· * ·) 1) 0

/-- `get_size` (logical_model.py:804-808). -/
def LModel.size (m : LModel) : Int :=
  (m.allSize : Int) - m.deleted.length - m.fixed.length

/-- One round of the loop of `get_attributes` (logical_model.py:841-842). -/
def attrFold (m : LModel) (idx : Nat) (res : List (String × PyVal)) (a : String) :
    Except Err (List (String × PyVal)) :=
  match dget m.attrCols a with
  | none => .error .keyError
  | some col =>
    match col[idx]? with
    | none => .error .indexError
    | some v => .ok (dset res a v)

/-- `get_attributes` (logical_model.py:834-843). -/
def LModel.getAttributes (m : LModel) (target : PyTarget) (name : PyName) :
    Except Err (List (String × PyVal)) := do
  let n ← internalName m target name
  let idx ← m.indexOf n
  m.attrs.foldlM (attrFold m idx) []

/-- `get_attribute` (logical_model.py:845-851) with a string key. -/
def LModel.getAttribute (m : LModel) (target : PyTarget) (name : PyName) (key : String) :
    Except Err PyVal := do
  let d ← m.getAttributes target name
  match dget d key with
  | some v => .ok v
  | none => .error .keyError

end Sawatabi
