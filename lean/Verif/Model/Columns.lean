import Verif.Spec.History

/-!
# `LogicalModel` with its interaction table column by column

`Model/Core.lean` and `Model/Convert.lean` keep the default columns of `_interactions_array` as a list of rows. Here the
same methods are modelled with one list for each default column, as in the code (logical_model.py:44-45), where nothing but
the code itself keeps the columns in step. `Lemmas/Columns.lean` proves that both behave alike, so what is proved about
rows holds for the columns.

Methods that do not touch the default columns are taken over from the row model with `onBase`.
-/

namespace Sawatabi.Col

/-- An entry of the column `key`: a label, or a pair of labels (logical_model.py:289, 306, 310). -/
inductive Key where
  | one (l : String)
  | two (a b : String)
  deriving DecidableEq, Repr

/-- The default columns (logical_model.py:44). `none` is NaN in `key_1` and `None` in `timestamp`. -/
structure Cols where
  body : List Nat
  name : List String
  key : List Key
  key0 : List String
  key1 : List (Option String)
  interacts : List Inter
  coef : List Coef
  scale : List Coef
  timestamp : List (Option ℚ)
  dirty : List Bool
  removed : List Bool
  deriving DecidableEq, Repr

/-- A `LogicalModel` (logical_model.py:34-48): `base` holds all fields but the default columns (its field `rows` is not
used and stays empty). -/
structure CModel where
  base : LModel
  cols : Cols
  deriving DecidableEq, Repr

/-- No interactions (logical_model.py:45). -/
def Cols.empty : Cols := ⟨[], [], [], [], [], [], [], [], [], [], []⟩

/-- `LogicalModel(mtype)` (logical_model.py:34-48). -/
def CModel.new (mtype : MType) (id : String) : CModel := ⟨LModel.new mtype id, Cols.empty⟩

/-- A method that does not touch the default columns. (logical_model.py:44-47) -/
def onBase {α : Type} (x : Py LModel α) : Py CModel α := ⟨fun s =>
  match x.run s.base with
  | .ok a t => .ok a { s with base := t }
  | .error e t => .error e { s with base := t }⟩

/-- `l[i]` (logical_model.py:341-342, 403-418) -/
def getAt {α : Type} (l : List α) (i : Nat) : Except Err α :=
  match l[i]? with
  | some a => .ok a
  | none => .error .indexError

/-- `l[i] = a`, as a new list. (logical_model.py:250-260, 277-278) -/
def putAt {α : Type} (l : List α) (i : Nat) (a : α) : Except Err (List α) :=
  if i < l.length then .ok (l.set i a) else .error .indexError

/-- `l.pop(i)`, as a new list. (logical_model.py:601) -/
def popAt {α : Type} (l : List α) (i : Nat) : Except Err (List α) :=
  if i < l.length then .ok (l.eraseIdx i) else .error .indexError

/-- `self._interactions_array[k][i] = a` for a default column `k`. (logical_model.py:250-260, 277-278) -/
def putCol {α : Type} (col : Cols → List α) (upd : Cols → List α → Cols) (i : Nat) (a : α) : Py CModel Unit := do
  let m ← get
  let l ← liftE (putAt (col m.cols) i a)
  set { m with cols := upd m.cols l }

/-- `self._interactions_array[k].pop(i)` for a default column `k`. (logical_model.py:600-601) -/
def popDefault {α : Type} (col : Cols → List α) (upd : Cols → List α → Cols) (i : Nat) : Py CModel Unit := do
  let m ← get
  let l ← liftE (popAt (col m.cols) i)
  set { m with cols := upd m.cols l }

/-! ## Names and targets -/

/-- The dictionary returned by `_get_interaction_info_from_target` (logical_model.py:313). -/
structure Info where
  body : Nat
  interacts : Inter
  key : Key
  name : String
  deriving DecidableEq, Repr

/-- `_get_interaction_info_from_target` (logical_model.py:284-313). -/
def getInfo : PyTarget → Except Err Info
  | .var v => .ok ⟨1, .lin v, .one v.label, v.label⟩
  | .tuple [a, b] =>
    match a, b with
    | some v, some w =>
      if v.label = w.label then .error .valueError
      else if v.label < w.label then .ok ⟨2, .quad v w, .two v.label w.label, v.label ++ "*" ++ w.label⟩
      else .ok ⟨2, .quad w v, .two w.label v.label, w.label ++ "*" ++ v.label⟩
    | _, _ => .error .typeError
  | .tuple _ => .error .typeError
  | .none => .error .typeError
  | .other => .error .typeError
  | .falsy => .error .typeError

/-- `_has_name` (logical_model.py:337-338). -/
def Cols.hasName (c : Cols) (n : String) : Bool := c.name.contains n

/-- `self._interactions_array["name"].index(n)` (logical_model.py:246, 273, 341, 403, 599) -/
def Cols.indexOf (c : Cols) (n : String) : Except Err Nat :=
  match c.name.findIdx? (· = n) with
  | some i => .ok i
  | none => .error .valueError

/-- `_is_removed` (logical_model.py:340-342). -/
def Cols.isRemoved (c : Cols) (n : String) : Except Err Bool := do
  let i ← c.indexOf n
  getAt c.removed i

/-! ## Add, update, remove -/

/-- The entry for `key_0` (logical_model.py:163-166): of a pair the first label. -/
def Key.first : Key → String
  | .one l => l
  | .two a _ => a

/-- The entry for `key_1` (logical_model.py:163-166): NaN for a 1-body interaction. -/
def Key.second : Key → Option String
  | .one _ => none
  | .two _ b => some b

/-- The appends to the default columns (logical_model.py:170-182). None of them can raise. -/
def Cols.append (c : Cols) (info : Info) (name : String) (coef scale : Coef) (ts : ℚ) : Cols where
  body := c.body ++ [info.body]
  name := c.name ++ [name]
  key := c.key ++ [info.key]
  key0 := c.key0 ++ [info.key.first]
  key1 := c.key1 ++ [info.key.second]
  interacts := c.interacts ++ [info.interacts]
  coef := c.coef ++ [coef]
  scale := c.scale ++ [scale]
  timestamp := c.timestamp ++ [some ts]
  dirty := c.dirty ++ [true]
  removed := c.removed ++ [false]

/-- `add_interaction` (logical_model.py:126-196). -/
def addInteraction (now : ℚ) (target : PyTarget) (name : PyName) (coefficient scale : PyCoef)
    (attributes : PyAttrs) (timestamp : PyTs) : Py CModel Unit := do
  if !target.truthy then throw .valueError
  let c ← liftE (checkCoef coefficient)
  let s ← liftE (checkCoef scale)
  let ats ← match attributes with
    | .none => pure []
    | .dict d => pure d
    | .bad => throw .typeError
  let ts ← match timestamp with
    | .none => pure now
    | .num q => pure q
    | .bad => throw .typeError
  let info ← liftE (getInfo target)
  let internalName ← if name.truthy then
      match name with
      | .str n => pure n
      | _ => throw .typeError
    else pure info.name
  let m ← get
  if m.cols.hasName internalName then throw .valueError
  modify fun m => { m with cols := m.cols.append info internalName c s ts }
  onBase ((← get).base.attrs.forM pushNan)
  onBase (ats.forM setLastAttr)
  modify fun m => { m with base := { m.base with length := m.base.length + 1 } }

/-- `if target is not None: interaction_info = ...` (logical_model.py:225-226 and 321-322). -/
def optInfo (target : PyTarget) : Except Err (Option Info) :=
  if target = .none then .ok none
  else match getInfo target with
    | .ok i => .ok (some i)
    | .error e => .error e

/-- The name resolution of update (logical_model.py:228-241), as `Sawatabi.updateName`. -/
def updateName (c : Cols) (info? : Option Info) (name : PyName) : Except Err (Option String) :=
  if name.truthy then
    match name with
    | .str n => if c.hasName n then .ok (some n) else .error .keyError
    | _ => .error .keyError
  else
    match info? with
    | none => .error .unboundLocalError
    | some info => if c.hasName info.name then .ok (some info.name) else .ok none

/-- A default column set only if the argument was given (logical_model.py:249-252). -/
def putCol? (col : Cols → List Coef) (upd : Cols → List Coef → Cols) (i : Nat) : Option ℚ → Py CModel Unit
  | some q => putCol col upd i (.num q)
  | none => pure ()

/-- The mutations of update on an existing interaction (logical_model.py:248-260). -/
def writeRow (idx : Nat) (c s : Option ℚ) (ats : List (String × PyVal)) (ts : Option ℚ) : Py CModel Unit := do
  putCol? (·.coef) (fun d l => { d with coef := l }) idx c
  putCol? (·.scale) (fun d l => { d with scale := l }) idx s
  onBase (ats.forM (setAttrAt idx))
  putCol (·.timestamp) (fun d l => { d with timestamp := l }) idx ts
  putCol (·.dirty) (fun d l => { d with dirty := l }) idx true

/-- `update_interaction` (logical_model.py:202-260). -/
def updateInteraction (importTime now : ℚ) (target : PyTarget) (name : PyName)
    (coefficient scale : Option PyCoef) (attributes : PyAttrs) (timestamp : Option PyTs) : Py CModel Unit := do
  if !target.truthy && !name.truthy then throw .valueError
  if target.truthy && name.truthy then throw .valueError
  let c ← liftE (checkNum? coefficient)
  let s ← liftE (checkNum? scale)
  if attributes = .bad then throw .typeError
  let timestamp := timestamp.getD (.num importTime)
  if timestamp = .bad then throw .typeError
  let info? ← liftE (optInfo target)
  let m ← get
  let internalName? ← liftE (updateName m.cols info? name)
  match internalName? with
  | none =>
    addInteraction now target (.str "") (.num (c.getD 0)) (.num (s.getD 1)) .none timestamp
  | some n =>
    if ← liftE (m.cols.isRemoved n) then throw .valueError
    let idx ← liftE (m.cols.indexOf n)
    writeRow idx c s attributes.entries timestamp.stored

/-- `_get_internal_name_from_target_and_name` (logical_model.py:315-335). -/
def internalName (c : Cols) (target : PyTarget) (name : PyName) : Except Err String := do
  if !target.truthy && !name.truthy then throw .valueError
  if target.truthy && name.truthy then throw .valueError
  let info? ← optInfo target
  let n ← if name.truthy then
      match name with
      | .str n => pure (some n)
      | .tuple => pure none
      | .other => throw .typeError
    else
      match info? with
      | none => throw .unboundLocalError
      | some info => pure (some info.name)
  match n with
  | none => throw .keyError
  | some n => if c.hasName n then pure n else throw .keyError

/-- `remove_interaction` (logical_model.py:266-278). -/
def removeInteraction (target : PyTarget) (name : PyName) : Py CModel Unit := do
  let m ← get
  let n ← liftE (internalName m.cols target name)
  let idx ← liftE (m.cols.indexOf n)
  putCol (·.removed) (fun d l => { d with removed := l }) idx true
  putCol (·.dirty) (fun d l => { d with dirty := l }) idx true

/-! ## Select -/

/-- The lengths of the default columns. (logical_model.py:44-45) -/
def Cols.lengths (c : Cols) : List Nat :=
  [c.body.length, c.name.length, c.key.length, c.key0.length, c.key1.length, c.interacts.length, c.coef.length,
   c.scale.length, c.timestamp.length, c.dirty.length, c.removed.length]

/-- `_update_interactions_dataframe_from_arrays` (logical_model.py:344-348): `pd.DataFrame` raises ValueError if the columns
differ in length. -/
def makeFrame : Py CModel Unit := do
  let m ← get
  if m.cols.lengths.any (· ≠ m.cols.body.length) || m.base.attrCols.any (fun c => c.2.length ≠ m.cols.body.length) then
    throw .valueError

/-- `select_interactions_by_variable` (logical_model.py:115-120). -/
def selectByVariable (v : PVar) : Py CModel (List String) := do
  makeFrame
  let c := (← get).cols
  return ((c.name.zip (c.key0.zip c.key1)).filter fun p => p.2.1 = v.label || p.2.2 = some v.label).map (·.1)

/-- What the code reads from a row of the DataFrame. (logical_model.py:687, 721, 728) -/
structure Rec where
  name : String
  key0 : String
  key1 : Option String
  interacts : Inter
  coef : Coef
  deriving DecidableEq, Repr

/-- `select_interaction(query="(body == b) and (removed == False)")` (logical_model.py:720, 727). -/
def selectBody (b : Nat) : Py CModel (List Rec) := do
  makeFrame
  let c := (← get).cols
  let rs := (c.body.zip c.removed).zip (c.name.zip (c.key0.zip (c.key1.zip (c.interacts.zip c.coef))))
  return (rs.filter fun p => p.1.1 == b && !p.1.2).map fun p =>
    ⟨p.2.1, p.2.2.1, p.2.2.2.1, p.2.2.2.2.1, p.2.2.2.2.2⟩

/-! ## Delete and fix -/

/-- `delete_variable` (logical_model.py:354-369). -/
def deleteVariable (v : PVar) : Py CModel Unit := do
  modify fun m => { m with base := { m.base with deleted := sadd m.base.deleted v.label } }
  let m ← get
  onBase ((dkeys m.base.constraints).forM (removeFromConstraint v))
  let names ← selectByVariable v
  names.forM fun n => removeInteraction .none (.str n)

/-- One round of the loop of `fix_variable` for a non-zero value (logical_model.py:402-420). An entry of `body` that does not
fit `interacts` would raise TypeError (indexing a variable); other values of `body` would do nothing. -/
def fixOne (now : ℚ) (v : PVar) (value : ℚ) (s : String) : Py CModel Unit := do
  let m ← get
  let idx ← liftE (m.cols.indexOf s)
  let body ← liftE (getAt m.cols.body idx)
  if body = 1 then
    let coef ← liftE (getAt m.cols.coef idx)
    let scale ← liftE (getAt m.cols.scale idx)
    set { m with base := { m.base with offset := m.base.offset.add (((Coef.num (-1 * value)).mul coef).mul scale) } }
    removeInteraction .none (.str s)
  else if body = 2 then
    match ← liftE (getAt m.cols.interacts idx) with
    | .lin _ => throw .typeError
    | .quad a b =>
      let keep ← if a.label = v.label then pure b
        else if b.label = v.label then pure a
        else throw .unboundLocalError
      let newName := keep.label ++ " (before fixed: " ++ s ++ ")"
      let coef ← liftE (getAt m.cols.coef idx)
      let scale ← liftE (getAt m.cols.scale idx)
      let newCoef := ((Coef.num value).mul coef).mul scale
      addInteraction now (.var keep) (.str newName) newCoef.toPy (.num 1) .none .none
      removeInteraction .none (.str s)

/-- `fix_variable` (logical_model.py:375-420). -/
def fixVariable (clk : Nat → ℚ) (v : PVar) (value : PyNum) : Py CModel Unit := do
  let m ← get
  let q ← liftE (checkFixValue m.base.mtype value)
  modify fun m => { m with base := { m.base with fixed := sadd m.base.fixed v.label } }
  let selected ← selectByVariable v
  if selected.isEmpty then return ()
  if q = 0 then
    selected.forM fun n => removeInteraction .none (.str n)
  else
    selected.zipIdx.forM fun p => fixOne (clk p.2) v q p.1

/-! ## `to_ising`, `to_qubo` -/

/-- `_update_variables_type` (logical_model.py:682-704): only the column `interacts` is rewritten, for each row of the
DataFrame that is not removed. -/
def updateVariablesType : Py CModel Unit := do
  onBase ((dkeys (← get).base.vars).forM retypeVar)
  makeFrame
  let c := (← get).cols
  ((c.interacts.zip c.removed).zipIdx.filter fun p => !p.1.2).forM fun p => do
    putCol (·.interacts) (fun d l => { d with interacts := l }) p.2 (p.1.1.retype (← get).base.mtype.vtype)

/-- `self.update_interaction(name=..., coefficient=...)` as called in the conversions. (logical_model.py:723, 730, 758, 765) -/
def updateCoef (env : Env) (name : String) (c : Coef) : Py CModel Unit :=
  updateInteraction env.importTime 0 .none (.str name) (some c.toPy) none .none none

/-- `self._offset += c` (logical_model.py:724, 737, 759, 772) -/
def addOffset (c : Coef) : Py CModel Unit :=
  modify fun m => { m with base := { m.base with offset := m.base.offset.add c } }

/-- One linear interaction in `to_ising` (logical_model.py:722-724). -/
def toIsingLin (env : Env) (h : Rec) : Py CModel Unit := do
  updateCoef env h.name (h.coef.mul (.num (1/2)))
  addOffset (h.coef.mul (.num (1/2)))

/-- `f"{key} from {name} (mtype additional {time})"`; a NaN key renders as `nan` (logical_model.py:732, 735). -/
def addedName (env : Env) (key : Option String) (name : String) (t : ℚ) : String :=
  key.getD "nan" ++ " from " ++ name ++ " (mtype additional " ++ env.render t ++ ")"

/-- One quadratic interaction in `to_ising` (logical_model.py:729-737). -/
def toIsingQuad (env : Env) (clk : Nat → ℚ) (J : Rec) : Py CModel Unit := do
  match J.interacts with
  | .lin _ => throw .typeError
  | .quad v w =>
    updateCoef env J.name (J.coef.mul (.num (1/4)))
    addInteraction (clk 1) (.var v) (.str (addedName env (some J.key0) J.name (clk 0)))
      (J.coef.mul (.num (1/4))).toPy (.num 1) .none .none
    addInteraction (clk 3) (.var w) (.str (addedName env J.key1 J.name (clk 2)))
      (J.coef.mul (.num (1/4))).toPy (.num 1) .none .none
    addOffset (J.coef.mul (.num (1/4)))

/-- `to_ising` (logical_model.py:706-739). -/
def toIsing (env : Env) (clk : Nat → ℚ) : Py CModel Unit := do
  if (← get).base.mtype ≠ .ising then
    modify fun m => { m with base := { m.base with mtype := .ising } }
    updateVariablesType
    let hs ← selectBody 1
    hs.forM (toIsingLin env)
    let js ← selectBody 2
    js.zipIdx.forM fun p => toIsingQuad env (fun i => clk (4 * p.2 + i)) p.1

/-- One linear interaction in `to_qubo` (logical_model.py:757-759). -/
def toQuboLin (env : Env) (h : Rec) : Py CModel Unit := do
  updateCoef env h.name (h.coef.mul (.num 2))
  addOffset (h.coef.mul (.num (-1)))

/-- One quadratic interaction in `to_qubo` (logical_model.py:764-772). -/
def toQuboQuad (env : Env) (clk : Nat → ℚ) (J : Rec) : Py CModel Unit := do
  match J.interacts with
  | .lin _ => throw .typeError
  | .quad v w =>
    updateCoef env J.name (J.coef.mul (.num 4))
    addInteraction (clk 1) (.var v) (.str (addedName env (some J.key0) J.name (clk 0)))
      (J.coef.mul (.num (-2))).toPy (.num 1) .none .none
    addInteraction (clk 3) (.var w) (.str (addedName env J.key1 J.name (clk 2)))
      (J.coef.mul (.num (-2))).toPy (.num 1) .none .none
    addOffset J.coef

/-- `to_qubo` (logical_model.py:741-774). -/
def toQubo (env : Env) (clk : Nat → ℚ) : Py CModel Unit := do
  if (← get).base.mtype ≠ .qubo then
    modify fun m => { m with base := { m.base with mtype := .qubo } }
    updateVariablesType
    let hs ← selectBody 1
    hs.forM (toQuboLin env)
    let js ← selectBody 2
    js.zipIdx.forM fun p => toQuboQuad env (fun i => clk (4 * p.2 + i)) p.1

/-- `_convert_mtype` (logical_model.py:673-680). -/
def convertMtype (env : Env) (clk : Nat → ℚ) : Py CModel Unit := do
  match (← get).base.mtype with
  | .qubo => toIsing env clk
  | .ising => toQubo env clk

/-! ## `merge` -/

/-- The merged column `name` (logical_model.py:638-639, 647, 650-656). -/
def mergedNames (a b : CModel) : List String :=
  (a.cols.name ++ b.cols.name).zipIdx.map fun p =>
    if a.cols.hasName p.1 && b.cols.hasName p.1 then
      p.1 ++ " (" ++ (if (p.2 : Int) < a.base.length then a.base.id else b.base.id) ++ ")"
    else p.1

/-- The merged default columns (logical_model.py:638-639, 647-656). -/
def mergedCols (a b : CModel) : Cols where
  body := a.cols.body ++ b.cols.body
  name := mergedNames a b
  key := a.cols.key ++ b.cols.key
  key0 := a.cols.key0 ++ b.cols.key0
  key1 := a.cols.key1 ++ b.cols.key1
  interacts := a.cols.interacts ++ b.cols.interacts
  coef := a.cols.coef ++ b.cols.coef
  scale := a.cols.scale ++ b.cols.scale
  timestamp := a.cols.timestamp ++ b.cols.timestamp
  dirty := a.cols.dirty ++ b.cols.dirty
  removed := a.cols.removed ++ b.cols.removed

/-- Merging the interactions (logical_model.py:635-660). -/
def mergeTables : Py (CModel × CModel) Unit := do
  let s ← get
  let ma := mergedAttrs s.1.base s.2.base
  let cols ← liftE (ma.mapM (mergedCol s.1.base s.2.base))
  modify fun p => (⟨{ p.1.base with attrCols := cols, attrs := ma, length := s.1.base.length + s.2.base.length },
    mergedCols s.1 s.2⟩, p.2)

/-- Merging constraints and the other fields (logical_model.py:662-671). -/
def mergeRest : Py (CModel × CModel) Unit := do
  let s ← get
  if s.1.base.constraints.any (fun p => p.1 ∈ dkeys s.2.base.constraints) then throw .valueError
  modify fun p => ({ p.1 with base := { p.1.base with
    constraints := dupdate p.1.base.constraints s.2.base.constraints
    offset := p.1.base.offset.add s.2.base.offset
    deleted := s.2.base.deleted.foldl sadd p.1.base.deleted
    fixed := s.2.base.fixed.foldl sadd p.1.base.fixed } }, p.2)

/-- `merge` (logical_model.py:612-671) on the pair `(self, other)`. -/
def merge (env : Env) (clk : Nat → ℚ) : Py (CModel × CModel) Unit := do
  let s ← get
  if s.1.base.mtype ≠ s.2.base.mtype then onSnd (convertMtype env clk)
  let s ← get
  if rankClash s.1.base s.2.base then throw .valueError
  onFst (onBase (s.2.base.vars.forM mergeVar))
  mergeTables
  mergeRest

/-! ## Constraints -/

/-- `to_model` of the constraints (n_hot_constraint.py:53-66, zero_or_one_hot_constraint.py:50-61,
equality_constraint.py:63-86), as `Constraint.body`. -/
def addLin (now : ℚ) (label : String) (v : PVar) (coeff : ℚ) : Py CModel Unit :=
  addInteraction now (.var v) (.str (v.label ++ " (" ++ label ++ ")")) (.num coeff) (.num 1) .none .none

/-- As `Sawatabi.addPair`. (n_hot_constraint.py:53-66, zero_or_one_hot_constraint.py:50-61, equality_constraint.py:63-86) -/
def addPair (now : ℚ) (label : String) (v w : PVar) (coeff : ℚ) : Py CModel Unit :=
  addInteraction now (.tuple [some v, some w]) (.str (v.label ++ "*" ++ w.label ++ " (" ++ label ++ ")"))
    (.num coeff) (.num 1) .none .none

/-- As `Sawatabi.addPairsFrom` (n_hot_constraint.py:61-64). -/
def addPairsFrom (now : ℚ) (label : String) (strength : ℚ) (vars : List PVar) (v : PVar) : Py CModel Unit :=
  vars.forM fun w => do
    if v.label < w.label then addPair now label v w (-2 * strength)

/-- The three bodies, as `Constraint.body`. (n_hot_constraint.py:53-66, zero_or_one_hot_constraint.py:50-61, equality_constraint.py:63-86) -/
def body (now : ℚ) : Constraint → Py CModel Unit
  | .nHot l s vs n => vs.forM fun v => do
    addLin now l v (-1 * s * (1 - 2 * n))
    addPairsFrom now l s vs v
  | .zeroOrOneHot l s vs => vs.forM fun v => addPairsFrom now l s vs v
  | .equality l s v1 v2 => do
    (sunion v1 v2).forM fun v => addLin now l v (-1 * s)
    v1.forM fun v => addPairsFrom now l s v1 v
    v2.forM fun v => addPairsFrom now l s v2 v
    v1.forM fun v => v2.forM fun w => addPair now l v w (2 * s)

/-- `constraint.to_model()` (n_hot_constraint.py:53-66, zero_or_one_hot_constraint.py:50-61, equality_constraint.py:63-86) -/
def toModel (now : ℚ) (id : String) (c : Constraint) : Except Err CModel :=
  match (body now c).run (CModel.new .qubo id) with
  | .ok _ m => .ok m
  | .error e _ => .error e

/-! ## `to_physical` -/

/-- One round of the grouping loop (logical_model.py:522-550). A `key` that does not fit `body` is not modelled (TypeError
here); `Aligned` excludes it. -/
def groupStep (ph : List (String × ℚ)) (c : Cols) (g : Groups) (i : Nat) : Except Err Groups := do
  if ← getAt c.removed i then
    return { g with willRemove := g.willRemove ++ [← getAt c.name i] }
  else
    let coef ← getAt c.coef i
    let scale ← getAt c.scale i
    let q ← (coef.mul scale).resolve ph
    let body ← getAt c.body i
    if body = 1 then
      match ← getAt c.key i with
      | .one l => return { g with linear := dadd g.linear l q }
      | .two _ _ => throw .typeError
    else if body = 2 then
      match ← getAt c.key i with
      | .two a b => return { g with quad := dadd g.quad (a, b) q }
      | .one _ => throw .typeError
    else return g

/-- The grouping loop over `range(self._interactions_length)` (logical_model.py:522). -/
def group (ph : List (String × ℚ)) (m : CModel) : Except Err Groups :=
  (List.range m.base.length.toNat).foldlM (groupStep ph m.cols) ⟨[], [], []⟩

/-- One round of the removal loop (logical_model.py:598-602): each column in turn, the default ones first. -/
def popRow (name : String) : Py CModel Unit := do
  let m ← get
  let idx ← liftE (m.cols.indexOf name)
  popDefault (·.body) (fun d l => { d with body := l }) idx
  popDefault (·.name) (fun d l => { d with name := l }) idx
  popDefault (·.key) (fun d l => { d with key := l }) idx
  popDefault (·.key0) (fun d l => { d with key0 := l }) idx
  popDefault (·.key1) (fun d l => { d with key1 := l }) idx
  popDefault (·.interacts) (fun d l => { d with interacts := l }) idx
  popDefault (·.coef) (fun d l => { d with coef := l }) idx
  popDefault (·.scale) (fun d l => { d with scale := l }) idx
  popDefault (·.timestamp) (fun d l => { d with timestamp := l }) idx
  popDefault (·.dirty) (fun d l => { d with dirty := l }) idx
  popDefault (·.removed) (fun d l => { d with removed := l }) idx
  onBase ((dkeys m.base.attrCols).forM (popCol idx))
  modify fun m => { m with base := { m.base with length := m.base.length - 1 } }

/-- One round of the loop that resets the dirty flags (logical_model.py:605-608). -/
def cleanAt (i : Nat) : Py CModel Unit := do
  let m ← get
  if ← liftE (getAt m.cols.dirty i) then putCol (·.dirty) (fun d l => { d with dirty := l }) i false

/-- Merging the model of the `i`-th constraint (logical_model.py:517-519). -/
def mergeConstraint (env : Env) (clks : Nat → Nat → ℚ) (ids : Nat → String) (p : (String × Constraint) × Nat) :
    Py CModel Unit := do
  let cm ← liftE (toModel (clks p.2 0) (ids p.2) p.1.2)
  withSnd cm (merge env (clks p.2))

/-- `to_physical` (logical_model.py:498-610). -/
def toPhysical (env : Env) (clks : Nat → Nat → ℚ) (ids : Nat → String) (ph : List (String × ℚ)) :
    Py CModel Physical := do
  let orig ← get
  orig.base.constraints.zipIdx.forM (mergeConstraint env clks ids)
  let m ← get
  let g ← liftE (group ph m)
  let off ← liftE (m.base.offset.resolve ph)
  let p := buildPhysical m.base g off
  modify fun m => ⟨{ m.base with offset := orig.base.offset, deleted := orig.base.deleted, fixed := orig.base.fixed,
                                 attrCols := orig.base.attrCols, attrs := orig.base.attrs,
                                 length := orig.base.length }, orig.cols⟩
  g.willRemove.forM popRow
  (List.range (← get).base.length.toNat).forM cleanAt
  return p

/-! ## `from_pyqubo` -/

/-- One round of the loop of `from_pyqubo` (logical_model.py:466-490). -/
def fromPyquboStep (now : ℚ) (kv : (String × String) × Coef) : Py (CModel × PModel) Unit := do
  let s ← get
  let t0 ← liftE (lookupVar s.1.base s.2.struct kv.1.1)
  let t1 ← liftE (lookupVar s.1.base s.2.struct kv.1.2)
  let c := negCoef kv.2
  if !kv.2.isNum then
    modify fun s => (s.1, { s.2 with qubo := dset s.2.qubo kv.1 c })
  if kv.1.1 = kv.1.2 then
    onFst (addInteraction now (.var t0) (.str "") c.toPy (.num 1) .none .none)
  else
    onFst (addInteraction now (.tuple [some t0, some t1]) (.str "") c.toPy (.num 1) .none .none)

/-- `from_pyqubo` (logical_model.py:455-492). -/
def fromPyqubo (now : ℚ) : Py (CModel × PModel) Unit := do
  let s ← get
  s.2.qubo.forM (fromPyquboStep now)
  modify fun s => ({ s.1 with base := { s.1.base with offset := s.2.offset } }, s.2)

/-! ## Calls -/

/-- The public calls of `Spec/History.lean` on the column model; `merge` takes the other model separately.
(the methods of logical_model.py:60-774) -/
def call (env : Env) : Op → Py CModel Unit
  | .variables name shape => onBase do let _ ← createVars name shape
  | .variablesArray a => onBase do let _ ← Sawatabi.variablesArray a
  | .append name shape => onBase do let _ ← appendVars name shape
  | .add now target name c s attributes ts => addInteraction now target name c s attributes ts
  | .update now target name c s attributes ts =>
    updateInteraction env.importTime now target name c s attributes ts
  | .remove target name => removeInteraction target name
  | .select v => do let _ ← selectByVariable v
  | .delete v => deleteVariable v
  | .fix clk v value => fixVariable clk v value
  | .addConstraint c => onBase (Sawatabi.addConstraint c)
  | .removeConstraint l => onBase (Sawatabi.removeConstraint l)
  | .setOffset c => onBase (Sawatabi.setOffset c)
  | .fromPyqubo now pm => withSnd pm (fromPyqubo now)
  | .toIsing clk => toIsing env clk
  | .toQubo clk => toQubo env clk
  | .merge _ _ => pure ()
  | .toPhysical clks ids ph => do let _ ← toPhysical env clks ids ph

/-- Models made by public calls, returned or raised; a merged model is made likewise. (the methods of logical_model.py:60-774) -/
inductive CMade (env : Env) : CModel → Prop
  | new (mt : MType) (id : String) : CMade env (CModel.new mt id)
  | step (m : CModel) (op : Op) (h : CMade env m) : CMade env ((call env op).run m).state
  | merge (m o : CModel) (clk : Nat → ℚ) (h : CMade env m) (ho : CMade env o) :
    CMade env ((withSnd o (merge env clk)).run m).state
  /-- the argument of a merge, which it may convert -/
  | merged (m o : CModel) (clk : Nat → ℚ) (h : CMade env m) (ho : CMade env o) :
    CMade env ((merge env clk).run (m, o)).state.2

end Sawatabi.Col
