import Verif.Model.Constraint

/-!
# `LogicalModel`: model type conversion, merge, physical conversion, PyQUBO import

Models /repo/sawatabi/model/logical_model.py lines 455-774.
-/

namespace Sawatabi

/-- What the code reads from its surroundings: the time at which the module was imported
(logical_model.py:209) and the rendering of a float in an f-string. -/
structure Env where
  importTime : ℚ
  render : ℚ → String

/-! ## `to_ising`, `to_qubo` -/

/-- The variables of an interaction with their class replaced. (logical_model.py:689-704) -/
def Inter.retype (vt : VType) : Inter → Inter
  | .lin v => .lin ⟨vt, v.label⟩
  | .quad v w => .quad ⟨vt, v.label⟩ ⟨vt, w.label⟩

/-- One round of the variable loop of `_update_variables_type` (logical_model.py:684-685). -/
def retypeVar (name : String) : Py LModel Unit := do
  let m ← get
  match dget m.vars name with
  | none => throw .keyError
  | some a =>
    let a' ← liftE (arrayCreate name (a.shape.map Int.ofNat) m.mtype.vtype)
    set { m with vars := dset m.vars name a' }

/-- `_update_variables_type` (logical_model.py:682-704). -/
def updateVariablesType : Py LModel Unit := do
  (dkeys (← get).vars).forM retypeVar
  makeFrame
  modify fun m => { m with rows := m.rows.map fun r =>
    if r.removed then r else { r with inter := r.inter.retype m.mtype.vtype } }

/-- `self.update_interaction(name=..., coefficient=...)` as called in the conversions. (logical_model.py:723, 730, 758, 765) -/
def updateCoef (env : Env) (name : String) (c : Coef) : Py LModel Unit :=
  updateInteraction env.importTime 0 .none (.str name) (some c.toPy) none .none none

/-- One linear interaction in `to_ising` (logical_model.py:722-724). -/
def toIsingLin (env : Env) (h : Row) : Py LModel Unit := do
  updateCoef env h.name (h.coef.mul (.num (1/2)))
  modify fun m => { m with offset := m.offset.add (h.coef.mul (.num (1/2))) }

/-- The name of an interaction added by a conversion (logical_model.py:732, 735, 767, 770). -/
def addedName (env : Env) (key name : String) (t : ℚ) : String :=
  key ++ " from " ++ name ++ " (mtype additional " ++ env.render t ++ ")"

/-- One quadratic interaction in `to_ising` (logical_model.py:729-737). `clk 0 .. clk 3` are the
successive clock values. -/
def toIsingQuad (env : Env) (clk : Nat → ℚ) (J : Row) : Py LModel Unit := do
  match J.inter with
  | .lin _ => throw .typeError
  | .quad v w =>
    updateCoef env J.name (J.coef.mul (.num (1/4)))
    addInteraction (clk 1) (.var v) (.str (addedName env v.label J.name (clk 0)))
      (J.coef.mul (.num (1/4))).toPy (.num 1) .none .none
    addInteraction (clk 3) (.var w) (.str (addedName env w.label J.name (clk 2)))
      (J.coef.mul (.num (1/4))).toPy (.num 1) .none .none
    modify fun m => { m with offset := m.offset.add (J.coef.mul (.num (1/4))) }

/-- `select_interaction(query="(body == b) and (removed == False)")` (logical_model.py:720, 727). -/
def selectBody (b : Nat) : Py LModel (List Row) := do
  makeFrame
  return (← get).rows.filter fun r => r.inter.body == b && !r.removed

/-- `to_ising` (logical_model.py:706-739). -/
def toIsing (env : Env) (clk : Nat → ℚ) : Py LModel Unit := do
  if (← get).mtype ≠ .ising then
    modify fun m => { m with mtype := .ising }
    updateVariablesType
    let hs ← selectBody 1
    hs.forM (toIsingLin env)
    let js ← selectBody 2
    js.zipIdx.forM fun p => toIsingQuad env (fun i => clk (4 * p.2 + i)) p.1

/-- One linear interaction in `to_qubo` (logical_model.py:757-759). -/
def toQuboLin (env : Env) (h : Row) : Py LModel Unit := do
  updateCoef env h.name (h.coef.mul (.num 2))
  modify fun m => { m with offset := m.offset.add (h.coef.mul (.num (-1))) }

/-- One quadratic interaction in `to_qubo` (logical_model.py:764-772). -/
def toQuboQuad (env : Env) (clk : Nat → ℚ) (J : Row) : Py LModel Unit := do
  match J.inter with
  | .lin _ => throw .typeError
  | .quad v w =>
    updateCoef env J.name (J.coef.mul (.num 4))
    addInteraction (clk 1) (.var v) (.str (addedName env v.label J.name (clk 0)))
      (J.coef.mul (.num (-2))).toPy (.num 1) .none .none
    addInteraction (clk 3) (.var w) (.str (addedName env w.label J.name (clk 2)))
      (J.coef.mul (.num (-2))).toPy (.num 1) .none .none
    modify fun m => { m with offset := m.offset.add J.coef }

/-- `to_qubo` (logical_model.py:741-774). -/
def toQubo (env : Env) (clk : Nat → ℚ) : Py LModel Unit := do
  if (← get).mtype ≠ .qubo then
    modify fun m => { m with mtype := .qubo }
    updateVariablesType
    let hs ← selectBody 1
    hs.forM (toQuboLin env)
    let js ← selectBody 2
    js.zipIdx.forM fun p => toQuboQuad env (fun i => clk (4 * p.2 + i)) p.1

/-- `_convert_mtype` (logical_model.py:673-680). -/
def convertMtype (env : Env) (clk : Nat → ℚ) : Py LModel Unit := do
  match (← get).mtype with
  | .qubo => toIsing env clk
  | .ising => toQubo env clk

/-! ## `merge` -/

/-- `Functions.elementwise_max` on tuples of equal length (functions.py:45-51; numpy broadcasting for
other lengths is not modelled, `merge` checks the ranks first). -/
def elementwiseMax (a b : List Int) : List Int := List.zipWith max a b

/-- `Functions.elementwise_min` on tuples of equal length (functions.py:53-59). -/
def elementwiseMin (a b : List Int) : List Int := List.zipWith min a b

/-- `Functions.elementwise_sub` (functions.py:37-43). -/
def elementwiseSub (a b : List Int) : List Int := List.zipWith (· - ·) a b

/-- Run a method of the second object of a pair. (logical_model.py:617, the call on `other`) -/
def onSnd {σ τ α : Type} (x : Py τ α) : Py (σ × τ) α := ⟨fun s =>
  match x.run s.2 with
  | .ok a t => .ok a (s.1, t)
  | .error e t => .error e (s.1, t)⟩

/-- Run a method of the first object of a pair. (logical_model.py:633, 669-671, the calls on `self`) -/
def onFst {σ τ α : Type} (x : Py σ α) : Py (σ × τ) α := ⟨fun s =>
  match x.run s.1 with
  | .ok a t => .ok a (t, s.2)
  | .error e t => .error e (t, s.2)⟩

/-- The rank check of merge (logical_model.py:620-623). -/
def rankClash (a b : LModel) : Bool :=
  a.vars.any fun p => match dget b.vars p.1 with
    | some w => p.2.shape.length ≠ w.shape.length
    | none => false

/-- One round of the variable loop of merge (logical_model.py:626-633). -/
def mergeVar (p : String × VArray) : Py LModel Unit := do
  let m ← get
  match dget m.vars p.1 with
  | none => set { m with vars := dset m.vars p.1 p.2 }
  | some cur =>
    let c := cur.shape.map Int.ofNat
    let mx := elementwiseMax (p.2.shape.map Int.ofNat) c
    let _ ← appendVars p.1 (elementwiseSub mx c)

/-- `merged_attrs` (logical_model.py:637). The code takes the arbitrary order of a Python set; here:
first operand's order, then new ones. -/
def mergedAttrs (a b : LModel) : List String := b.attrs.foldl sadd (a.attrs.foldl sadd [])

/-- The merged column of one attribute (logical_model.py:640-646). -/
def mergedCol (a b : LModel) (attr : String) : Except Err (String × List PyVal) := do
  if attr ∈ a.attrs then
    match dget a.attrCols attr with
    | none => throw .keyError
    | some ca =>
      match dget b.attrCols attr with
      | some cb => return (attr, ca ++ cb)
      | none => return (attr, ca ++ List.replicate b.length.toNat .nan)
  else
    match dget b.attrCols attr with
    | none => throw .keyError
    | some cb => return (attr, List.replicate a.length.toNat .nan ++ cb)

/-- Is a name in `duplicate_names` (logical_model.py:647)? -/
def dupName (a b : LModel) (n : String) : Bool := a.hasName n && b.hasName n

/-- Concatenated rows with duplicate names suffixed by the id of the model a row belongs to, as told
by its position (logical_model.py:650-656). -/
def mergedRows (a b : LModel) : List Row :=
  (a.rows ++ b.rows).zipIdx.map fun p =>
    if dupName a b p.1.name then
      let mid := if (p.2 : Int) < a.length then a.id else b.id
      { p.1 with name := p.1.name ++ " (" ++ mid ++ ")" }
    else p.1

/-- Merging the interactions (logical_model.py:635-660): the arrays are replaced at the end. -/
def mergeTables : Py (LModel × LModel) Unit := do
  let s ← get
  let ma := mergedAttrs s.1 s.2
  let cols ← liftE (ma.mapM (mergedCol s.1 s.2))
  modify fun p => ({ p.1 with rows := mergedRows s.1 s.2, attrCols := cols, attrs := ma,
                              length := s.1.length + s.2.length }, p.2)

/-- Merging constraints and the other fields (logical_model.py:662-671). -/
def mergeRest : Py (LModel × LModel) Unit := do
  let s ← get
  if s.1.constraints.any (fun p => p.1 ∈ dkeys s.2.constraints) then throw .valueError
  modify fun p => ({ p.1 with constraints := dupdate p.1.constraints s.2.constraints
                              offset := p.1.offset.add s.2.offset
                              deleted := s.2.deleted.foldl sadd p.1.deleted
                              fixed := s.2.fixed.foldl sadd p.1.fixed }, p.2)

/-- `merge` after the type check (logical_model.py:619-671). -/
def mergeSame : Py (LModel × LModel) Unit := do
  let s ← get
  if rankClash s.1 s.2 then throw .valueError
  onFst (s.2.vars.forM mergeVar)
  mergeTables
  mergeRest

/-- `merge` (logical_model.py:612-671) on the pair `(self, other)`. -/
def merge (env : Env) (clk : Nat → ℚ) : Py (LModel × LModel) Unit := do
  let s ← get
  if s.1.mtype ≠ s.2.mtype then onSnd (convertMtype env clk)
  mergeSame

/-! ## `to_physical` -/

/-- Value of an expression under a placeholder dictionary (pyqubo `to_qubo(feed_dict=...)` /
`Coefficient.evaluate`): raises if a placeholder is missing. (pyqubo may drop a placeholder that
cancels; the model raises whenever one occurs and is missing.) (logical_model.py:531-538, 554-559) -/
def PExpr.resolve (ph : List (String × ℚ)) : PExpr → Except Err ℚ
  | .num q => .ok q
  | .ph n => match dget ph n with
    | some q => .ok q
    | none => .error .placeholderError
  | .add a b => do
    let x ← a.resolve ph
    let y ← b.resolve ph
    return x + y
  | .mul a b => do
    let x ← a.resolve ph
    let y ← b.resolve ph
    return x * y

/-- Resolve a stored coefficient. (logical_model.py:531-538, 554-559) -/
def Coef.resolve (ph : List (String × ℚ)) (c : Coef) : Except Err ℚ := c.toExpr.resolve ph

/-- `d[k] += v`, or `d[k] = v` if absent (logical_model.py:541-550). -/
def dadd {κ : Type} [DecidableEq κ] (d : List (κ × ℚ)) (k : κ) (v : ℚ) : List (κ × ℚ) :=
  match dget d k with
  | some q => dset d k (q + v)
  | none => dset d k v

/-- Accumulators of the grouping loop. (logical_model.py:503-504, 521-550) -/
structure Groups where
  linear : List (String × ℚ)
  quad : List ((String × String) × ℚ)
  willRemove : List String
  deriving DecidableEq, Repr

/-- One round of the grouping loop (logical_model.py:522-550). -/
def groupStep (ph : List (String × ℚ)) (g : Groups) (r : Row) : Except Err Groups := do
  if r.removed then
    return { g with willRemove := g.willRemove ++ [r.name] }
  else
    let c ← (r.coef.mul r.scale).resolve ph
    match r.inter with
    | .lin v => return { g with linear := dadd g.linear v.label c }
    | .quad v w => return { g with quad := dadd g.quad (v.label, w.label) c }

/-- The grouping loop over `range(self._interactions_length)`: IndexError if it gets past the last row. (logical_model.py:522-550) -/
def group (ph : List (String × ℚ)) (m : LModel) : Except Err Groups := do
  let g ← (m.rows.take m.length.toNat).foldlM (groupStep ph) ⟨[], [], []⟩
  if (m.rows.length : Int) < m.length then throw .indexError
  return g

/-- Setting the interactions of the physical model (logical_model.py:562-570): non-zero entries, and
the set of their variables. -/
def physicalVars (lin : List (String × ℚ)) (quad : List ((String × String) × ℚ)) : List String :=
  quad.foldl (fun s p => sadd (sadd s p.1.1) p.1.2) (lin.foldl (fun s p => sadd s p.1) [])

/-- State of the numbering loop. (logical_model.py:573-581) -/
structure Numbering where
  l2i : List (String × Nat)
  i2l : List (Nat × String)
  cur : Nat
  deriving DecidableEq, Repr

/-- One round of the numbering loop (logical_model.py:577-581). -/
def numberStep (deleted varsSet : List String) (n : Numbering) (label : String) : Numbering :=
  if label ∉ deleted ∧ label ∈ varsSet then
    { l2i := dset n.l2i label n.cur, i2l := dset n.i2l n.cur label, cur := n.cur + 1 }
  else n

/-- All labels of a model's variables, in dictionary order. (logical_model.py:575-577) -/
def LModel.labels (m : LModel) : List String := m.vars.flatMap fun p => p.2.bits.map (·.label)

/-- The numbering loop (logical_model.py:574-581). -/
def numbering (m : LModel) (varsSet : List String) : Numbering :=
  m.labels.foldl (numberStep m.deleted varsSet) ⟨[], [], 0⟩

/-- Building the physical model from the groups (logical_model.py:552-581). -/
def buildPhysical (m : LModel) (g : Groups) (offset : ℚ) : Physical :=
  let lin := g.linear.filter (·.2 ≠ 0)
  let quad := g.quad.filter (·.2 ≠ 0)
  let vs := physicalVars lin quad
  let n := numbering m vs
  { mtype := m.mtype, linear := lin, quad := quad, offset := offset, varsSet := vs,
    labelToIndex := n.l2i, indexToLabel := n.i2l }

/-- `col.pop(idx)` for one attribute column (logical_model.py:600-601). -/
def popCol (idx : Nat) (key : String) : Py LModel Unit := do
  let m ← get
  match dget m.attrCols key with
  | none => throw .keyError
  | some col =>
    if idx < col.length then set { m with attrCols := dset m.attrCols key (col.eraseIdx idx) }
    else throw .indexError

/-- One round of the removal loop (logical_model.py:598-602). -/
def popRow (name : String) : Py LModel Unit := do
  let m ← get
  let idx ← liftE (m.indexOf name)
  modify fun m => { m with rows := m.rows.eraseIdx idx }
  (dkeys m.attrCols).forM (popCol idx)
  modify fun m => { m with length := m.length - 1 }

/-- Merging the model of the `i`-th constraint (logical_model.py:517-519). `ids i` is the id of the
temporary constraint model, `clks i` the clock during its conversion. -/
def mergeConstraint (env : Env) (clks : Nat → Nat → ℚ) (ids : Nat → String) (p : (String × Constraint) × Nat) :
    Py LModel Unit := do
  let cm ← liftE (p.1.2.toModel (clks p.2 0) (ids p.2))
  ⟨fun s => match (merge env (clks p.2)).run (s, cm) with
    | .ok _ t => .ok () t.1
    | .error e t => .error e t.1⟩

/-- `to_physical` (logical_model.py:498-610). -/
def toPhysical (env : Env) (clks : Nat → Nat → ℚ) (ids : Nat → String) (ph : List (String × ℚ)) :
    Py LModel Physical := do
  let orig ← get
  orig.constraints.zipIdx.forM (mergeConstraint env clks ids)
  let m ← get
  let g ← liftE (group ph m)
  let off ← liftE (m.offset.resolve ph)
  let p := buildPhysical m g off
  -- restore (logical_model.py:586-594); variables and constraints are not restored
  modify fun m => { m with offset := orig.offset, deleted := orig.deleted, fixed := orig.fixed,
                           rows := orig.rows, attrCols := orig.attrCols, attrs := orig.attrs,
                           length := orig.length }
  g.willRemove.forM popRow
  modify fun m => { m with rows := (m.rows.take m.length.toNat).map (fun r => { r with dirty := false })
                                    ++ m.rows.drop m.length.toNat }
  return p

/-! ## `from_pyqubo` -/

/-- A compiled pyqubo model: the QUBO dictionary, the map from labels to `(array name, index...)`
and the offset. (logical_model.py:463-464) -/
structure PModel where
  qubo : List ((String × String) × Coef)
  struct : List (String × (String × List Nat))
  offset : Coef
  deriving DecidableEq, Repr

/-- Position of an index tuple in a flattened array, `none` if out of range. (logical_model.py:471, 475) -/
def flatIndex : List Nat → List Nat → Option Nat
  | [], [] => some 0
  | d :: ds, i :: is =>
    if i < d then (flatIndex ds is).map fun r => i * (ds.foldl (· * ·) 1) + r else none
  | _, _ => none

/-- `self.get_variables_by_name(structure[k][0])[structure[k][1:]]` (logical_model.py:470-475). Simplified: an index tuple that is shorter
than the shape raises IndexError; in the code it selects a sub-array, which `add_interaction` then rejects with TypeError. -/
def lookupVar (m : LModel) (struct : List (String × (String × List Nat))) (k : String) : Except Err PVar :=
  match dget struct k with
  | none => .error .keyError
  | some (name, idx) =>
    match dget m.vars name with
    | none => .error .keyError
    | some a =>
      match flatIndex a.shape idx with
      | none => .error .indexError
      | some i => match a.bits[i]? with
        | none => .error .indexError
        | some v => .ok v

/-- Negation of a QUBO coefficient (logical_model.py:477-483). -/
def negCoef : Coef → Coef
  | .num q => .num (q * (-1))
  | .expr e => .expr (.mul (.num (-1)) e)

/-- One round of the loop of `from_pyqubo` (logical_model.py:466-490). A `pyqubo.Coefficient` is
negated in place, so the pyqubo model changes as well. -/
def fromPyquboStep (now : ℚ) (kv : (String × String) × Coef) : Py (LModel × PModel) Unit := do
  let s ← get
  let t0 ← liftE (lookupVar s.1 s.2.struct kv.1.1)
  let t1 ← liftE (lookupVar s.1 s.2.struct kv.1.2)
  let c := negCoef kv.2
  if !kv.2.isNum then
    modify fun s => (s.1, { s.2 with qubo := dset s.2.qubo kv.1 c })
  if kv.1.1 = kv.1.2 then
    onFst (addInteraction now (.var t0) (.str "") c.toPy (.num 1) .none .none)
  else
    onFst (addInteraction now (.tuple [some t0, some t1]) (.str "") c.toPy (.num 1) .none .none)

/-- `from_pyqubo` (logical_model.py:455-492) for a compiled model; one clock value stands for all
interactions added. -/
def fromPyqubo (now : ℚ) : Py (LModel × PModel) Unit := do
  let s ← get
  s.2.qubo.forM (fromPyquboStep now)
  modify fun s => ({ s.1 with offset := s.2.offset }, s.2)

end Sawatabi
