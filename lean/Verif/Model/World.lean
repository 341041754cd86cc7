import Verif.Spec.History

/-!
# Constraint objects shared between models

The registry `_constraints` of a `LogicalModel` holds references (logical_model.py:426-429, 666): `add_constraint` keeps the
object it is given, and `merge` copies the references of the other model. The other files treat a constraint as part of the
model. Here several models live together with the constraint objects they refer to. A Python set passed to a constraint is
kept without a copy (abstract_constraint.py:39-40), but no code of the project changes it, so it is a value here;
`Model/SetObjects.lean` has sets as objects.
-/

namespace Sawatabi

/-- A `LogicalModel` object: its fields without the registry of constraints (the field `constraints` of `core` is unused),
and the registry, which maps labels to addresses of constraint objects (logical_model.py:34-48). -/
structure HModel where
  core : LModel
  refs : List (String × Nat)
  deriving DecidableEq, Repr

/-- The objects that exist: constraint objects by address, models by position. (logical_model.py:426-429, 666) -/
structure World where
  heap : List Constraint
  models : List HModel
  deriving DecidableEq, Repr

/-- The constraints that a registry refers to. (logical_model.py:426-429, 666) -/
def deref (heap : List Constraint) (refs : List (String × Nat)) : List (String × Constraint) :=
  refs.filterMap fun p => (heap[p.2]?).map fun c => (p.1, c)

/-- A model as its methods see it, the constraints read through the references. (logical_model.py:42, 429, 666) -/
def HModel.view (heap : List Constraint) (h : HModel) : LModel := { h.core with constraints := deref heap h.refs }

/-- The `i`-th model as its methods see it. (logical_model.py:42, 429, 666) -/
def World.model (w : World) (i : Nat) : Option LModel := (w.models[i]?).map (·.view w.heap)

/-- Store the fields of a model, without its registry. (logical_model.py:38-48) -/
def World.put (w : World) (i : Nat) (m : LModel) : World :=
  { w with models := w.models.modify i fun h => { h with core := { m with constraints := [] } } }

/-- Run a method, or a part of one, that does not write to the registry of its model. It reads the constraints through
the references. (the methods of logical_model.py:60-774) -/
def onModel {α : Type} (i : Nat) (x : Py LModel α) : Py World α := ⟨fun w =>
  match w.model i with
  | none => .error .indexError w
  | some m =>
    match x.run m with
    | .ok a m' => .ok a (w.put i m')
    | .error e m' => .error e (w.put i m')⟩

/-- The same for two different models. (logical_model.py:612-671) -/
def onModels {α : Type} (i j : Nat) (x : Py (LModel × LModel) α) : Py World α := ⟨fun w =>
  match w.model i, w.model j with
  | some a, some b =>
    match x.run (a, b) with
    | .ok r p => .ok r ((w.put i p.1).put j p.2)
    | .error e p => .error e ((w.put i p.1).put j p.2)
  | _, _ => .error .indexError w⟩

/-- The references of the `i`-th model. (logical_model.py:42, 429, 666) -/
def World.refs (w : World) (i : Nat) : List (String × Nat) :=
  match w.models[i]? with
  | some h => h.refs
  | none => []

/-- Store the references of a model. (logical_model.py:429, 433, 666) -/
def World.putRefs (w : World) (i : Nat) (r : List (String × Nat)) : World :=
  { w with models := w.models.modify i fun h => { h with refs := r } }

/-- `model.add_constraint(c)` for an existing object (logical_model.py:426-429). -/
def registerConstraint (i addr : Nat) : Py World Unit := do
  let w ← get
  match w.models[i]?, w.heap[addr]? with
  | some _, some c => set (w.putRefs i (dset (w.refs i) c.label addr))
  | _, _ => throw .indexError

/-- `model.remove_constraint(label)` (logical_model.py:431-433). -/
def unregisterConstraint (i : Nat) (label : String) : Py World Unit := do
  let w ← get
  if (dget (w.refs i) label).isNone then throw .keyError
  set (w.putRefs i (dpop (w.refs i) label))

/-- One round of the constraint loop of `delete_variable` (logical_model.py:363-364): it changes the object. -/
def removeFromObject (i : Nat) (v : PVar) (label : String) : Py World Unit := do
  let w ← get
  match dget (w.refs i) label with
  | none => throw .keyError
  | some addr =>
    match w.heap[addr]? with
    | none => throw .keyError
    | some c =>
      let c' ← liftE (c.removeVariable v)
      set { w with heap := w.heap.set addr c' }

/-- `delete_variable` (logical_model.py:354-369) for a pyqubo variable. -/
def deleteOn (i : Nat) (v : PVar) : Py World Unit := do
  onModel i (modify fun m => { m with deleted := sadd m.deleted v.label })
  let w ← get
  (dkeys (w.refs i)).forM (removeFromObject i v)
  onModel i (do
    let names ← selectByVariable v
    names.forM fun n => removeInteraction .none (.str n))

/-- The part of `merge` before the constraints (logical_model.py:615-660). -/
def mergeFront (env : Env) (clk : Nat → ℚ) : Py (LModel × LModel) Unit := do
  let s ← get
  if s.1.mtype ≠ s.2.mtype then onSnd (convertMtype env clk)
  let s ← get
  if rankClash s.1 s.2 then throw .valueError
  onFst (s.2.vars.forM mergeVar)
  mergeTables

/-- The end of `merge` (logical_model.py:669-671). -/
def mergeFields : Py (LModel × LModel) Unit :=
  modify fun p => ({ p.1 with offset := p.1.offset.add p.2.offset
                              deleted := p.2.deleted.foldl sadd p.1.deleted
                              fixed := p.2.fixed.foldl sadd p.1.fixed }, p.2)

/-- `models[i].merge(models[j])` for different models (logical_model.py:612-671): the references of the other model are
copied, the objects are not. -/
def mergeOn (env : Env) (clk : Nat → ℚ) (i j : Nat) : Py World Unit := do
  onModels i j (mergeFront env clk)
  let w ← get
  if (w.refs i).any (fun p => p.1 ∈ dkeys (w.refs j)) then throw .valueError
  set (w.putRefs i (dupdate (w.refs i) (w.refs j)))
  onModels i j mergeFields

/-- The part of `merge` before the constraints when a model is merged with itself (logical_model.py:615-660): each read
of `other` is a read of `self`. The loop over the variables overwrites the values of the dictionary it runs over, which
Python allows. -/
def mergeSelfFront : Py LModel Unit := do
  let m ← get
  if rankClash m m then throw .valueError
  m.vars.forM mergeVar
  let m ← get
  let ma := mergedAttrs m m
  let cols ← liftE (ma.mapM (mergedCol m m))
  set { m with rows := mergedRows m m, attrCols := cols, attrs := ma, length := m.length + m.length }

/-- `model.merge(model)` (logical_model.py:612-671). -/
def mergeSelf : Py LModel Unit := do
  mergeSelfFront
  let m ← get
  if m.constraints.any (fun p => p.1 ∈ dkeys m.constraints) then throw .valueError
  set { m with constraints := dupdate m.constraints m.constraints }
  modify fun m => { m with offset := m.offset.add m.offset }
  modify fun m => { m with deleted := m.deleted.foldl sadd m.deleted }
  modify fun m => { m with fixed := m.fixed.foldl sadd m.fixed }

/-- `models[i].merge(models[i])` (logical_model.py:612-671). -/
def mergeSelfOn (i : Nat) : Py World Unit := do
  onModel i mergeSelfFront
  let w ← get
  if (w.refs i).any (fun p => p.1 ∈ dkeys (w.refs i)) then throw .valueError
  set (w.putRefs i (dupdate (w.refs i) (w.refs i)))
  onModel i (do
    modify fun m => { m with offset := m.offset.add m.offset }
    modify fun m => { m with deleted := m.deleted.foldl sadd m.deleted }
    modify fun m => { m with fixed := m.fixed.foldl sadd m.fixed })

/-- A call that changes the variables of a constraint object.
(n_hot_constraint.py:36-45, zero_or_one_hot_constraint.py:36-45, equality_constraint.py:35-55) -/
inductive Edit where
  /-- `add_variable` (n_hot_constraint.py:36-38, zero_or_one_hot_constraint.py:36-38) -/
  | add (arg : PyVars)
  /-- `remove_variable` (n_hot_constraint.py:40-45, zero_or_one_hot_constraint.py:40-45) -/
  | remove (arg : PyVars)
  /-- `add_variable_to_1` (equality_constraint.py:35-37) -/
  | add1 (arg : PyVars)
  /-- `add_variable_to_2` (equality_constraint.py:39-41) -/
  | add2 (arg : PyVars)
  /-- `remove_variable_from_1` (equality_constraint.py:43-48) -/
  | remove1 (arg : PyVars)
  /-- `remove_variable_from_2` (equality_constraint.py:50-55) -/
  | remove2 (arg : PyVars)
  deriving DecidableEq, Repr

/-- Run a method of a variable set and put the set back.
(n_hot_constraint.py:36-45, zero_or_one_hot_constraint.py:36-45, equality_constraint.py:35-55) -/
def onSet (f : List PVar → Constraint) (x : Py (List PVar) Unit) (vs : List PVar) : Except Err Constraint :=
  match x.run vs with
  | .ok _ s => .ok (f s)
  | .error e _ => .error e

/-- The object after such a call (n_hot_constraint.py:36-45, zero_or_one_hot_constraint.py:36-45,
equality_constraint.py:35-55); a method the class does not have raises AttributeError. -/
def Constraint.edit (e : Edit) (c : Constraint) : Except Err Constraint :=
  match c, e with
  | .nHot l s vs n, .add a => onSet (fun t => .nHot l s t n) (addVariable a) vs
  | .nHot l s vs n, .remove a => onSet (fun t => .nHot l s t n) (Sawatabi.removeVariable a) vs
  | .zeroOrOneHot l s vs, .add a => onSet (fun t => .zeroOrOneHot l s t) (addVariable a) vs
  | .zeroOrOneHot l s vs, .remove a => onSet (fun t => .zeroOrOneHot l s t) (Sawatabi.removeVariable a) vs
  | .equality l s v1 v2, .add1 a => onSet (fun t => .equality l s t v2) (addVariable a) v1
  | .equality l s v1 v2, .add2 a => onSet (fun t => .equality l s v1 t) (addVariable a) v2
  | .equality l s v1 v2, .remove1 a => onSet (fun t => .equality l s t v2) (Sawatabi.removeVariable a) v1
  | .equality l s v1 v2, .remove2 a => onSet (fun t => .equality l s v1 t) (Sawatabi.removeVariable a) v2
  | _, _ => .error .attributeError

/-- A call of an editing method on a constraint object.
(n_hot_constraint.py:36-45, zero_or_one_hot_constraint.py:36-45, equality_constraint.py:35-55) -/
def editObject (addr : Nat) (e : Edit) : Py World Unit := do
  let w ← get
  match w.heap[addr]? with
  | none => throw .indexError
  | some c =>
    let c' ← liftE (c.edit e)
    set { w with heap := w.heap.set addr c' }

/-- A call in a world.
(the methods of logical_model.py:60-774, and n_hot_constraint.py:36-45, zero_or_one_hot_constraint.py:36-45, equality_constraint.py:35-55) -/
inductive WOp where
  /-- `LogicalModel(mtype)` -/
  | newModel (mt : MType) (id : String)
  /-- the constructor of a constraint class; any value -/
  | newConstraint (c : Constraint)
  | edit (addr : Nat) (e : Edit)
  | register (i addr : Nat)
  /-- any other call on one model; `add_constraint` and `merge` are the constructors `register` and `merge` -/
  | call (i : Nat) (op : Op)
  | merge (clk : Nat → ℚ) (i j : Nat)

/-- The call.
(the methods of logical_model.py:60-774, and n_hot_constraint.py:36-45, zero_or_one_hot_constraint.py:36-45, equality_constraint.py:35-55) -/
def WOp.run (env : Env) : WOp → Py World Unit
  | .newModel mt id => modify fun w => { w with models := w.models ++ [⟨LModel.new mt id, []⟩] }
  | .newConstraint c => modify fun w => { w with heap := w.heap ++ [c] }
  | .edit addr e => editObject addr e
  | .register i addr => registerConstraint i addr
  | .call i op => match op with
    | .delete v => deleteOn i v
    | .removeConstraint l => unregisterConstraint i l
    | .addConstraint _ => throw .typeError
    | .merge _ _ => throw .typeError
    | op => onModel i (op.call env)
  | .merge clk i j => if i = j then mergeSelfOn i else mergeOn env clk i j

/-- The world after a call, whether it returned or raised.
(the methods of logical_model.py:60-774, and n_hot_constraint.py:36-45, zero_or_one_hot_constraint.py:36-45, equality_constraint.py:35-55) -/
def WOp.step (env : Env) (w : World) (op : WOp) : World := ((op.run env).run w).state

end Sawatabi
