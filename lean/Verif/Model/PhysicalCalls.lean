import Verif.Model.Samplers

/-!
# Physical models that are written by hand

Models /repo/sawatabi/model/physical_model.py lines 24-42 and 56-72 and the solvers for physical models that do not (or
not only) come from `to_physical`. `PhysicalModel.add_interaction` stores a coefficient under the name it is given, so the
two labels of a pair can come in any order, in both orders, or be the same label. What the constructor of
`dimod.BinaryQuadraticModel` does with that is written out here.
-/

namespace Sawatabi

/-- A call of `PhysicalModel.add_interaction` (physical_model.py:39-40). A name that does not fit to the body (a pair for
a linear interaction, a string for a quadratic one) is not modelled. -/
inductive PhysCall where
  /-- `add_interaction(l, 1, c)` -/
  | linear (l : String) (c : ℚ)
  /-- `add_interaction((a, b), 2, c)` -/
  | quadratic (a b : String) (c : ℚ)
  /-- `add_interaction(name, body, c)` with another body -/
  | other
  deriving DecidableEq, Repr

/-- `PhysicalModel(mtype)` (physical_model.py:24-33). -/
def Physical.new (mtype : MType) : Physical := ⟨mtype, [], [], 0, [], [], []⟩

/-- `add_interaction` (physical_model.py:39-40): `self._raw_interactions[body][name] = coefficient`. -/
def PhysCall.run : PhysCall → Py Physical Unit
  | .linear l c => modify fun p => { p with linear := dset p.linear l c }
  | .quadratic a b c => modify fun p => { p with quad := dset p.quad (a, b) c }
  | .other => throw .keyError

/-- A sequence of calls; the caller catches what a call raises. (physical_model.py:39-40) -/
def Physical.after (p : Physical) (calls : List PhysCall) : Physical :=
  calls.foldl (fun p c => (c.run.run p).state) p

/-- The name under which a coefficient of two variables is kept here. For dimod a pair has no order; the smaller label
comes first as in `to_physical`. (physical_model.py:70) -/
def orient (k : String × String) : String × String := if k.1 < k.2 then k else (k.2, k.1)

/-- `add_interaction` of dimod: a self-loop raises ValueError, otherwise the coefficient is added to the one that the
pair has in either order. (physical_model.py:70) -/
def dimodAdd (q : List ((String × String) × ℚ)) (kv : (String × String) × ℚ) :
    Except Err (List ((String × String) × ℚ)) :=
  if kv.1.1 = kv.1.2 then .error .valueError
  else .ok (dset q (orient kv.1) ((dget q (orient kv.1)).getD 0 + kv.2))

/-- `dimod.BinaryQuadraticModel(linear, quadratic, offset, vartype)`. (physical_model.py:70) -/
def dimodModel (b : Bqm) : Except Err Bqm := do
  let q ← b.quad.foldlM dimodAdd []
  return { b with quad := q }

/-- `to_bqm(sign)` (physical_model.py:56-72) for any physical model. -/
def Physical.anyBqm (sign : ℚ) (p : Physical) : Except Err Bqm := dimodModel (p.toBqm sign)

/-- `LocalSolver.solve` (local_solver.py:37-59) for any physical model; see `localSolve`. -/
def anyLocalSolve (sampler : Option (Bqm → Except Err (List (Sample × ℚ)))) (p : Physical) :
    Py (List Bqm) (List (Sample × ℚ)) := do
  if p.isEmptyModel then throw .valueError
  let bqm ← liftE (p.anyBqm (-1))
  modify fun log => log ++ [bqm]
  match sampler with
  | none => liftE (exactSample bqm)
  | some f => liftE (f bqm)

/-- `DWaveSolver.solve` (dwave_solver.py:45-56) for any physical model. -/
def anyDwaveSolve (composite : Bqm → Except Err (List (Sample × ℚ))) (p : Physical) :
    Py (List Bqm) (List (Sample × ℚ)) := do
  if p.isEmptyModel then throw .valueError
  let bqm ← liftE (p.anyBqm (-1))
  modify fun log => log ++ [bqm]
  liftE (composite bqm)

/-- The arrays of `solve` (sawatabi_solver.py:79-104) for any physical model. -/
def anyPrepare (p : Physical) (o : Bqm) : Except Err Problem := do
  let b := if o.vartype ≠ .spin then o.toSpin else o
  let l ← linearArray p b
  let a ← adjArray p b
  return ⟨p, o, b, l, a⟩

/-- `SawatabiSolver.solve` (sawatabi_solver.py:37-148) for any physical model; see `solve`. -/
def anySolve {γ : Type} (rng : Rng γ) (seeded : Nat → γ) (fresh : γ) (exp : ℚ → Except Err ℚ) (p : Physical)
    (numReads : Int) (o : Options) (seed : Option Int) : Py (Option (List Sample)) (List Annealed) := do
  let init ← get
  liftE (checkArgs p numReads o init)
  let g ← liftE (chooseRng seeded fresh seed)
  let original ← liftE (p.anyBqm 1)
  if original.vartype ≠ .spin then
    modify fun init => init.map fun l => l.map spinInit
  let s ← liftE (anyPrepare p original)
  let init ← get
  let rs ← liftE (reads rng exp s o init (List.range numReads.toNat) g)
  return rs.map fun a => { a with sample := changeVartype s.original.vartype a.sample }

end Sawatabi
