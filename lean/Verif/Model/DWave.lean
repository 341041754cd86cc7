import Verif.Model.Samplers

/-!
# The D-Wave solver with its access data

Models /repo/sawatabi/solver/dwave_solver.py lines 24-56. What the library does (connecting to the service, finding an
embedding, sampling) is a parameter; the state is the log of what was asked of it, in order.
-/

namespace Sawatabi

/-- The keyword arguments of `DWaveSampler(...)` (dwave_solver.py:34, 36); `none`: not passed, the library then looks into
its own configuration. -/
structure SamplerArgs where
  endpoint : Option String
  token : Option String
  solver : String
  deriving DecidableEq, Repr

/-- The arguments of `EmbeddingComposite(...)` (dwave_solver.py:39, 41). -/
structure CompositeArgs where
  sampler : SamplerArgs
  embedding : Option (List (String × PyVal))
  deriving DecidableEq, Repr

/-- The `embedding_parameters` argument: `None`, a dictionary or anything else. (dwave_solver.py:38-41) -/
inductive EmbeddingArg where
  | none
  | dict (d : List (String × PyVal))
  | other
  deriving DecidableEq, Repr

/-- What is asked of the library. (dwave_solver.py:34-41, 54) -/
inductive DWaveEvent where
  | connect (a : SamplerArgs)
  | sample (c : CompositeArgs) (kwargs : List (String × PyVal)) (b : Bqm)
  deriving DecidableEq, Repr

/-- The library: connecting may raise, sampling may raise or give samples with energies. (dwave_solver.py:34-41, 54) -/
structure DWaveLibrary where
  connect : SamplerArgs → Except Err Unit
  sample : CompositeArgs → List (String × PyVal) → Bqm → Except Err (List (Sample × ℚ))

/-- The choice of access data in `_create_composite` (dwave_solver.py:33-36). -/
def samplerArgs (endpoint token : Option String) (solver : String) : SamplerArgs :=
  match endpoint, token with
  | some e, some t => ⟨some e, some t, solver⟩
  | _, _ => ⟨none, none, solver⟩

/-- `DWaveSolver(endpoint, token, solver, embedding_parameters)` with `_create_composite` (dwave_solver.py:24-43). The object is
represented by its composite. -/
def dwaveInit (lib : DWaveLibrary) (endpoint token : Option String) (solver : String) (embedding : EmbeddingArg) :
    Py (List DWaveEvent) CompositeArgs := do
  let a := samplerArgs endpoint token solver
  modify fun log => log ++ [.connect a]
  liftE (lib.connect a)
  match embedding with
  | .dict d => return ⟨a, some d⟩
  | _ => return ⟨a, none⟩

/-- `DWaveSolver.solve(model, **kwargs)` (dwave_solver.py:45-56). -/
def dwaveSample (lib : DWaveLibrary) (c : CompositeArgs) (p : Physical) (kwargs : List (String × PyVal)) :
    Py (List DWaveEvent) (List (Sample × ℚ)) := do
  if p.isEmptyModel then throw .valueError
  let bqm := p.toBqm (-1)
  modify fun log => log ++ [.sample c kwargs bqm]
  liftE (lib.sample c kwargs bqm)

end Sawatabi
