import Verif.Model.Solver

/-!
# The other solvers

Models /repo/sawatabi/solver/local_solver.py lines 24-67, dwave_solver.py lines 24-56 and optigan_solver.py
lines 29-112. The state of a call is the log of what was sent to a sampler or server, in order. Timing
information is not modelled; for headers, compression and the configuration file see `Model/OptiganHttp.lean`.
-/

namespace Sawatabi

/-- The values of a domain. (local_solver.py:32, 48) -/
def VType.values : VType → List ℤ
  | .spin => [-1, 1]
  | .binary => [0, 1]

/-- All samples over a list of variables. (local_solver.py:32, 48) -/
def allSamples (vt : VType) : List String → List Sample
  | [] => [[]]
  | v :: vs => (allSamples vt vs).flatMap fun s => vt.values.map fun a => (v, a) :: s

/-- `dimod.ExactSolver().sample(bqm)`: every assignment with its energy (dimod enumerates in the order of a Gray
code; the order is not modelled). (local_solver.py:32, 48) -/
def exactSample (b : Bqm) : Except Err (List (Sample × ℚ)) :=
  (allSamples b.vartype b.variables).mapM fun s => do
    let e ← b.sampleEnergy s
    return (s, e)

/-- `LocalSolver.solve` (local_solver.py:37-59). `sampler` is `None` for `exact=True`, otherwise the annealer of neal. -/
def localSolve (sampler : Option (Bqm → Except Err (List (Sample × ℚ)))) (p : Physical) :
    Py (List Bqm) (List (Sample × ℚ)) := do
  if p.isEmptyModel then throw .valueError
  let bqm := p.toBqm (-1)
  modify fun log => log ++ [bqm]
  match sampler with
  | none => liftE (exactSample bqm)
  | some f => liftE (f bqm)

/-- `LocalSolver.default_beta_range` (local_solver.py:61-67). -/
def defaultBetaRange {β : Type} (range : Bqm → Except Err β) (p : Physical) : Py (List Bqm) β := do
  if p.isEmptyModel then throw .valueError
  let bqm := p.toBqm (-1)
  modify fun log => log ++ [bqm]
  liftE (range bqm)

/-- `DWaveSolver.solve` (dwave_solver.py:45-56). -/
def dwaveSolve (composite : Bqm → Except Err (List (Sample × ℚ))) (p : Physical) : Py (List Bqm) (List (Sample × ℚ)) := do
  if p.isEmptyModel then throw .valueError
  let bqm := p.toBqm (-1)
  modify fun log => log ++ [bqm]
  liftE (composite bqm)

/-- A request to the Optigan server (optigan_solver.py:67-80). -/
structure OptiganRequest where
  endpoint : String
  token : String
  numUnitSteps : Int
  timeout : Int
  polynomial : List (Nat × Nat × ℚ)
  duplicate : Bool
  deriving DecidableEq, Repr

/-- A response of the Optigan server: the status and, in the body, the spins and energies. (optigan_solver.py:98-109) -/
structure OptiganResponse where
  status : Int
  spins : List (List ℤ)
  energies : List ℚ
  deriving DecidableEq, Repr

/-- An `OptiganSolver` object (optigan_solver.py:30-45): endpoint and token given to the constructor, and the contents
of the configuration file if there is one (endpoint and token; a file without them raises KeyError and is not
modelled). -/
structure OptiganSolver where
  endpoint : Option String
  token : Option String
  config : Option (String × String)
  deriving DecidableEq, Repr

/-- `bool(s)` for a string or `None` (optigan_solver.py:35, 59, 62) -/
def truthyStr : Option String → Bool
  | none => false
  | some s => s ≠ ""

/-- The choice of endpoint and token (optigan_solver.py:59-65): if there are none, the variables stay unbound. -/
def OptiganSolver.access (c : OptiganSolver) : Except Err (String × String) :=
  if truthyStr c.endpoint && truthyStr c.token then .ok (c.endpoint.getD "", c.token.getD "")
  else match c.config with
    | some et => .ok et
    | none => .error .unboundLocalError

/-- `OptiganSolver.solve` (optigan_solver.py:47-112). `server` is the server. `from_samples` of dimod rejects another
number of energies than samples; the aggregation of equal samples is not modelled. -/
def optiganSolve (c : OptiganSolver) (server : OptiganRequest → OptiganResponse) (p : Physical) (numUnitSteps timeout : Int)
    (duplicate : Bool) : Py (List OptiganRequest) (List (Sample × ℚ)) := do
  if p.isEmptyModel then throw .valueError
  if p.mtype = .ising then throw .valueError
  let polynomial ← liftE p.toPolynomial
  let (endpoint, token) ← liftE c.access
  let req : OptiganRequest := ⟨endpoint, token, numUnitSteps, timeout, polynomial, duplicate⟩
  modify fun log => log ++ [req]
  let r := server req
  if r.status ≠ 200 then throw .valueError
  let samples := r.spins.map fun x => decode p x
  if samples.length ≠ r.energies.length then throw .valueError
  return samples.zip r.energies

end Sawatabi
