import Verif.Model.Samplers

/-!
# Equal samples in the answer of Optigan

Models line 109 of /repo/sawatabi/solver/optigan_solver.py: `SampleSet.from_samples(..., aggregate_samples=True)` of dimod.
-/

namespace Sawatabi

/-- A record of a sample set: the sample, its energy and `num_occurrences`. (optigan_solver.py:109) -/
structure Record where
  sample : Sample
  energy : ℚ
  occurrences : Nat
  deriving DecidableEq

/-- Adds one sample to the records: to the record of an equal sample, which keeps its energy, or as a new record. (optigan_solver.py:109) -/
def addRecord : List Record → Sample × ℚ → List Record
  | [], x => [⟨x.1, x.2, 1⟩]
  | r :: rs, x => if r.sample = x.1 then { r with occurrences := r.occurrences + 1 } :: rs else r :: addRecord rs x

/-- `SampleSet.aggregate` of dimod, called by `from_samples` with `aggregate_samples=True` (optigan_solver.py:109): equal samples
become one record, at the place and with the energy of the first one. The samples that Optigan's solver decodes have the
same labels in the same order, so that they are equal as lists if they are equal as dictionaries; samples over
different labels (spins of different lengths) are not modelled, nor is the order of the labels (`sort_labels`). -/
def aggregate (l : List (Sample × ℚ)) : List Record := l.foldl addRecord []

/-- `OptiganSolver.solve` with the aggregation (optigan_solver.py:47-112). -/
def optiganRecords (c : OptiganSolver) (server : OptiganRequest → OptiganResponse) (p : Physical) (numUnitSteps timeout : Int)
    (duplicate : Bool) : Py (List OptiganRequest) (List Record) := do
  let l ← optiganSolve c server p numUnitSteps timeout duplicate
  return aggregate l

end Sawatabi
