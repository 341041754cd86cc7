import Verif.Model.Rounding

/-!
# The conversion to spins in floating point

Model/Rounding.lean leaves the conversion of the coefficients from binary variables to spins exact. Here it is a
parameter: dimod adds halves and quarters of the coefficients in floats, in an order of its own.
-/

namespace Sawatabi

/-- The preparation of `solve` (sawatabi_solver.py:75-104), `conv` being `bqm.change_vartype(dimod.SPIN, inplace=False)` in
floats; see `prepare`. -/
def prepareC (conv : Bqm → Bqm) (p : Physical) : Except Err Problem := do
  let o := p.toBqm 1
  let b := if o.vartype ≠ .spin then conv o else o
  let l ← linearArray p b
  let a ← adjArray p b
  return ⟨p, o, b, l, a⟩

/-- `solve` (sawatabi_solver.py:37-148) in floats, as `solveR`, with the conversion. -/
def solveC {γ : Type} (ar : Arith) (conv : Bqm → Bqm) (rng : Rng γ) (seeded : Nat → γ) (fresh : γ)
    (exp : ℚ → Except Err ℚ) (p : Physical) (numReads : Int) (o : Options) (seed : Option Int) :
    Py (Option (List Sample)) (List Annealed) := do
  let init ← get
  liftE (checkArgs p numReads o init)
  let g ← liftE (chooseRng seeded fresh seed)
  if p.mtype.vtype ≠ .spin then
    modify fun init => init.map fun l => l.map spinInit
  let s ← liftE (prepareC conv p)
  let init ← get
  let rs ← liftE (readsR ar rng exp s o init (List.range numReads.toNat) g)
  return rs.map fun a => { a with sample := changeVartype s.original.vartype a.sample }

end Sawatabi
