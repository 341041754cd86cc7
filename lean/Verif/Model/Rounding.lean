import Verif.Model.Solver

/-!
# The annealing in floating point

Models /repo/sawatabi/solver/sawatabi_solver.py:150-257 once more, with the rounding of floats: Model/Solver.lean
computes with rationals, here the result of every addition, subtraction, and every product or quotient that a float
cannot hold exactly goes through a rounding function. Products with a spin and with `2.0`, and the product of the
initial energy with `-1.0`, only change the sign or the exponent and are exact in binary floats. Overflow to infinity
and NaN are not modelled. Which rounding it is, and the order in which dimod sums up an energy, are parameters.
-/

namespace Sawatabi

/-- Float arithmetic. (sawatabi_solver.py:162, 210-245) -/
structure Arith where
  /-- The float that stands for the exact result of an operation. -/
  round : ℚ → ℚ
  /-- `bqm.energy(sample)` (dimod), computed in floats. -/
  energy : Bqm → Sample → Except Err ℚ

/-- Arithmetic without rounding: the one of Model/Solver.lean. (sawatabi_solver.py:162, 210-245) -/
def Arith.exact : Arith := ⟨id, Bqm.sampleEnergy⟩

/-- `calc_energy_diff` (sawatabi_solver.py:235-245): each `+=` is rounded. -/
def calcDiffR (ar : Arith) (s : Problem) (i : Nat) (x : List ℤ) : Except Err ℚ := do
  let xi ← listGet x i
  let h ← listGet s.linear i
  let adj ← listGet s.adj i
  let d ← adj.foldlM (fun d kv => do
    let xj ← listGet x kv.1
    return ar.round (d + (xi : ℚ) * (xj : ℚ) * kv.2)) ((xi : ℚ) * h)
  return 2 * d

/-- `is_acceptable` (sawatabi_solver.py:247-257): the quotient is rounded. -/
def isAcceptableR (ar : Arith) (exp : ℚ → Except Err ℚ) (rands : List ℚ) (used : Nat) (diff temperature : ℚ) :
    Except Err (Bool × Nat) :=
  if diff ≤ 0 then .ok (true, used)
  else do
    let p ← if temperature = 0 then .ok 0 else exp (ar.round (-diff / temperature))
    let r ← listGet rands used
    return (decide (r < p), used + 1)

/-- One round of the inner loop (sawatabi_solver.py:203-212): `energy += diff` is rounded. -/
def innerStepR (ar : Arith) (exp : ℚ → Except Err ℚ) (s : Problem) (rands : List ℚ) (temperature : ℚ) (t : Inner)
    (i : Nat) : Except Err Inner := do
  let diff ← calcDiffR ar s i t.x
  let (ok, used) ← isAcceptableR ar exp rands t.used diff temperature
  if ok then
    let xi ← listGet t.x i
    let x ← listSet t.x i (xi * -1)
    return ⟨x, ar.round (t.energy + diff), used, t.acceptances + 1⟩
  else return { t with used := used }

/-- One sweep (sawatabi_solver.py:185-222): the temperatures are rounded. -/
def sweepStepR {γ : Type} (ar : Arith) (rng : Rng γ) (exp : ℚ → Except Err ℚ) (s : Problem) (o : Options)
    (rands : List ℚ) (t : Outer γ) (sweep : Nat) : Except Err (Outer γ) := do
  let reversing ← if t.reversing then do
      let period ← o.reverse.get "reverse_period"
      pure (!decide (period ≤ sweep))
    else pure false
  let (ps, g) ← pickups rng o.pickup s.size t.rng
  let r ← ps.foldlM (innerStepR ar exp s rands t.temperature) ⟨t.x, t.energy, t.used, 0⟩
  let (temperature, target) ← if reversing then do
      let target := ar.round (t.target * o.coolingRate)
      let top ← o.reverse.get "reverse_temperature"
      pure (ar.round (top - target), target)
    else pure (ar.round (t.temperature * o.coolingRate), t.target)
  return { x := r.x, energy := r.energy, used := r.used, temperature, target, reversing,
           energyHist := t.energyHist ++ [t.energy], temperatureHist := t.temperatureHist ++ [t.temperature],
           acceptanceHist := t.acceptanceHist ++ [r.acceptances], rng := g }

/-- The state before the first sweep (sawatabi_solver.py:160-183). -/
def startStateR {γ : Type} (ar : Arith) (s : Problem) (o : Options) (x : List ℤ) (g : γ) : Except Err (Outer γ) := do
  let e ← ar.energy s.bqm (decode s.model x)
  let (temperature, target) ← if o.reverse.isTruthy then do
      let top ← o.reverse.get "reverse_temperature"
      pure (tinyTemperature, top)
    else pure (o.initialTemperature, 0)
  return { x, energy := e * -1, used := 0, temperature, target, reversing := decide (o.reverse ≠ .none),
           energyHist := [], temperatureHist := [], acceptanceHist := [], rng := g }

/-- `annealing` (sawatabi_solver.py:150-233): the last addition, of the offset, is rounded. -/
def annealingR {γ : Type} (ar : Arith) (rng : Rng γ) (exp : ℚ → Except Err ℚ) (s : Problem) (o : Options)
    (init : Option Sample) (g : γ) : Except Err (Annealed × γ) := do
  let (x, g) ← initialSpins rng s init g
  let t ← startStateR ar s o x g
  if o.numSweeps < 0 then throw .valueError
  let n := o.numSweeps.toNat
  let (rands, g) := rng.random (n * s.size) t.rng
  let t ← (List.range n).foldlM (sweepStepR ar rng exp s o rands) { t with rng := g }
  return (⟨decode s.model t.x, ar.round (t.energy + s.original.offset * 2), t.energyHist, t.temperatureHist,
    t.acceptanceHist⟩, t.rng)

/-- The loop over the reads (sawatabi_solver.py:111-133), as `reads`. -/
def readsR {γ : Type} (ar : Arith) (rng : Rng γ) (exp : ℚ → Except Err ℚ) (s : Problem) (o : Options)
    (init : Option (List Sample)) : List Nat → γ → Except Err (List Annealed)
  | [], _ => .ok []
  | r :: rs, g => do
    let st ← match init with
      | some (a :: l) => do
        let v ← listGet (a :: l) r
        pure (some v)
      | _ => pure none
    let (a, g) ← annealingR ar rng exp s o st g
    let rest ← readsR ar rng exp s o init rs g
    return a :: rest

/-- `solve` (sawatabi_solver.py:37-148), as `Sawatabi.solve`. The conversion of the coefficients from binary variables to
spins (`prepare`, lines 75-80) is left exact: it divides by 2 and 4, but its sums may be rounded. -/
def solveR {γ : Type} (ar : Arith) (rng : Rng γ) (seeded : Nat → γ) (fresh : γ) (exp : ℚ → Except Err ℚ) (p : Physical)
    (numReads : Int) (o : Options) (seed : Option Int) : Py (Option (List Sample)) (List Annealed) := do
  let init ← get
  liftE (checkArgs p numReads o init)
  let g ← liftE (chooseRng seeded fresh seed)
  if p.mtype.vtype ≠ .spin then
    modify fun init => init.map fun l => l.map spinInit
  let s ← liftE (prepare p)
  let init ← get
  let rs ← liftE (readsR ar rng exp s o init (List.range numReads.toNat) g)
  return rs.map fun a => { a with sample := changeVartype s.original.vartype a.sample }

end Sawatabi
