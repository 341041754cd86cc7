import Verif.Model.Physical

/-!
# Solvers

Models /repo/sawatabi/solver/sawatabi_solver.py (simulated annealing), and the parts of local_solver.py,
optigan_solver.py and dwave_solver.py that do not live in libraries.

Floats are rationals. `numpy` random generators are an abstract machine (`Rng`), `math.exp` is an arbitrary
function that may raise (`OverflowError`). The functions of dimod that the code calls are written out below
for models without self-loops and with at most one coefficient per unordered pair, as `to_physical` builds
them (C26).
-/

namespace Sawatabi

/-! ## What the solvers use of dimod -/

/-- `bqm.variables` (dimod): all labels of the linear and quadratic terms. (sawatabi_solver.py:156) -/
def Bqm.variables (b : Bqm) : List String := physicalVars b.linear b.quad

/-- `bqm.linear[v]` (dimod): zero for a variable that has quadratic terms only. (sawatabi_solver.py:94) -/
def Bqm.bias (b : Bqm) (v : String) : ℚ := (dget b.linear v).getD 0

/-- `bqm.adj[v].items()` (dimod). (sawatabi_solver.py:98-101) -/
def Bqm.neighbours (b : Bqm) (v : String) : List (String × ℚ) :=
  b.quad.filterMap fun kv =>
    if kv.1.1 = v then some (kv.1.2, kv.2) else if kv.1.2 = v then some (kv.1.1, kv.2) else none

/-- `bqm.change_vartype(dimod.SPIN, inplace=False)` (dimod): `x = (s + 1) / 2` substituted. (sawatabi_solver.py:80) -/
def Bqm.toSpin (b : Bqm) : Bqm where
  vartype := .spin
  linear := b.variables.map fun v => (v, b.bias v / 2 + ((b.neighbours v).map (·.2)).sum / 4)
  quad := b.quad.map fun kv => (kv.1, kv.2 / 4)
  offset := b.offset + (b.variables.map b.bias).sum / 2 + (b.quad.map (·.2)).sum / 4

/-- A sample: values by label. (sawatabi_solver.py:160, 224) -/
abbrev Sample := List (String × ℤ)

/-- `sample[v]` (sawatabi_solver.py:158) -/
def Sample.value (s : Sample) (v : String) : Except Err ℤ :=
  match dget s v with
  | some a => .ok a
  | none => .error .keyError

/-- `bqm.energy(sample)` (dimod): raises if a variable has no value. (sawatabi_solver.py:162) -/
def Bqm.sampleEnergy (b : Bqm) (s : Sample) : Except Err ℚ := do
  let l ← b.variables.mapM fun v => do
    let a ← s.value v
    return b.bias v * (a : ℚ)
  let q ← b.quad.mapM fun kv => do
    let x ← s.value kv.1.1
    let y ← s.value kv.1.2
    return kv.2 * ((x : ℚ) * (y : ℚ))
  return b.offset + l.sum + q.sum

/-! ## The simulated annealing solver -/

/-- A random generator of numpy: what it draws and the state after that. (sawatabi_solver.py:69-73) -/
structure Rng (γ : Type) where
  /-- `rng.integers(2, size=n)` -/
  integers : Nat → γ → List Bool × γ
  /-- `rng.random(size=n)` -/
  random : Nat → γ → List ℚ × γ
  /-- `rng.permutation(n)` -/
  permutation : Nat → γ → List Nat × γ

/-- A `reverse_options` argument: `None`, a dictionary, another truthy object, another falsy object. (sawatabi_solver.py:45, 62-67) -/
inductive PyReverse where
  | none
  | dict (d : List (String × ℚ))
  | truthy
  | falsy
  deriving DecidableEq, Repr

/-- `bool(reverse_options)` (sawatabi_solver.py:62, 165) -/
def PyReverse.isTruthy : PyReverse → Bool
  | .none => false
  | .dict d => !d.isEmpty
  | .truthy => true
  | .falsy => false

/-- `reverse_options[key]`: only a dictionary has keys. (sawatabi_solver.py:171, 187, 220) -/
def PyReverse.get (r : PyReverse) (key : String) : Except Err ℚ :=
  match r with
  | .dict d => match dget d key with
    | some q => .ok q
    | Option.none => .error .keyError
  | _ => .error .typeError

/-- What `solve` prepares for `annealing` (sawatabi_solver.py:75-104). -/
structure Problem where
  model : Physical
  original : Bqm
  bqm : Bqm
  linear : List ℚ
  adj : List (List (Nat × ℚ))
  deriving DecidableEq, Repr

/-- `self._bqm.num_variables` (sawatabi_solver.py:93, 97, 151) -/
def Problem.size (s : Problem) : Nat := s.bqm.variables.length

/-- `l[i] = v` (sawatabi_solver.py:96, 104, 158, 210) -/
def listSet {α : Type} (l : List α) (i : Nat) (v : α) : Except Err (List α) :=
  if i < l.length then .ok (l.set i v) else .error .indexError

/-- `l[i]` (sawatabi_solver.py:207, 237, 241, 255) -/
def listGet {α : Type} (l : List α) (i : Nat) : Except Err α :=
  match l[i]? with
  | some v => .ok v
  | none => .error .indexError

/-- The linear coefficients by index (sawatabi_solver.py:93-96). -/
def linearArray (p : Physical) (b : Bqm) : Except Err (List ℚ) :=
  b.variables.foldlM (fun arr v => do
    let i ← p.index v
    listSet arr i (b.bias v)) (List.replicate b.variables.length 0)

/-- The adjacency of one variable by index (sawatabi_solver.py:100-103). -/
def adjDict (p : Physical) (b : Bqm) (v : String) : Except Err (List (Nat × ℚ)) :=
  (b.neighbours v).foldlM (fun d kv => do
    let i ← p.index kv.1
    return dset d i kv.2) []

/-- The adjacencies by index (sawatabi_solver.py:97-104). -/
def adjArray (p : Physical) (b : Bqm) : Except Err (List (List (Nat × ℚ))) :=
  b.variables.foldlM (fun arr v => do
    let i ← p.index v
    let d ← adjDict p b v
    listSet arr i d) (List.replicate b.variables.length [])

/-- The preparation of `solve` (sawatabi_solver.py:75-104). -/
def prepare (p : Physical) : Except Err Problem := do
  let o := p.toBqm 1
  let b := if o.vartype ≠ .spin then o.toSpin else o
  let l ← linearArray p b
  let a ← adjArray p b
  return ⟨p, o, b, l, a⟩

/-- `calc_energy_diff` (sawatabi_solver.py:235-245). -/
def calcDiff (s : Problem) (i : Nat) (x : List ℤ) : Except Err ℚ := do
  let xi ← listGet x i
  let h ← listGet s.linear i
  let adj ← listGet s.adj i
  let d ← adj.foldlM (fun d kv => do
    let xj ← listGet x kv.1
    return d + (xi : ℚ) * (xj : ℚ) * kv.2) ((xi : ℚ) * h)
  return 2 * d

/-- `is_acceptable` (sawatabi_solver.py:247-257). `used` is the number of random numbers used before. `diff` is a
numpy float, so division by a zero temperature gives `-inf` and `p = 0` (with a warning). -/
def isAcceptable (exp : ℚ → Except Err ℚ) (rands : List ℚ) (used : Nat) (diff temperature : ℚ) :
    Except Err (Bool × Nat) :=
  if diff ≤ 0 then .ok (true, used)
  else do
    let p ← if temperature = 0 then .ok 0 else exp (-diff / temperature)
    let r ← listGet rands used
    return (decide (r < p), used + 1)

/-- The state of the inner loop. (sawatabi_solver.py:202-214) -/
structure Inner where
  x : List ℤ
  energy : ℚ
  used : Nat
  acceptances : Nat
  deriving DecidableEq, Repr

/-- One round of the inner loop (sawatabi_solver.py:203-212). -/
def innerStep (exp : ℚ → Except Err ℚ) (s : Problem) (rands : List ℚ) (temperature : ℚ) (t : Inner) (i : Nat) :
    Except Err Inner := do
  let diff ← calcDiff s i t.x
  let (ok, used) ← isAcceptable exp rands t.used diff temperature
  if ok then
    let xi ← listGet t.x i
    let x ← listSet t.x i (xi * -1)
    return ⟨x, t.energy + diff, used, t.acceptances + 1⟩
  else return { t with used := used }

/-- A `pickup_mode` argument. (sawatabi_solver.py:46, 58-60) -/
inductive Pickup where
  | random
  | sequential
  | other
  deriving DecidableEq, Repr

/-- Options of `annealing`. (sawatabi_solver.py:150) -/
structure Options where
  numSweeps : Int
  coolingRate : ℚ
  initialTemperature : ℚ
  reverse : PyReverse
  pickup : Pickup
  deriving DecidableEq, Repr

/-- The state of the outer loop. (sawatabi_solver.py:173-179) -/
structure Outer (γ : Type) where
  x : List ℤ
  energy : ℚ
  used : Nat
  temperature : ℚ
  /-- `reverse_target_temperature` -/
  target : ℚ
  reversing : Bool
  energyHist : List ℚ
  temperatureHist : List ℚ
  acceptanceHist : List Nat
  rng : γ

/-- The variables in the order of one sweep (sawatabi_solver.py:195-200). -/
def pickups {γ : Type} (rng : Rng γ) (mode : Pickup) (n : Nat) (g : γ) : Except Err (List Nat × γ) :=
  match mode with
  | .random => .ok (rng.permutation n g)
  | .sequential => .ok (List.range n, g)
  | .other => .error .unboundLocalError

/-- One sweep (sawatabi_solver.py:185-222). -/
def sweepStep {γ : Type} (rng : Rng γ) (exp : ℚ → Except Err ℚ) (s : Problem) (o : Options) (rands : List ℚ)
    (t : Outer γ) (sweep : Nat) : Except Err (Outer γ) := do
  let reversing ← if t.reversing then do
      let period ← o.reverse.get "reverse_period"
      pure (!decide (period ≤ sweep))
    else pure false
  let (ps, g) ← pickups rng o.pickup s.size t.rng
  let r ← ps.foldlM (innerStep exp s rands t.temperature) ⟨t.x, t.energy, t.used, 0⟩
  let (temperature, target) ← if reversing then do
      let target := t.target * o.coolingRate
      let top ← o.reverse.get "reverse_temperature"
      pure (top - target, target)
    else pure (t.temperature * o.coolingRate, t.target)
  return { x := r.x, energy := r.energy, used := r.used, temperature, target, reversing,
           energyHist := t.energyHist ++ [t.energy], temperatureHist := t.temperatureHist ++ [t.temperature],
           acceptanceHist := t.acceptanceHist ++ [r.acceptances], rng := g }

/-- What `annealing` returns. (sawatabi_solver.py:233) -/
structure Annealed where
  sample : Sample
  energy : ℚ
  energyHist : List ℚ
  temperatureHist : List ℚ
  acceptanceHist : List Nat
  deriving DecidableEq, Repr

/-- `dict(zip(list(self._model._index_to_label.values()), x))` (sawatabi_solver.py:160, 224, optigan_solver.py:107) -/
def decode (p : Physical) (x : List ℤ) : Sample :=
  ((p.indexToLabel.map (·.2)).zip x).foldl (fun d kv => dset d kv.1 kv.2) []

/-- The initial spins from an initial state (sawatabi_solver.py:155-158). -/
def spinsOf (s : Problem) (init : Sample) : Except Err (List ℤ) :=
  s.bqm.variables.foldlM (fun x v => do
    let i ← s.model.index v
    let a ← init.value v
    listSet x i a) (List.replicate s.size 1)

/-- The initial spins (sawatabi_solver.py:152-158). -/
def initialSpins {γ : Type} (rng : Rng γ) (s : Problem) (init : Option Sample) (g : γ) : Except Err (List ℤ × γ) :=
  match init with
  | none => .ok (((rng.integers s.size g).1.map fun b => if b then 1 else -1), (rng.integers s.size g).2)
  | some st => do
    let x ← spinsOf s st
    return (x, g)

/-- The smallest positive temperature, `1e-9` (sawatabi_solver.py:170). -/
def tinyTemperature : ℚ := 1 / 1000000000

/-- The state before the first sweep (sawatabi_solver.py:160-183). -/
def startState {γ : Type} (s : Problem) (o : Options) (x : List ℤ) (g : γ) : Except Err (Outer γ) := do
  let e ← s.bqm.sampleEnergy (decode s.model x)
  let (temperature, target) ← if o.reverse.isTruthy then do
      let top ← o.reverse.get "reverse_temperature"
      pure (tinyTemperature, top)
    else pure (o.initialTemperature, 0)
  return { x, energy := e * -1, used := 0, temperature, target, reversing := decide (o.reverse ≠ .none),
           energyHist := [], temperatureHist := [], acceptanceHist := [], rng := g }

/-- `annealing` (sawatabi_solver.py:150-233). A negative number of sweeps makes `rng.random` raise. -/
def annealing {γ : Type} (rng : Rng γ) (exp : ℚ → Except Err ℚ) (s : Problem) (o : Options) (init : Option Sample)
    (g : γ) : Except Err (Annealed × γ) := do
  let (x, g) ← initialSpins rng s init g
  let t ← startState s o x g
  if o.numSweeps < 0 then throw .valueError
  let n := o.numSweeps.toNat
  let (rands, g) := rng.random (n * s.size) t.rng
  let t ← (List.range n).foldlM (sweepStep rng exp s o rands) { t with rng := g }
  return (⟨decode s.model t.x, t.energy + s.original.offset * 2, t.energyHist, t.temperatureHist, t.acceptanceHist⟩,
    t.rng)

/-- Argument checks of `solve` (sawatabi_solver.py:52-67). -/
def checkArgs (p : Physical) (numReads : Int) (o : Options) (init : Option (List Sample)) : Except Err Unit := do
  if p.isEmptyModel then throw .valueError
  match init with
  | some l => if l ≠ [] ∧ (l.length : Int) ≠ numReads then throw .valueError
  | none => pure ()
  if o.pickup = .other then throw .valueError
  if o.reverse.isTruthy then
    match o.reverse with
    | .dict d =>
      if (dget d "reverse_period").isNone then throw .valueError
      if (dget d "reverse_temperature").isNone then throw .valueError
    | _ => throw .typeError

/-- The conversion of initial states in place (sawatabi_solver.py:83-87). -/
def spinInit (st : Sample) : Sample := st.map fun kv => (kv.1, if kv.2 = 0 then -1 else kv.2)

/-- `np.random.default_rng(seed)` for a seed, or from fresh entropy: `if seed:` also takes 0 as no seed
(sawatabi_solver.py:70-73). Numpy rejects negative seeds. -/
def chooseRng {γ : Type} (seeded : Nat → γ) (fresh : γ) (seed : Option Int) : Except Err γ :=
  match seed with
  | none => .ok fresh
  | some k => if k = 0 then .ok fresh else if k < 0 then .error .valueError else .ok (seeded k.toNat)

/-- The loop over the reads (sawatabi_solver.py:111-133). `initial_states` is falsy when empty. -/
def reads {γ : Type} (rng : Rng γ) (exp : ℚ → Except Err ℚ) (s : Problem) (o : Options)
    (init : Option (List Sample)) : List Nat → γ → Except Err (List Annealed)
  | [], _ => .ok []
  | r :: rs, g => do
    let st ← match init with
      | some (a :: l) => do
        let v ← listGet (a :: l) r
        pure (some v)
      | _ => pure none
    let (a, g) ← annealing rng exp s o st g
    let rest ← reads rng exp s o init rs g
    return a :: rest

/-- `sampleset.change_vartype(vartype)` (dimod) on one sample in spins; energies stay. (sawatabi_solver.py:145) -/
def changeVartype (vt : VType) (s : Sample) : Sample :=
  match vt with
  | .spin => s
  | .binary => s.map fun kv => (kv.1, (kv.2 + 1) / 2)

/-- `solve` (sawatabi_solver.py:37-148). The state is the caller's `initial_states`. The result has one entry per
read; dimod also merges equal samples (`aggregate_samples`) and sorts by energy when printed. -/
def solve {γ : Type} (rng : Rng γ) (seeded : Nat → γ) (fresh : γ) (exp : ℚ → Except Err ℚ) (p : Physical)
    (numReads : Int) (o : Options) (seed : Option Int) : Py (Option (List Sample)) (List Annealed) := do
  let init ← get
  liftE (checkArgs p numReads o init)
  let g ← liftE (chooseRng seeded fresh seed)
  if p.mtype.vtype ≠ .spin then
    modify fun init => init.map fun l => l.map spinInit
  let s ← liftE (prepare p)
  let init ← get
  let rs ← liftE (reads rng exp s o init (List.range numReads.toNat) g)
  return rs.map fun a => { a with sample := changeVartype s.original.vartype a.sample }

end Sawatabi
