import Verif.Model.Samples

/-!
# The decorator `profile` and the sample that uses it

Models /repo/sawatabi/utils/profile.py lines 19-36 and /repo/sample/utils/profile.py lines 20-31. `@wraps` (line 20), which
copies the name and the docstring to the decorated function, is not modelled; positional and keyword arguments are those
with which the function to decorate is given here. Times are rational numbers.
-/

namespace Sawatabi.Profile

/-- A state with the number of times that the clock was read. (utils/profile.py:22, 26) -/
structure Timed (σ : Type) where
  inner : σ
  reads : Nat

/-- The dictionary returned (profile.py:28-34): the keys `return`, and `function_name` and `execution_sec` under
`profile`. -/
structure Profiled (α : Type) where
  ret : α
  functionName : String
  executionSec : ℚ
  deriving DecidableEq, Repr

/-- `time.perf_counter()`; `clock k` is the `k`th reading. (utils/profile.py:22, 26) -/
def perfCounter {σ : Type} (clock : Nat → ℚ) : Py (Timed σ) ℚ := do
  let w ← get
  set { w with reads := w.reads + 1 }
  return clock w.reads

/-- A call of the decorated function (profile.py:21-34). -/
def profile {σ α : Type} (clock : Nat → ℚ) (name : String) (f : Py (Timed σ) α) : Py (Timed σ) (Profiled α) := do
  let start ← perfCounter clock
  let r ← f
  let stop ← perfCounter clock
  return { ret := r, functionName := name, executionSec := stop - start }

/-- A function that does not read the clock. (utils/profile.py:24) -/
def untimed {σ α : Type} (f : Py σ α) : Py (Timed σ) α :=
  ⟨fun w => match f.run w.inner with
    | .ok a s => .ok a { w with inner := s }
    | .error e s => .error e { w with inner := s }⟩

/-- The generator of random numbers: the numbers it gives and how many it gave. (sample/utils/profile.py:23, 28, 31) -/
structure Rng where
  stream : Nat → ℚ
  used : Nat

/-- The model of the sample, which is local to the function, and the generator, which is not. (sample/utils/profile.py:22-31) -/
structure Sheet where
  model : LModel
  rng : Rng

/-- `random.random()` (sample/utils/profile.py:28, 31) -/
def random : Py Sheet ℚ := do
  let w ← get
  set { w with rng := { w.rng with used := w.rng.used + 1 } }
  return w.rng.stream w.rng.used

/-- A call on the model. (sample/utils/profile.py:26-31) -/
def onModel {α : Type} (f : Py LModel α) : Py Sheet α :=
  ⟨fun w => match f.run w.model with
    | .ok a m => .ok a { w with model := m }
    | .error e m => .error e { w with model := m }⟩

/-- `model.add_interaction(t, coefficient=random.random())` (sample/utils/profile.py:28, 31): the target is looked up, then
the number is drawn, then the call is made. -/
def addRandom (x : VArray) (t : Samples.Target × ℚ) : Py Sheet Unit := do
  let a ← liftE (t.1.arg x)
  let c ← random
  onModel (addInteraction t.2 a (.str "") (.num c) (.num 1) .none .none)

/-- The targets in order (sample/utils/profile.py:27-31). -/
def targets (n : Nat) : List Samples.Target :=
  ((List.range n).map fun i => .one [i]) ++
    (List.range (n - 1)).flatMap fun i => (List.range' (i + 1) (n - (i + 1))).map fun j => .two [i] [j]

/-- `create_n_variable_random_model(n, seed)` without its decorator (sample/utils/profile.py:21-31). `streams s` are the
numbers that the generator gives after `random.seed(s)`; `clk k` is the time of the `k`th call and `id` the id of the new
model. There is no `return`. -/
def createRandom (streams : Int → Nat → ℚ) (clk : Nat → ℚ) (id : String) (n : Int) (seed : Option Int) : Py Sheet Unit := do
  match seed with
  | some s => modify fun w => { w with rng := { stream := streams s, used := 0 } }
  | none => pure ()
  modify fun w => { w with model := LModel.new .ising id }
  let x ← onModel (createVars "x" [n])
  ((targets n.toNat).zipIdx.map fun t => (t.1, clk t.2)).forM (addRandom x)

/-- The function of the sample, with its decorator (sample/utils/profile.py:20-31). -/
def createRandomProfiled (clock : Nat → ℚ) (streams : Int → Nat → ℚ) (clk : Nat → ℚ) (id : String) (n : Int) (seed : Option Int) :
    Py (Timed Sheet) (Profiled Unit) :=
  profile clock "create_n_variable_random_model" (untimed (createRandom streams clk id n seed))

end Sawatabi.Profile
