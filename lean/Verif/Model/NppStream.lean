import Verif.Model.Stream
import Verif.Model.Samplers

/-!
# The number partitioning application

Models /repo/sample/algorithm/npp_window.py lines 28-125: the functions that the sample applications give to the streaming
algorithms (npp_window.py, npp_delta.py, npp_incremental.py, npp_partial.py and npp_attenuation.py all use them). The
numbers are rationals.
-/

namespace Sawatabi.NppStream

open Stream

/-- `x[idx]` for a `pyqubo.Array` with one dimension. (npp_window.py:57, 64) -/
def item (x : VArray) (i : Nat) : Except Err PVar :=
  match x.bits[i]? with
  | some v => .ok v
  | none => .error .indexError

/-- The array `x` (npp_window.py:36-44). -/
def mappingVars (inc : List (El ℚ)) : Py LModel VArray := do
  let m ← get
  match inc with
  | [] => match dget m.vars "x" with
    | some a => return a
    | none => throw .keyError
  | i :: is =>
    let maxIndex := is.foldl (fun k e => max k e.idx) i.idx
    appendVars "x" [(maxIndex : Int) - m.allSize + 1]

/-- One round of the inner loop (npp_window.py:52-60). `render` is `str` on elements; one clock value stands for all
interactions added. -/
def mapPair (now : ℚ) (render : El ℚ → String) (x : VArray) (i j : El ℚ) : Py LModel Unit := do
  if i.ts > j.ts then
    let v ← liftE (item x i.idx)
    let w ← liftE (item x j.idx)
    addInteraction now (.tuple [some v, some w]) (.str "") (.num (-1 * i.data * j.data)) (.num 1)
      (.dict [("n", .str (render j)), ("attn_ts", .num j.ts)]) .none

/-- One round of the last loop (npp_window.py:63-64). -/
def dropOne (x : VArray) (o : El ℚ) : Py LModel Unit := do
  let v ← liftE (item x o.idx)
  deleteVariable v

/-- `npp_mapping` (npp_window.py:28-66). -/
def mapping {S : Type} (now : ℚ) (render : El ℚ → String) (_prev : Option S) (els inc out : List (El ℚ)) :
    Py LModel LModel := do
  let x ← mappingVars inc
  inc.forM fun i => els.forM fun j => mapPair now render x i j
  out.forM (dropOne x)
  get

/-- `npp_solving` (npp_window.py:100-125); `solver` is `solver.solve` with the options of the application. -/
def solving {S : Type} (env : Env) (clks : Nat → Nat → ℚ) (ids : Nat → String) (solver : Physical → Except Err S)
    (_prev : Option S) (_els _inc _out : List (El ℚ)) : Py LModel S := do
  let p ← toPhysical env clks ids []
  liftE (solver p)

/-- `sampleset.samples()[0]` (npp_window.py:82): dimod sorts by energy; among equal energies the first is taken here. -/
def best : List (Sample × ℚ) → Except Err Sample
  | [] => .error .indexError
  | r :: rs => .ok (rs.foldl (fun b r => if r.2 < b.2 then r else b) r).1

/-- What `npp_unmapping` writes: the numbers of the window, the two sets with their sums, and the difference. The text
around them is in Model/Output.lean. (npp_window.py:74-97) -/
structure Report where
  input : List ℚ
  setP : List ℚ
  setN : List ℚ
  sumP : ℚ
  sumN : ℚ
  diff : ℚ
  deriving DecidableEq, Repr

/-- One round of the loop of `npp_unmapping` (npp_window.py:87-92). -/
def unmapStep (spins : Sample) (r : (List ℚ × ℚ) × (List ℚ × ℚ)) (e : El ℚ) : Except Err ((List ℚ × ℚ) × (List ℚ × ℚ)) :=
  match dget spins ("x[" ++ Nat.repr e.idx ++ "]") with
  | none => .error .keyError
  | some s =>
    if s = 1 then .ok ((r.1.1 ++ [e.data], r.1.2 + e.data), r.2)
    else if s = -1 then .ok (r.1, (r.2.1 ++ [e.data], r.2.2 + e.data))
    else .ok r

/-- `npp_unmapping` (npp_window.py:69-97). -/
def unmapping (samples : List (Sample × ℚ)) (els _inc _out : List (El ℚ)) : Except Err Report := do
  let spins ← best samples
  let r ← els.foldlM (unmapStep spins) (([], 0), ([], 0))
  return ⟨els.map (·.data), r.1.1, r.2.1, r.1.2, r.2.2, |r.1.2 - r.2.2|⟩

/-- The functions of the application. (npp_window.py:28-125) -/
def fns (now : ℚ) (render : El ℚ → String) (env : Env) (clks : Nat → Nat → ℚ) (ids : Nat → String)
    (solver : Physical → Except Err (List (Sample × ℚ))) : Fns LModel (List (Sample × ℚ)) ℚ Report where
  mapFn := mapping now render
  solveFn := solving env clks ids solver
  unmapFn := unmapping

/-- The algorithm of the application with attenuation (npp_attenuation.py:33-41); `minScale` is 0.1 in the source. -/
def attenuation (env : Env) (clks : Nat → Nat → ℚ) (ids : Nat → String) (minScale : ℚ) : Algorithm LModel ℚ :=
  .attenuation (attenuate env clks ids "attributes.attn_ts" minScale)

/-- `LocalSolver(exact=True).solve` as a function (local_solver.py:37-59). -/
def exactSolver (p : Physical) : Except Err (List (Sample × ℚ)) :=
  match (localSolve none p).run [] with
  | .ok r _ => .ok r
  | .error e _ => .error e

end Sawatabi.NppStream
