import Mathlib.Data.Rat.Floor
import Verif.Model.Stream
import Verif.Model.Utils

/-!
# Pipelines

Models the pipelines of /repo/sawatabi/algorithm (`AbstractAlgorithm._create_pipeline`, abstract_algorithm.py:193-284, and
`create_pipeline` of window.py, delta.py, incremental.py, partial.py, attenuation.py) with text input and the option
`input.reassign_timestamp`. Apache Beam is a library: its windows are written out below as its documentation describes them.
The options and the check of `initial_mtype` are in Model/Options.lean, the output part in Model/Output.lean.
-/

namespace Sawatabi.Pipeline

open Stream

/-! ## Windows (Beam) -/

/-- `SlidingWindows(size, period).assign` (library): the starts `range(start, timestamp - size, -period)` with
`start = timestamp - timestamp % period`. Times are rationals (in Beam: whole microseconds). (window.py:25, partial.py:25, attenuation.py:25) -/
def slidingStarts (size period t : ℚ) : List ℚ :=
  let start := period * (⌊t / period⌋ : ℚ)
  (List.range ⌈(start - (t - size)) / period⌉.toNat).map fun (j : Nat) => start - (j : ℚ) * period

/-- `FixedWindows(size).assign` (library): `start = timestamp - timestamp % size`. (delta.py:25, incremental.py:25) -/
def fixedStarts (size t : ℚ) : List ℚ := [size * (⌊t / size⌋ : ℚ)]

/-- How an algorithm puts elements into windows: the starts of the windows of a time, and the length of windows.
(create_pipeline of window.py, delta.py, incremental.py, partial.py, attenuation.py, line 25 each) -/
inductive Windowing where
  /-- window.py:25, partial.py:25, attenuation.py:25 -/
  | sliding (size period : ℚ)
  /-- delta.py:25, incremental.py:25 -/
  | fixed (size : ℚ)
  deriving DecidableEq, Repr

/-- The starts of the windows that hold an element of this time.
(create_pipeline of window.py, delta.py, incremental.py, partial.py, attenuation.py, line 25 each) -/
def Windowing.starts : Windowing → ℚ → List ℚ
  | .sliding size period => slidingStarts size period
  | .fixed size => fixedStarts size

/-- The length of the windows. (create_pipeline of window.py, delta.py, incremental.py, partial.py, attenuation.py, line 25 each) -/
def Windowing.size : Windowing → ℚ
  | .sliding size _ => size
  | .fixed size => size

/-- Puts a number into an increasing list unless it is there. (lines 25-28 of window.py and the like) -/
def insertStart (a : ℚ) : List ℚ → List ℚ
  | [] => [a]
  | b :: l => if a < b then a :: b :: l else if a = b then b :: l else b :: insertStart a l

/-- A microsecond: the timestamp of a window is the last one before its end (`window.max_timestamp()`, library). (abstract_algorithm.py:54) -/
def tick : ℚ := 1 / 1000000

/-- `CombineGlobally(ToListCombineFn()).without_defaults()` after `WindowInto` (window.py:25-28): the list of elements of
every window that has some, with the timestamp of the window; here in the order of time. -/
def windows {δ : Type} (wi : Windowing) (els : List (El δ)) : List (Win δ) :=
  ((els.flatMap fun e => wi.starts e.ts).foldr insertStart []).map fun s =>
    ⟨s + wi.size - tick, els.filter fun e => decide (s ∈ wi.starts e.ts)⟩

/-- What the runner gives to the stateful function: the windows in the order of time, each with its elements in any order
(accumulators are merged in any order). The flag is that of `process`. (abstract_algorithm.py:250-261) -/
def Delivers {δ : Type} (ws : List (Win δ)) (ds : List (Bool × Win δ)) : Prop :=
  List.Forall₂ (fun w d => d.2.ts = w.ts ∧ d.2.elements.Perm w.elements) ws ds

/-! ## Input -/

/-- The indices of the elements, and the timestamps that are assigned by index (abstract_algorithm.py:229-238), with the tuples
of `WithTimestampTupleFn` (lines 37-39). -/
def indexed {δ : Type} (values : List δ) : Except Err (List (El δ)) :=
  match (assignIndices values).run 0 with
  | .ok out _ => .ok (out.map fun p => ⟨(p.1 : ℚ), p.1, p.2⟩)
  | .error e _ => .error e

/-- `IO.read_from_text_as_number` (io.py:68-71, 27-33) followed by the indices; numbers as rationals. -/
def numbersOf (lines : List (List Char)) : Except Err (List (El ℚ)) := do
  let ns ← Utils.readAsNumber lines
  indexed (ns.map fun (n : Nat) => (n : ℚ))

end Sawatabi.Pipeline
