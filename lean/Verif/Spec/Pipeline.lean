import Verif.Model.Pipeline

/-!
# Specification of pipelines
-/

namespace Sawatabi.Pipeline

open Stream

/-- Beam accepts the windows: positive sizes and periods. -/
def Windowing.Valid : Windowing → Prop
  | .sliding size period => 0 < size ∧ 0 < period
  | .fixed size => 0 < size

/-- The distance of the starts of consecutive windows. -/
def Windowing.step : Windowing → ℚ
  | .sliding _ period => period
  | .fixed size => size

/-- The elements with a time in `[a, b)`, in their order. -/
def between {δ : Type} (els : List (El δ)) (a b : ℚ) : List (El δ) := els.filter fun e => decide (a ≤ e.ts) && decide (e.ts < b)

/-- The values at times 0, 1, 2 and so on, with these indices. -/
def timed {δ : Type} (vs : List δ) : List (El δ) := vs.zipIdx.map fun p => ⟨(p.2 : ℚ), p.2, p.1⟩

/-- The values of a piece of the input: from index `a` on, before index `b`. -/
def piece {δ : Type} (vs : List δ) (a b : Int) : List δ := (vs.drop a.toNat).take (b.toNat - a.toNat)

end Sawatabi.Pipeline
