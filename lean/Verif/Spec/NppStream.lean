import Verif.Spec.Energy
import Verif.Spec.Arrays
import Verif.Model.Stream
import Mathlib.Algebra.Order.Group.Abs

/-!
# Specification: number partitioning over a stream
-/

namespace Sawatabi.NppStream

open Stream

/-- The variable of an element is `x[index]`. -/
def lab (e : El ℚ) : String := arrayLabel "x" [e.idx]

/-- The sum of the numbers with their signs. -/
def signedSum (σ : Assign) (els : List (El ℚ)) : ℚ := (els.map fun e => e.data * σ (lab e)).sum

/-- The sum of the squares. -/
def squares (els : List (El ℚ)) : ℚ := (els.map fun e => e.data ^ 2).sum

/-- The energy of a model is that of partitioning these numbers: up to a constant, half of the square of the
difference. -/
def Represents (m : LModel) (els : List (El ℚ)) : Prop :=
  ∀ (ρ : PEnv) (σ : Assign), σ.IsSpin → 2 * m.energy ρ σ = signedSum σ els ^ 2 - squares els

/-- The difference of the two sums if each number gets a sign. -/
def difference (ns : List ℚ) (signs : List ℤ) : ℚ := |(List.zipWith (fun (n : ℚ) (s : ℤ) => n * (s : ℚ)) ns signs).sum|

/-- The signs for some numbers. -/
def Signs (ns : List ℚ) (signs : List ℤ) : Prop := signs.length = ns.length ∧ ∀ s ∈ signs, s = 1 ∨ s = -1

/-- `d` is the smallest difference of the sums of two parts of the numbers. -/
def Optimal (ns : List ℚ) (d : ℚ) : Prop :=
  (∃ s, Signs ns s ∧ difference ns s = d) ∧ ∀ s, Signs ns s → d ≤ difference ns s

/-- A stream in order: times and indices both increase. -/
def Increasing (E : List (El ℚ)) : Prop := E.Pairwise fun a b => a.ts < b.ts ∧ a.idx < b.idx

/-- A stream in order where several elements may have the same time. -/
def Ordered (E : List (El ℚ)) : Prop := E.Pairwise fun a b => a.ts ≤ b.ts ∧ a.idx < b.idx

/-- The models and the elements that `solve_fn` has been called with. -/
def solveArgs {M S δ : Type} (calls : List (Call M S δ)) : List (M × List (El δ)) :=
  calls.filterMap fun c => match c with
    | .solveFn m _ els _ _ => some (m, els)
    | _ => none

/-- There are two numbers that are not zero. -/
def TwoNonzero (W : List (El ℚ)) : Prop := ∃ e ∈ W, ∃ e' ∈ W, e.idx ≠ e'.idx ∧ e.data ≠ 0 ∧ e'.data ≠ 0

/-- The numbers with the sign `s`. -/
def part (s : ℤ) (ns : List ℚ) (signs : List ℤ) : List ℚ := ((ns.zip signs).filter fun x => decide (x.2 = s)).map (·.1)

/-- The weight that attenuation gives to the pairs of a number with later ones, by the time of the number: from `ms` at
the oldest number of the window to 1 at the last but one, linear in between. The last number is the older one of no pair. -/
def weight (ms : ℚ) (W : List (El ℚ)) (t : ℚ) : ℚ :=
  match W.head?, W.dropLast.getLast? with
  | some a, some b => if a.ts < b.ts then ms + (1 - ms) * ((t - a.ts) / (b.ts - a.ts)) else 1
  | _, _ => 1

/-- The sum over the pairs of numbers with their signs, each weighted by the time of the older number. -/
def weighted (w : ℚ → ℚ) (σ : Assign) : List (El ℚ) → ℚ
  | [] => 0
  | e :: W => w e.ts * (e.data * σ (lab e)) * signedSum σ W + weighted w σ W

/-- The same for a list of signs. -/
def weightedSigns (w : ℚ → ℚ) : List (El ℚ) → List ℤ → ℚ
  | e :: W, s :: signs =>
    w e.ts * (e.data * s) * (List.zipWith (fun (e : El ℚ) (s : ℤ) => e.data * (s : ℚ)) W signs).sum + weightedSigns w W signs
  | _, _ => 0

end Sawatabi.NppStream
