import Verif.Spec.NppFilter

/-!
# Specification: number partitioning where several numbers have the same time
-/

namespace Sawatabi.NppStream

open Stream

/-- The pairs of numbers with different times, the earlier one first. -/
def duePairs (W : List (El ℚ)) : List (El ℚ × El ℚ) :=
  W.flatMap fun i => (W.filter fun j => decide (j.ts < i.ts)).map fun j => (j, i)

/-- The times of the numbers, each once. -/
def instants (W : List (El ℚ)) : List ℚ := (W.map (·.ts)).dedup

/-- The sum of the squares of the differences that the numbers of each time have among themselves. -/
def tied (σ : Assign) (W : List (El ℚ)) : ℚ :=
  ((instants W).map fun t => signedSum σ (W.filter fun e => decide (e.ts = t)) ^ 2).sum

/-- The energy of a model is that of partitioning these numbers, without what the numbers of each time have among
themselves. -/
def RepresentsTied (m : LModel) (W : List (El ℚ)) : Prop :=
  ∀ (ρ : PEnv) (σ : Assign), 2 * m.energy ρ σ = signedSum σ W ^ 2 - tied σ W

/-- The squares of the sums of the absolute values, over the times that at least two numbers have. -/
def crowd (W : List (El ℚ)) : ℚ :=
  ((instants W).map fun t =>
    let now := W.filter fun e => decide (e.ts = t)
    if now.length ≤ 1 then 0 else (now.map fun e => |e.data|).sum ^ 2).sum

/-- There are numbers of two different times that are not zero. -/
def TwoInstants (W : List (El ℚ)) : Prop := ∃ e ∈ W, ∃ e' ∈ W, e.ts < e'.ts ∧ e.data ≠ 0 ∧ e'.data ≠ 0

/-- Batches of a stream in order: within a batch times may be equal, but each batch is later than those before. -/
def Batches (parts : List (List (El ℚ))) : Prop :=
  Ordered parts.flatten ∧ parts.Pairwise fun p q => ∀ a ∈ p, ∀ b ∈ q, a.ts < b.ts

end Sawatabi.NppStream
