import Verif.Spec.NppStream

/-!
# Specification: number partitioning where a filter decides which numbers stay
-/

namespace Sawatabi.NppStream

open Stream

/-- The numbers of a window, and the pairs of numbers (the earlier one first) that interact in its model. -/
structure Held where
  els : List (El ℚ)
  live : List (El ℚ × El ℚ)

/-- The next window: the numbers that the filter keeps, and the new ones. Each new number interacts with all earlier ones in
the window. Of the numbers that are not kept, only those before the first kept one lose their interactions. -/
def Held.next (keep : El ℚ → Bool) (h : Held) (part : List (El ℚ)) : Held :=
  let gone := h.els.takeWhile fun e => !keep e
  let els := h.els.filter keep ++ part
  ⟨els, h.live.filter (fun p => decide (p.1 ∉ gone ∧ p.2 ∉ gone)) ++
    part.flatMap fun i => (els.filter fun j => decide (j.ts < i.ts)).map fun j => (j, i)⟩

/-- The last window after these batches. -/
def heldAfter (keep : El ℚ → Bool) (parts : List (List (El ℚ))) : Held := parts.foldl (Held.next keep) ⟨[], []⟩

/-- The sum over the interacting pairs. -/
def liveSum (σ : Assign) (G : List (El ℚ × El ℚ)) : ℚ :=
  (G.map fun p => p.1.data * p.2.data * (σ (lab p.1) * σ (lab p.2))).sum

/-- The number is not zero and interacts with one that is not zero. -/
def Active (G : List (El ℚ × El ℚ)) (e : El ℚ) : Prop := ∃ p ∈ G, p.1.data * p.2.data ≠ 0 ∧ (p.1 = e ∨ p.2 = e)

/-- Spins that are optimal for the interacting pairs. -/
def LiveOptimal (G : List (El ℚ × El ℚ)) (f : String → ℤ) : Prop :=
  (∀ v, f v = 1 ∨ f v = -1) ∧
  ∀ g : String → ℤ, (∀ v, g v = 1 ∨ g v = -1) → liveSum (fun v => (f v : ℚ)) G ≤ liveSum (fun v => (g v : ℚ)) G

end Sawatabi.NppStream
