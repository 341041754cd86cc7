import Verif.Model.Stream

/-!
# Specification: streams
-/

namespace Sawatabi.Stream

/-- The window holds exactly the elements of the stream `E` with a time in `[a, b)`, in any order, and there are some. -/
structure Cut {δ : Type} (E : List (El δ)) (a b : ℚ) (w : Win δ) : Prop where
  perm : w.elements.Perm (E.filter fun x => decide (a ≤ x.ts) && decide (x.ts < b))
  nonempty : w.elements ≠ []

/-- Windows over one stream whose bounds move forward (or stay). -/
def Sliding {δ : Type} (E : List (El δ)) : ℚ → ℚ → List (Win δ) → Prop
  | _, _, [] => True
  | a, b, w :: ws => ∃ a' b', a ≤ a' ∧ b ≤ b' ∧ Cut E a' b' w ∧ Sliding E a' b' ws

/-- A collection after the outgoing elements have been dropped and the incoming ones added, window by window. -/
def replay {δ : Type} [DecidableEq δ] (changes : List (List (El δ) × List (El δ))) (c : List (El δ)) : List (El δ) :=
  changes.foldl (fun c io => (c.filter fun x => decide (x ∉ io.2)) ++ io.1) c

end Sawatabi.Stream
