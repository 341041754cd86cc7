import Verif.Model.Warnings
import Verif.Spec.Acceptance

/-!
# Specification: when a method warns
-/

namespace Sawatabi.Warnings

/-- The outcome of a method on the model, beside warnings that are not touched. -/
def withLog {α : Type} (ws : List Warning) : Res LModel α → Res WState α
  | .ok a m => .ok a ⟨m, ws⟩
  | .error e m => .error e ⟨m, ws⟩

/-- Likewise for a method on two models. -/
def withLog2 {α : Type} (ws : List Warning) : Res (LModel × LModel) α → Res MState α
  | .ok a m => .ok a ⟨m.1, m.2, ws⟩
  | .error e m => .error e ⟨m.1, m.2, ws⟩

/-- A method warns exactly where `P` holds, with `w` and only once; the warning changes nothing else. If warnings are turned
into exceptions, `UserWarning` is raised exactly where `P` holds and the model is left as `left` says. -/
structure Announces {α : Type} (call : Bool → Py WState α) (plain : Py LModel α) (P : LModel → Prop) (w : Warning)
    (left : LModel → LModel) : Prop where
  warns : ∀ m ws, P m → (call false).run ⟨m, ws⟩ = withLog (ws ++ [w]) (plain.run m)
  raises : ∀ m ws, P m → (call true).run ⟨m, ws⟩ = .error .userError ⟨left m, ws⟩
  quiet : ∀ strict m ws, ¬ P m → (call strict).run ⟨m, ws⟩ = withLog ws (plain.run m)

/-- The label of a variable of the interaction. -/
inductive Mentions : Inter → String → Prop
  | lin (v : PVar) : Mentions (.lin v) v.label
  | fst (v w : PVar) : Mentions (.quad v w) v.label
  | snd (v w : PVar) : Mentions (.quad v w) w.label

/-- The values that a variable of the model can take. -/
def Value (m : LModel) (q : ℚ) : Prop :=
  match m.mtype with
  | .ising => q = 1 ∨ q = -1
  | .qubo => q = 0 ∨ q = 1

/-- All columns of the table are equally long. -/
def EvenColumns (m : LModel) : Prop := ∀ c ∈ m.attrCols, c.2.length = m.rows.length

end Sawatabi.Warnings
