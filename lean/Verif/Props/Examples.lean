import Verif.Model.Physical

/-!
# Concrete models used by the examples beside the theorems

All of them are built with the public methods.
-/

namespace Sawatabi.Ex

def x0 : PVar := ⟨.spin, "x[0]"⟩
def x1 : PVar := ⟨.spin, "x[1]"⟩
def b0 : PVar := ⟨.binary, "x[0]"⟩
def b1 : PVar := ⟨.binary, "x[1]"⟩
def b2 : PVar := ⟨.binary, "x[2]"⟩

/-- Run a method on a model and keep the model. -/
def after {α : Type} (m : LModel) (f : Py LModel α) : LModel := (f.run m).state

/-- An Ising model with two variables and three interactions, one with attributes and one removed. -/
def ising : LModel := after (LModel.new .ising "101") do
  let _ ← createVars "x" [2]
  addInteraction 10 (.var x0) (.str "") (.num 3) (.num 2) (.dict [("a", .num 7)]) .none
  addInteraction 11 (.tuple [some x1, some x0]) (.str "") (.num (-1)) (.num 1) .none .none
  addInteraction 12 (.var x1) (.str "gone") (.num 5) (.num 1) .none .none
  removeInteraction .none (.str "gone")

/-- A QUBO model with three variables, three interactions (one with a placeholder) and an offset. -/
def qubo : LModel := after (LModel.new .qubo "202") do
  let _ ← createVars "x" [3]
  addInteraction 10 (.var b0) (.str "") (.num 3) (.num 2) .none .none
  addInteraction 11 (.tuple [some b0, some b1]) (.str "") (.expr (.ph "p")) (.num 1) .none .none
  addInteraction 12 (.var b2) (.str "") (.num (-4)) (.num 1) .none .none
  setOffset (.num 9)

example : ising.rows.map (·.name) = ["x[0]", "x[0]*x[1]", "gone"] := by decide
example : qubo.rows.map (·.name) = ["x[0]", "x[0]*x[1]", "x[2]"] := by decide

/-- The run succeeds with an output and a state as told (decidable, for the examples). -/
def okAnd {σ α : Type} (r : Res σ α) (p : α → σ → Bool) : Bool :=
  match r with
  | .ok a s => p a s
  | .error _ _ => false

theorem exists_of_okAnd {σ α : Type} {r : Res σ α} {p : α → σ → Bool} (h : okAnd r p = true) :
    ∃ a s, r = .ok a s ∧ p a s = true := by
  cases r with
  | ok a s => exact ⟨a, s, rfl, h⟩
  | error e s => cases h

theorem exists_ok_of_okAnd {σ α : Type} {r : Res σ α} {b : α} {p : α → σ → Bool}
    (h : okAnd r p = true) (hp : ∀ a s, p a s = true → a = b) : ∃ s, r = .ok b s := by
  obtain ⟨a, s, rfl, hs⟩ := exists_of_okAnd h
  exact ⟨s, by rw [hp a s hs]⟩

end Sawatabi.Ex
