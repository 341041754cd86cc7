import Verif.Spec.Args

/-!
# Specification: which arguments the interaction methods reject, and with which exception
-/

namespace Sawatabi

/-- `Decides l r`: going through the list of reasons to reject a call, the first one that holds gives the exception `r`;
`none` if none holds. -/
inductive Decides : List (Prop × Err) → Option Err → Prop
  | nothing : Decides [] none
  | hit {p : Prop} {e : Err} {l : List (Prop × Err)} (h : p) : Decides ((p, e) :: l) (some e)
  | skip {p : Prop} {e : Err} {l : List (Prop × Err)} {r : Option Err} (h : ¬ p) (t : Decides l r) :
    Decides ((p, e) :: l) r

/-- The exception of a call, `none` if it returns. -/
def Res.raised {σ α : Type} : Res σ α → Option Err
  | .ok _ _ => none
  | .error e _ => some e

/-- A target was given: an object that Python takes as true. -/
def PyTarget.Given (t : PyTarget) : Prop := t ≠ .none ∧ t ≠ .falsy ∧ t ≠ .tuple []

/-- A name was given. -/
def PyName.Given (n : PyName) : Prop := n ≠ .str ""

/-- A variable or a tuple of two variables. -/
def PyTarget.WellTyped (t : PyTarget) : Prop := (∃ v, t = .var v) ∨ ∃ v w, t = .tuple [some v, some w]

/-- A pair of variables with the same label. -/
def PyTarget.SameLabel (t : PyTarget) : Prop := ∃ v w : PVar, t = .tuple [some v, some w] ∧ v.label = w.label

/-- An optional argument that is given and is not a number. -/
def NotNumber (c : Option PyCoef) : Prop := ∃ x, c = some x ∧ ∀ q, x ≠ .num q

/-- The first interaction of that name is removed. -/
def LModel.IsGone (m : LModel) (n : String) : Prop :=
  ∃ pre r post, m.rows = pre ++ r :: post ∧ (∀ x ∈ pre, x.name ≠ n) ∧ r.name = n ∧ r.removed = true

/-- `add_interaction`. -/
def addReasons (m : LModel) (target : PyTarget) (name : PyName) (c s : PyCoef) (attributes : PyAttrs) (ts : PyTs) :
    List (Prop × Err) :=
  [(¬ target.Given, .valueError), (c = .bad, .typeError), (s = .bad, .typeError), (attributes = .bad, .typeError),
   (ts = .bad, .typeError), (¬ target.WellTyped, .typeError), (target.SameLabel, .valueError),
   (∀ n, name ≠ .str n, .typeError), (∃ i n, target.Denotes i ∧ name.Names i n ∧ n ∈ m.names, .valueError)]

/-- `update_interaction`; an omitted timestamp is acceptable. -/
def updateReasons (m : LModel) (target : PyTarget) (name : PyName) (c s : Option PyCoef) (attributes : PyAttrs)
    (ts : Option PyTs) : List (Prop × Err) :=
  [(¬ target.Given ∧ ¬ name.Given, .valueError), (target.Given ∧ name.Given, .valueError), (NotNumber c, .typeError),
   (NotNumber s, .typeError), (attributes = .bad, .typeError), (ts = some .bad, .typeError),
   (target ≠ .none ∧ ¬ target.WellTyped, .typeError), (target.SameLabel, .valueError),
   (name.Given ∧ ¬ ∃ n, Resolves m target name n, .keyError), (∃ n, Resolves m target name n ∧ m.IsGone n, .valueError)]

/-- `remove_interaction`, `get_attributes`. A tuple is taken for a name, but no interaction has such a name. -/
def removeReasons (m : LModel) (target : PyTarget) (name : PyName) : List (Prop × Err) :=
  [(¬ target.Given ∧ ¬ name.Given, .valueError), (target.Given ∧ name.Given, .valueError),
   (target ≠ .none ∧ ¬ target.WellTyped, .typeError), (target.SameLabel, .valueError), (name = .other, .typeError),
   (¬ ∃ n, Resolves m target name n, .keyError)]

end Sawatabi
