import Verif.Spec.Energy

/-!
# Specification: what the arguments of the interaction methods mean
-/

namespace Sawatabi

/-- The interaction that a target stands for: a variable, or two variables with different labels in
either order, kept with the smaller label first. -/
inductive PyTarget.Denotes : PyTarget → Inter → Prop
  | var (v : PVar) : Denotes (.var v) (.lin v)
  | pair (v w : PVar) (h : v.label < w.label) : Denotes (.tuple [some v, some w]) (.quad v w)
  | swapped (v w : PVar) (h : v.label < w.label) : Denotes (.tuple [some w, some v]) (.quad v w)

/-- A well-formed interaction: the variables of a 2-body interaction have different labels, the
smaller one first. -/
def Inter.Ordered : Inter → Prop
  | .lin _ => True
  | .quad v w => v.label < w.label

/-- The product of the variables of a target (0 for an invalid target). -/
def PyTarget.product (σ : Assign) : PyTarget → ℚ
  | .var v => σ v.label
  | .tuple [some v, some w] => σ v.label * σ w.label
  | _ => 0

/-- Value of a coefficient argument (0 for an invalid one). -/
def PyCoef.value (ρ : PEnv) : PyCoef → ℚ
  | .num q => q
  | .expr e => e.eval ρ
  | .bad => 0

/-- The stored coefficient for an argument. -/
inductive PyCoef.Stores : PyCoef → Coef → Prop
  | num (q : ℚ) : Stores (.num q) (.num q)
  | expr (e : PExpr) : Stores (.expr e) (.expr e)

/-- The name of an interaction: a given non-empty string, or else the default name made of the
labels. -/
inductive PyName.Names : PyName → Inter → String → Prop
  | given (n : String) (i : Inter) (h : n ≠ "") : Names (.str n) i n
  | lin (v : PVar) : Names (.str "") (.lin v) v.label
  | quad (v w : PVar) : Names (.str "") (.quad v w) (v.label ++ "*" ++ w.label)

/-- The names of the interactions of a model. -/
def LModel.names (m : LModel) : List String := m.rows.map (·.name)

/-- The existing interaction that `(target, name)` selects: a non-empty name of an interaction, or
a valid target whose default name is the name of an interaction. -/
inductive Resolves (m : LModel) : PyTarget → PyName → String → Prop
  | byName (n : String) (t : PyTarget) (ht : t = .none) (hn : n ≠ "") (hm : n ∈ m.names) :
      Resolves m t (.str n) n
  | byTarget (t : PyTarget) (i : Inter) (n : String) (h : t.Denotes i)
      (hn : PyName.Names (.str "") i n) (hm : n ∈ m.names) : Resolves m t (.str "") n

end Sawatabi
