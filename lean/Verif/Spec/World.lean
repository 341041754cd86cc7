import Verif.Model.World
import Verif.Spec.Constraint

/-!
# Histories of calls on several models
-/

namespace Sawatabi

/-- The condition `P` for the calls on a model. -/
def WOp.Allowed (P : LModel → Op → Prop) (w : World) : WOp → Prop
  | .call i op => ∀ m, w.model i = some m → P m op
  | _ => True

/-- Worlds that come out of the empty one by calls, where the calls on one model satisfy `P`. -/
inductive Lives (env : Env) (P : LModel → Op → Prop) : World → Prop
  | start : Lives env P ⟨[], []⟩
  | step (w : World) (op : WOp) (h : Lives env P w) (hp : op.Allowed P w) : Lives env P (op.step env w)

/-- A condition that never forbids `add_constraint`, `merge` or a conversion. -/
structure Lax (P : LModel → Op → Prop) : Prop where
  addConstraint : ∀ m c, P m (.addConstraint c)
  merge : ∀ m clk o, P m (.merge clk o)
  toIsing : ∀ m clk, P m (.toIsing clk)
  toQubo : ∀ m clk, P m (.toQubo clk)

/-- Two models refer to one constraint object. -/
def World.Share (w : World) (i j : Nat) : Prop := ∃ l l' a, (l, a) ∈ w.refs i ∧ (l', a) ∈ w.refs j

/-- Calls that can make models share a constraint object. -/
def WOp.Shares : WOp → Prop
  | .register _ _ => True
  | .merge _ _ _ => True
  | _ => False

/-- The variables of a constraint are sets. -/
def Constraint.OfSets (c : Constraint) : Prop := ∀ s ∈ c.sets, s.Nodup

/-- `t` is the set `s` with the variables of the argument. -/
def SetJoined (a : PyVars) (s t : List PVar) : Prop := t.Nodup ∧ ∀ v, v ∈ t ↔ v ∈ s ∨ a.Has v

/-- `t` is the set `s` without the variables of the argument. -/
def SetReduced (a : PyVars) (s t : List PVar) : Prop := t.Nodup ∧ ∀ v, v ∈ t ↔ v ∈ s ∧ ¬ a.Has v

/-- What a call does to a constraint object: one set changes, everything else stays. -/
inductive Edited : Edit → Constraint → Constraint → Prop
  | nHotAdd {a s t} (l : String) (k : ℚ) (n : Nat) (h : SetJoined a s t) : Edited (.add a) (.nHot l k s n) (.nHot l k t n)
  | nHotRemove {a s t} (l : String) (k : ℚ) (n : Nat) (h : SetReduced a s t) :
      Edited (.remove a) (.nHot l k s n) (.nHot l k t n)
  | zeroAdd {a s t} (l : String) (k : ℚ) (h : SetJoined a s t) : Edited (.add a) (.zeroOrOneHot l k s) (.zeroOrOneHot l k t)
  | zeroRemove {a s t} (l : String) (k : ℚ) (h : SetReduced a s t) :
      Edited (.remove a) (.zeroOrOneHot l k s) (.zeroOrOneHot l k t)
  | firstAdd {a s t} (l : String) (k : ℚ) (u : List PVar) (h : SetJoined a s t) :
      Edited (.add1 a) (.equality l k s u) (.equality l k t u)
  | secondAdd {a s t} (l : String) (k : ℚ) (u : List PVar) (h : SetJoined a s t) :
      Edited (.add2 a) (.equality l k u s) (.equality l k u t)
  | firstRemove {a s t} (l : String) (k : ℚ) (u : List PVar) (h : SetReduced a s t) :
      Edited (.remove1 a) (.equality l k s u) (.equality l k t u)
  | secondRemove {a s t} (l : String) (k : ℚ) (u : List PVar) (h : SetReduced a s t) :
      Edited (.remove2 a) (.equality l k u s) (.equality l k u t)

/-- The argument of a call. -/
def Edit.arg : Edit → PyVars
  | .add a | .remove a | .add1 a | .add2 a | .remove1 a | .remove2 a => a

/-- The set that a call is about, if the class has the method. -/
inductive Edit.About : Edit → Constraint → List PVar → Prop
  | nHotAdd {a l k s n} : About (.add a) (.nHot l k s n) s
  | nHotRemove {a l k s n} : About (.remove a) (.nHot l k s n) s
  | zeroAdd {a l k s} : About (.add a) (.zeroOrOneHot l k s) s
  | zeroRemove {a l k s} : About (.remove a) (.zeroOrOneHot l k s) s
  | firstAdd {a l k s u} : About (.add1 a) (.equality l k s u) s
  | secondAdd {a l k s u} : About (.add2 a) (.equality l k u s) s
  | firstRemove {a l k s u} : About (.remove1 a) (.equality l k s u) s
  | secondRemove {a l k s u} : About (.remove2 a) (.equality l k u s) s

/-- The call removes variables. -/
def Edit.Removes : Edit → Prop
  | .remove _ | .remove1 _ | .remove2 _ => True
  | _ => False

end Sawatabi
