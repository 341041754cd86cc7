import Verif.Model.Convert

/-!
# Specification: models that are the same up to the order of dictionaries and sets
-/

namespace Sawatabi

/-- The same constraint up to the order of its variables. -/
inductive Constraint.Alike : Constraint → Constraint → Prop
  | nHot (l : String) (s : ℚ) (n : Nat) {vs vs' : List PVar} (h : vs.Perm vs') : Alike (.nHot l s vs n) (.nHot l s vs' n)
  | zeroOrOneHot (l : String) (s : ℚ) {vs vs' : List PVar} (h : vs.Perm vs') :
    Alike (.zeroOrOneHot l s vs) (.zeroOrOneHot l s vs')
  | equality (l : String) (s : ℚ) {v1 v1' v2 v2' : List PVar} (h1 : v1.Perm v1') (h2 : v2.Perm v2') :
    Alike (.equality l s v1 v2) (.equality l s v1' v2')

/-- Dictionaries with the same keys, and values related by `R`. -/
def DictAlike {κ ν : Type} [DecidableEq κ] (R : ν → ν → Prop) (d e : List (κ × ν)) : Prop :=
  ∀ k, match dget d k, dget e k with
    | some v, some w => R v w
    | none, none => True
    | _, _ => False

/-- The variables of a constraint form a set. -/
def Constraint.SetVars : Constraint → Prop
  | .nHot _ _ vs _ => vs.Nodup
  | .zeroOrOneHot _ _ vs => vs.Nodup
  | .equality _ _ v1 v2 => v1.Nodup ∧ v2.Nodup

/-- The dictionaries and sets of a model have no duplicate keys. -/
structure LModel.Proper (m : LModel) : Prop where
  vars : (dkeys m.vars).Nodup
  cols : (dkeys m.attrCols).Nodup
  cons : (dkeys m.constraints).Nodup
  sets : ∀ p ∈ m.constraints, p.2.SetVars
  deleted : m.deleted.Nodup
  fixed : m.fixed.Nodup

/-- The same model, up to the order of dictionaries and sets and the identity of the object. -/
structure Alike (m n : LModel) : Prop where
  mtype : m.mtype = n.mtype
  vars : m.vars.Perm n.vars
  rows : m.rows = n.rows
  cols : m.attrCols.Perm n.attrCols
  attrs : m.attrs = n.attrs
  length : m.length = n.length
  cons : DictAlike Constraint.Alike m.constraints n.constraints
  deleted : m.deleted.Perm n.deleted
  fixed : m.fixed.Perm n.fixed
  offset : m.offset = n.offset

/-- The same physical model, up to the order of dictionaries; nothing is said about the set of variables. -/
structure Physical.Alike (p q : Physical) : Prop where
  mtype : p.mtype = q.mtype
  linear : p.linear.Perm q.linear
  quad : p.quad.Perm q.quad
  offset : p.offset = q.offset
  l2i : p.labelToIndex.Perm q.labelToIndex
  i2l : p.indexToLabel.Perm q.indexToLabel

end Sawatabi
