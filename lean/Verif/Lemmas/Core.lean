import Verif.Model.Core
import Verif.Spec.Energy
import Verif.Lemmas.Monad
import Verif.Lemmas.Dict
import Mathlib.Tactic.Ring
import Mathlib.Tactic.Linarith

/-!
# Lemmas about add, update and remove
-/

namespace Sawatabi

/-! ## Loops over attribute columns touch nothing else -/

/-- `t` differs from `s` at most in the attribute columns and the registered keys. -/
def AttrRel (s t : LModel) : Prop := ∃ c a, t = { s with attrCols := c, attrs := a }

theorem AttrRel.refl (s : LModel) : AttrRel s s := ⟨s.attrCols, s.attrs, rfl⟩

theorem AttrRel.trans {a b c : LModel} (h₁ : AttrRel a b) (h₂ : AttrRel b c) : AttrRel a c := by
  obtain ⟨c₁, a₁, rfl⟩ := h₁
  obtain ⟨c₂, a₂, rfl⟩ := h₂
  exact ⟨c₂, a₂, rfl⟩

theorem pushNan_rel (k : String) (s : LModel) : AttrRel s ((pushNan k).run s).state := by
  unfold pushNan
  py_simp
  cases dget s.attrCols k with
  | none => exact AttrRel.refl s
  | some col => exact ⟨_, _, rfl⟩

theorem setLastAttr_rel (kv : String × PyVal) (s : LModel) :
    AttrRel s ((setLastAttr kv).run s).state := by
  unfold setLastAttr
  py_simp
  by_cases h : (dget s.attrCols (attrKey kv.1)).isNone
  · rw [if_pos h]
    rw [dget_dset_self]
    cases List.replicate (s.length + 1).toNat PyVal.nan with
    | nil => exact ⟨_, _, rfl⟩
    | cons x xs => exact ⟨_, _, rfl⟩
  · rw [if_neg h]
    cases dget s.attrCols (attrKey kv.1) with
    | none => exact AttrRel.refl s
    | some col =>
      cases col with
      | nil => exact AttrRel.refl s
      | cons x xs => exact ⟨_, _, rfl⟩

theorem setAttrAt_rel (idx : Nat) (kv : String × PyVal) (s : LModel) :
    AttrRel s ((setAttrAt idx kv).run s).state := by
  unfold setAttrAt
  py_simp
  by_cases h : (dget s.attrCols (attrKey kv.1)).isNone
  · rw [if_pos h]
    rw [dget_dset_self]
    simp only
    split
    · exact ⟨_, _, rfl⟩
    · exact ⟨_, _, rfl⟩
  · rw [if_neg h]
    cases dget s.attrCols (attrKey kv.1) with
    | none => exact AttrRel.refl s
    | some col =>
      simp only
      split
      · exact ⟨_, _, rfl⟩
      · exact AttrRel.refl s

/-! ## Add -/

/-- The attributes check of add. -/
def addAttrs : PyAttrs → Except Err (List (String × PyVal))
  | .none => .ok []
  | .dict d => .ok d
  | .bad => .error .typeError

/-- The timestamp check of add. -/
def addTs (now : ℚ) : PyTs → Except Err ℚ
  | .none => .ok now
  | .num q => .ok q
  | .bad => .error .typeError

/-- The name chosen by add. -/
def addName (name : PyName) (info : Inter) : Except Err String :=
  if name.truthy then (match name with
      | .str n => .ok n
      | _ => .error .typeError) else .ok info.defaultName

/-- The checks of `add_interaction`, and the row it would append. -/
def addChecks (now : ℚ) (m : LModel) (target : PyTarget) (name : PyName) (coefficient scale : PyCoef)
    (attributes : PyAttrs) (timestamp : PyTs) : Except Err (Row × List (String × PyVal)) :=
  if !target.truthy then .error .valueError else
  match checkCoef coefficient with
  | .error e => .error e
  | .ok c =>
  match checkCoef scale with
  | .error e => .error e
  | .ok s =>
  match addAttrs attributes with
  | .error e => .error e
  | .ok ats =>
  match addTs now timestamp with
  | .error e => .error e
  | .ok ts =>
  match getInfo target with
  | .error e => .error e
  | .ok info =>
  match addName name info with
  | .error e => .error e
  | .ok n =>
  if m.hasName n then .error .valueError
  else .ok ({ name := n, inter := info, coef := c, scale := s, timestamp := some ts, dirty := true,
              removed := false }, ats)

/-- The mutations of `add_interaction`. -/
def addTail (row : Row) (ats : List (String × PyVal)) : Py LModel Unit := do
  modify fun m => { m with rows := m.rows ++ [row] }
  (← get).attrs.forM pushNan
  ats.forM setLastAttr
  modify fun m => { m with length := m.length + 1 }

theorem addInteraction_run (now : ℚ) (m : LModel) (target : PyTarget) (name : PyName)
    (coefficient scale : PyCoef) (attributes : PyAttrs) (timestamp : PyTs) :
    (addInteraction now target name coefficient scale attributes timestamp).run m =
      match addChecks now m target name coefficient scale attributes timestamp with
      | .error e => .error e m
      | .ok p => (addTail p.1 p.2).run m := by
  unfold addInteraction addChecks addTail addAttrs addTs addName
  cases ht : target.truthy with
  | false => rfl
  | true =>
  cases coefficient <;> (try rfl) <;> cases scale <;> (try rfl) <;> cases attributes <;> (try rfl) <;>
    cases timestamp <;> (try rfl) <;>
    (cases hi : getInfo target <;> (try rfl)) <;>
    cases hn : name.truthy <;> (cases name <;> (try rfl)) <;>
    simp only [checkCoef, Bool.not_true, Bool.false_eq_true, if_false, if_true, Py.run_bind,
      Py.run_pure, Py.run_get, Py.run_modify, Py.run_liftE_ok, Py.run_ite, Py.run_throw] <;>
    split <;> rfl

end Sawatabi
