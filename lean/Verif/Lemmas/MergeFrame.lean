import Verif.Lemmas.VarsInv

/-!
# What merging constraint models leaves alone
-/

namespace Sawatabi

/-- A model with interactions only, such as the model of a constraint. -/
structure Bare (b : LModel) : Prop where
  vars : b.vars = []
  constraints : b.constraints = []
  deleted : b.deleted = []
  fixed : b.fixed = []

theorem bare_table : TableFree Bare := fun _ _ _ _ _ h => ⟨h.vars, h.constraints, h.deleted, h.fixed⟩
theorem bare_offset : OffsetFree Bare := fun _ _ h => ⟨h.vars, h.constraints, h.deleted, h.fixed⟩

theorem genConv_bare {b : LModel} (h : Bare b) (env : Env) (mt : MType) (f o f₂ g₂ o₂ : Coef → Coef) (clk : Nat → ℚ) :
    Bare ((genConv env mt f o f₂ g₂ o₂ clk).run b).state := by
  apply genConv_frame bare_table bare_offset
  rw [h.vars]
  exact ⟨rfl, h.constraints, h.deleted, h.fixed⟩

theorem convertMtype_bare {b : LModel} (h : Bare b) (env : Env) (clk : Nat → ℚ) :
    Bare ((convertMtype env clk).run b).state := by
  rw [convertMtype_run]
  cases hm : b.mtype with
  | qubo =>
    simp only [toIsing_run, hm]
    exact genConv_bare h _ _ _ _ _ _ _ _
  | ising =>
    simp only [toQubo_run, hm]
    exact genConv_bare h _ _ _ _ _ _ _ _

theorem mergeSame_bare_run {a b : LModel} (h : Bare b) :
    mergeSame.run (a, b) =
      match (mergedAttrs a b).mapM (mergedCol a b) with
      | .error e => .error e (a, b)
      | .ok cols => .ok ⟨⟩ ({ mergedTable a b cols with offset := a.offset.add b.offset }, b) := by
  rw [mergeSame_run]
  have h1 : rankClash a b = false := by simp [rankClash, h.vars, dget]
  have h2 : constraintClash a b = false := by simp [constraintClash, dkeys, h.constraints]
  simp only [h1, h.vars, Py.run_forM_nil, Bool.false_eq_true, if_false]
  cases (mergedAttrs a b).mapM (mergedCol a b) with
  | error e => rfl
  | ok cols =>
    simp only [h2, Bool.false_eq_true, if_false]
    simp [mergedRest, mergedTable, h.constraints, h.deleted, h.fixed, dupdate]

theorem merge_bare_frame {I : LModel → Prop} (hT : TableFree I) (hO : OffsetFree I) (env : Env) (clk : Nat → ℚ)
    {a b : LModel} (ha : I a) (hb : Bare b) : I ((merge env clk).run (a, b)).state.1 := by
  have key : ∀ b, Bare b → I (mergeSame.run (a, b)).state.1 := by
    intro b hb
    rw [mergeSame_bare_run hb]
    cases (mergedAttrs a b).mapM (mergedCol a b) with
    | error e => exact ha
    | ok cols => exact hO _ _ (hT _ _ _ _ _ ha)
  rw [merge_run]
  by_cases h : a.mtype = b.mtype
  · rw [if_pos h]
    exact key b hb
  · rw [if_neg h]
    have h1 := convertMtype_bare hb env clk
    cases hr : (convertMtype env clk).run b with
    | error e b₁ => exact ha
    | ok u b₁ =>
      rw [hr] at h1
      exact key b₁ h1

theorem toModel_bare {now : ℚ} {id : String} {c : Constraint} {cm : LModel} (h : c.toModel now id = .ok cm) :
    Bare cm := by
  obtain ⟨_, rfl⟩ := Constraint.toModel_ok h
  exact ⟨rfl, rfl, rfl, rfl⟩

theorem mergeConstraint_run (env : Env) (clks : Nat → Nat → ℚ) (ids : Nat → String)
    (p : (String × Constraint) × Nat) (m : LModel) :
    (mergeConstraint env clks ids p).run m = match p.1.2.toModel (clks p.2 0) (ids p.2) with
      | .error e => .error e m
      | .ok cm => match (merge env (clks p.2)).run (m, cm) with
        | .ok _ t => .ok () t.1
        | .error e t => .error e t.1 := by
  unfold mergeConstraint
  rw [Py.run_bind]
  cases p.1.2.toModel (clks p.2 0) (ids p.2) <;> rfl

theorem mergeConstraint_frame {I : LModel → Prop} (hT : TableFree I) (hO : OffsetFree I) (env : Env)
    (clks : Nat → Nat → ℚ) (ids : Nat → String) (p : (String × Constraint) × Nat) :
    Py.Preserves I (mergeConstraint env clks ids p) := by
  intro m hm
  rw [mergeConstraint_run]
  cases h : p.1.2.toModel (clks p.2 0) (ids p.2) with
  | error e => exact hm
  | ok cm =>
    simp only
    have := merge_bare_frame hT hO env (clks p.2) hm (toModel_bare h)
    cases hr : (merge env (clks p.2)).run (m, cm) with
    | ok u t => rw [hr] at this; exact this
    | error e t => rw [hr] at this; exact this

theorem toPhysical_frame {I : LModel → Prop} (hT : TableFree I) (hO : OffsetFree I) (env : Env)
    (clks : Nat → Nat → ℚ) (ids : Nat → String) (ph : List (String × ℚ)) :
    Py.Preserves I (toPhysical env clks ids ph) := by
  intro m hm
  rw [toPhysical_run]
  have h1 : Py.Preserves (fun s => I s ∧ s.deleted = m.deleted ∧ s.fixed = m.fixed)
      (m.constraints.zipIdx.forM (mergeConstraint env clks ids)) :=
    .forM fun p _ => mergeConstraint_frame (fun _ _ _ _ _ h => ⟨hT _ _ _ _ _ h.1, h.2⟩)
      (fun _ _ h => ⟨hO _ _ h.1, h.2⟩) env clks ids p
  have h1 := h1 m ⟨hm, rfl, rfl⟩
  cases hr : (m.constraints.zipIdx.forM (mergeConstraint env clks ids)).run m with
  | error e m₁ => rw [hr] at h1; exact h1.1
  | ok u m₁ =>
    rw [hr] at h1
    simp only
    cases group ph m₁ with
    | error e => exact h1.1
    | ok g =>
      simp only
      cases m₁.offset.resolve ph with
      | error e => exact h1.1
      | ok off =>
        simp only
        have h2 : Py.Preserves I (g.willRemove.forM popRow) := .forM fun n _ => popRow_frame hT n
        have h3 : I (restored m m₁) := by
          obtain ⟨h1, h4, h5⟩ := h1
          simp only [Res.state] at h1 h4 h5
          rw [restored, ← h4, ← h5]
          exact hT (m := { m₁ with offset := m.offset }) _ _ _ _ (hO m₁ _ h1)
        have h2 := h2 (restored m m₁) h3
        cases hp : (g.willRemove.forM popRow).run (restored m m₁) with
        | error e m₂ => rw [hp] at h2; exact h2
        | ok u m₂ => rw [hp] at h2; exact hT m₂ _ _ _ _ h2

end Sawatabi
