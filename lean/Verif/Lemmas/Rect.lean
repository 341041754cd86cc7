import Verif.Lemmas.Inv
import Verif.Spec.History

/-!
# Calls keep the interaction table rectangular
-/

namespace Sawatabi

abbrev KeepsRect {α : Type} (x : Py LModel α) : Prop := Py.Preserves LModel.Rect x

/-- A change that touches neither rows nor columns. -/
theorem rect_same {m m' : LModel} (h : m.Rect) (hl : m'.length = m.length)
    (hr : m'.rows.length = m.rows.length) (hc : m'.attrCols = m.attrCols) (ha : m'.attrs = m.attrs) :
    m'.Rect :=
  ⟨by rw [hl, hr, h.len], by rw [hc, ha, h.keys], by rw [ha]; exact h.nodup,
    by rw [hc, hr]; exact h.cols⟩

theorem add_rect (now : ℚ) (target : PyTarget) (name : PyName) (c s : PyCoef) (a : PyAttrs) (ts : PyTs) :
    KeepsRect (addInteraction now target name c s a ts) := by
  intro m hm
  rw [addInteraction_run]
  split
  · exact hm
  · rename_i p hp
    obtain ⟨cols, as, hr, hrect, _⟩ := addTail_rect p.1 p.2 m hm
    rw [hr]
    exact hrect

theorem remove_rect (target : PyTarget) (name : PyName) : KeepsRect (removeInteraction target name) := by
  intro m hm
  rw [removeInteraction_run]
  split
  · exact hm
  · split
    · exact hm
    · exact rect_same hm rfl (by simp [Res.state]) rfl rfl

/-- Update keeps the table rectangular if its attribute keys are registered. -/
theorem update_rect' (importTime now : ℚ) (target : PyTarget) (name : PyName) (c s : Option PyCoef)
    (a : PyAttrs) (ts : Option PyTs) (m : LModel) (hm : m.Rect)
    (hk : ∀ kv ∈ a.entries, attrKey kv.1 ∈ m.attrs) :
    ((updateInteraction importTime now target name c s a ts).run m).state.Rect := by
  rw [updateInteraction_run]
  split
  · exact hm
  · exact add_rect _ _ _ _ _ _ _ m hm
  · rename_i idx c' s' ats ts' hc
    obtain ⟨⟨n, _, hi, _⟩, _, _, _, hats, _⟩ := updateChecks_write hc
    obtain ⟨hlt, _⟩ := indexOf_ok hi
    obtain ⟨cols, hr, hrect, _⟩ := writeRow_rect idx c' s' ats ts' m hm hlt (by rw [hats]; exact hk)
    rw [hr]
    exact hrect

theorem update_rect (importTime now : ℚ) (target : PyTarget) (name : PyName) (c s : Option PyCoef)
    (ts : Option PyTs) : KeepsRect (updateInteraction importTime now target name c s .none ts) :=
  fun m hm => update_rect' _ _ _ _ _ _ _ _ m hm (by simp [PyAttrs.entries])

theorem removeFromConstraint_rect (v : PVar) (l : String) : KeepsRect (removeFromConstraint v l) := by
  intro m hm
  unfold removeFromConstraint
  py_simp
  cases dget m.constraints l with
  | none => exact hm
  | some c =>
    simp only [Py.run_bind]
    cases c.removeVariable v with
    | error e => exact hm
    | ok c' => exact rect_same hm rfl rfl rfl rfl

theorem delete_rect (v : PVar) : KeepsRect (deleteVariable v) := by
  unfold deleteVariable
  refine .bind (.modify' fun s h => rect_same h rfl rfl rfl rfl) fun _ => .bind .get' fun m =>
    .bind (.forM fun _ _ => removeFromConstraint_rect _ _) fun _ =>
    .bind (selectByVariable_inv _) fun names => .forM fun n _ => remove_rect _ _

theorem fixOne_rect (now : ℚ) (v : PVar) (value : ℚ) (s : String) : KeepsRect (fixOne now v value s) := by
  unfold fixOne
  refine .bind_get fun m hm => ?_
  rw [Py.run_bind, Py.run_liftE]
  cases m.indexOf s with
  | error e => exact hm
  | ok idx =>
    simp only
    cases m.rows[idx]? with
    | none => exact hm
    | some r =>
      simp only
      cases r.inter with
      | lin w =>
        simp only [Py.run_bind, Py.run_set]
        exact remove_rect _ _ _ (rect_same hm rfl rfl rfl rfl)
      | quad a b =>
        simp only
        have hcont : ∀ keep : PVar, KeepsRect (do
            addInteraction now (.var keep) (.str (keep.label ++ " (before fixed: " ++ s ++ ")"))
              (match ((Coef.num value).mul r.coef).mul r.scale with
                | .num q => PyCoef.num q
                | .expr e => PyCoef.expr e) (.num 1) .none .none
            removeInteraction .none (.str s)) := fun keep =>
          .bind (add_rect _ _ _ _ _ _ _) fun _ => remove_rect _ _
        by_cases h1 : a.label = v.label
        · simp only [h1, if_true]
          exact hcont b m hm
        · by_cases h2 : b.label = v.label
          · simp only [h1, h2, if_true, if_false]
            exact hcont a m hm
          · simp only [h1, h2, if_false]
            exact hm

theorem fix_rect (clk : Nat → ℚ) (v : PVar) (value : PyNum) : KeepsRect (fixVariable clk v value) := by
  unfold fixVariable
  refine .bind .get' fun m => .bind (.liftE' _) fun q =>
    .bind (.modify' fun s h => rect_same h rfl rfl rfl rfl) fun _ =>
    .bind (selectByVariable_inv _) fun names => .ite (.pure' _) (.ite ?_ ?_)
  · exact .forM fun n _ => remove_rect _ _
  · exact .forM fun n _ => fixOne_rect _ _ _ _

theorem retypeVar_rect (n : String) : KeepsRect (retypeVar n) := by
  unfold retypeVar
  refine .bind_get fun m hm => ?_
  cases dget m.vars n with
  | none => exact hm
  | some a =>
    simp only [Py.run_bind, Py.run_liftE]
    cases arrayCreate n (a.shape.map Int.ofNat) m.mtype.vtype with
    | error e => exact hm
    | ok a' => exact rect_same hm rfl rfl rfl rfl

theorem updateVariablesType_rect : KeepsRect updateVariablesType := by
  unfold updateVariablesType
  exact .bind .get' fun m => .bind (.forM fun n _ => retypeVar_rect n) fun _ =>
    .bind makeFrame_inv fun _ => .modify' fun s h => rect_same h rfl (by simp) rfl rfl

theorem toIsing_rect (env : Env) (clk : Nat → ℚ) : KeepsRect (toIsing env clk) := by
  unfold toIsing
  refine .bind .get' fun m => .ite ?_ (.pure' _)
  refine .bind (.modify' fun s h => rect_same h rfl rfl rfl rfl) fun _ =>
    .bind updateVariablesType_rect fun _ =>
    .bind (selectBody_inv _) fun hs => .bind (.forM fun h _ => ?_) fun _ =>
    .bind (selectBody_inv _) fun js => .forM fun p _ => ?_
  · exact .bind (update_rect _ _ _ _ _ _ _) fun _ => .modify' fun s h => rect_same h rfl rfl rfl rfl
  · unfold toIsingQuad
    split
    · exact .throw' _
    · exact .bind (update_rect _ _ _ _ _ _ _) fun _ => .bind (add_rect _ _ _ _ _ _ _) fun _ =>
        .bind (add_rect _ _ _ _ _ _ _) fun _ => .modify' fun s h => rect_same h rfl rfl rfl rfl

theorem toQubo_rect (env : Env) (clk : Nat → ℚ) : KeepsRect (toQubo env clk) := by
  unfold toQubo
  refine .bind .get' fun m => .ite ?_ (.pure' _)
  refine .bind (.modify' fun s h => rect_same h rfl rfl rfl rfl) fun _ =>
    .bind updateVariablesType_rect fun _ =>
    .bind (selectBody_inv _) fun hs => .bind (.forM fun h _ => ?_) fun _ =>
    .bind (selectBody_inv _) fun js => .forM fun p _ => ?_
  · exact .bind (update_rect _ _ _ _ _ _ _) fun _ => .modify' fun s h => rect_same h rfl rfl rfl rfl
  · unfold toQuboQuad
    split
    · exact .throw' _
    · exact .bind (update_rect _ _ _ _ _ _ _) fun _ => .bind (add_rect _ _ _ _ _ _ _) fun _ =>
        .bind (add_rect _ _ _ _ _ _ _) fun _ => .modify' fun s h => rect_same h rfl rfl rfl rfl

theorem convertMtype_rect (env : Env) (clk : Nat → ℚ) : KeepsRect (convertMtype env clk) := by
  unfold convertMtype
  refine .bind .get' fun m => ?_
  split
  · exact toIsing_rect _ _
  · exact toQubo_rect _ _

/-- Calls that change nothing but variables. -/
def VarsRel (s t : LModel) : Prop := ∃ vs, t = { s with vars := vs }

theorem VarsRel.refl (s : LModel) : VarsRel s s := ⟨s.vars, rfl⟩
theorem VarsRel.trans {a b c : LModel} (h₁ : VarsRel a b) (h₂ : VarsRel b c) : VarsRel a c := by
  obtain ⟨c₁, rfl⟩ := h₁
  obtain ⟨c₂, rfl⟩ := h₂
  exact ⟨c₂, rfl⟩

theorem VarsRel.rect {s t : LModel} (h : VarsRel s t) (hs : s.Rect) : t.Rect := by
  obtain ⟨vs, rfl⟩ := h
  exact rect_same hs rfl rfl rfl rfl

theorem createVars_rel (n : String) (sh : List Int) (m : LModel) :
    VarsRel m ((createVars n sh).run m).state := by
  unfold createVars
  by_cases h : sh = []
  · simp only [h, if_true]; exact VarsRel.refl m
  · simp only [h, if_false]
    py_simp
    cases arrayCreate n sh m.mtype.vtype with
    | error e => exact VarsRel.refl m
    | ok a => exact ⟨_, rfl⟩

theorem appendVars_rel (n : String) (sh : List Int) (m : LModel) :
    VarsRel m ((appendVars n sh).run m).state := by
  unfold appendVars
  by_cases h : sh = []
  · simp only [h, if_true]; exact VarsRel.refl m
  · simp only [h, if_false]
    py_simp
    cases dget m.vars n with
    | none => exact createVars_rel n sh m
    | some old =>
      simp only [Py.run_bind]
      cases arrayCreate n (elementwiseAdd (old.shape.map Int.ofNat) sh) m.mtype.vtype with
      | error e => exact VarsRel.refl m
      | ok a => exact ⟨_, rfl⟩

theorem variablesArray_rel (a : VArray) (m : LModel) :
    VarsRel m ((variablesArray a).run m).state := by
  unfold variablesArray
  cases a.bits with
  | nil => exact VarsRel.refl m
  | cons v l =>
    simp only
    by_cases h : v.vt ≠ m.mtype.vtype
    · simp only [Py.run_bind, Py.run_get, if_pos h, Py.run_throw]; exact VarsRel.refl m
    · simp only [Py.run_bind, Py.run_get, if_neg h]
      cases labelStem v.label with
      | none => exact VarsRel.refl m
      | some n => exact ⟨_, rfl⟩

theorem mergeVar_rel (p : String × VArray) (m : LModel) : VarsRel m ((mergeVar p).run m).state := by
  unfold mergeVar
  py_simp
  cases dget m.vars p.1 with
  | none => exact ⟨_, rfl⟩
  | some cur =>
    simp only [Py.run_bind]
    have := appendVars_rel p.1 (elementwiseSub (elementwiseMax (p.2.shape.map Int.ofNat)
      (cur.shape.map Int.ofNat)) (cur.shape.map Int.ofNat)) m
    cases h : (appendVars p.1 (elementwiseSub (elementwiseMax (p.2.shape.map Int.ofNat)
      (cur.shape.map Int.ofNat)) (cur.shape.map Int.ofNat))).run m with
    | ok a t => rw [h] at this; exact this
    | error e t => rw [h] at this; exact this

end Sawatabi
