import Verif.Lemmas.ToPhysical
import Verif.Lemmas.Conv

/-!
# Invariants that do not depend on the interaction table
-/

namespace Sawatabi

/-- `I` does not depend on the interaction table. -/
def TableFree (I : LModel → Prop) : Prop :=
  ∀ (m : LModel) r c a l, I m → I { m with rows := r, attrCols := c, attrs := a, length := l }

/-- `I` does not depend on the offset either. -/
def OffsetFree (I : LModel → Prop) : Prop := ∀ (m : LModel) o, I m → I { m with offset := o }

variable {I : LModel → Prop} (hI : TableFree I)

include hI

theorem add_frame (now : ℚ) (target : PyTarget) (name : PyName) (c s : PyCoef) (a : PyAttrs) (ts : PyTs) :
    Py.Preserves I (addInteraction now target name c s a ts) := by
  intro m hm
  rw [addInteraction_run]
  split
  · exact hm
  · rename_i p hp
    obtain ⟨row, ats⟩ := p
    cases h : (addTail row ats).run m with
    | ok u m' => obtain ⟨_, _, rfl⟩ := addTail_ok h; exact hI m _ _ _ _ hm
    | error e m' => obtain ⟨_, _, rfl⟩ := addTail_error h; exact hI m _ _ _ _ hm

theorem remove_frame (target : PyTarget) (name : PyName) : Py.Preserves I (removeInteraction target name) := by
  intro m hm
  rw [removeInteraction_run]
  split
  · exact hm
  · split
    · exact hm
    · exact hI m _ _ _ _ hm

theorem update_frame (importTime now : ℚ) (target : PyTarget) (name : PyName) (c s : Option PyCoef)
    (a : PyAttrs) (ts : Option PyTs) :
    Py.Preserves I (updateInteraction importTime now target name c s a ts) := by
  intro m hm
  rw [updateInteraction_run]
  split
  · exact hm
  · exact add_frame hI _ _ _ _ _ _ _ m hm
  · rename_i idx c' s' ats ts' _
    cases h : (writeRow idx c' s' ats ts').run m with
    | ok u m' =>
      obtain ⟨_, rfl⟩ := writeRow_ok h
      exact hI m _ _ _ _ hm
    | error e m' =>
      obtain ⟨_, rfl⟩ := writeRow_error h
      exact hI m _ _ _ _ hm

theorem fixOne_frame (hO : OffsetFree I) (now : ℚ) (v : PVar) (value : ℚ) (s : String) :
    Py.Preserves I (fixOne now v value s) := by
  unfold fixOne
  refine .bind_get fun m hm => ?_
  rw [Py.run_bind, Py.run_liftE]
  cases m.indexOf s with
  | error e => exact hm
  | ok idx =>
    simp only
    cases m.rows[idx]? with
    | none => exact hm
    | some r =>
      simp only
      cases r.inter with
      | lin w =>
        simp only [Py.run_bind, Py.run_set]
        exact remove_frame hI _ _ _ (hO m _ hm)
      | quad a b =>
        simp only
        have hcont : ∀ keep : PVar, Py.Preserves I (do
            addInteraction now (.var keep) (.str (keep.label ++ " (before fixed: " ++ s ++ ")"))
              (match ((Coef.num value).mul r.coef).mul r.scale with
                | .num q => PyCoef.num q
                | .expr e => PyCoef.expr e) (.num 1) .none .none
            removeInteraction .none (.str s)) := fun keep =>
          .bind (add_frame hI _ _ _ _ _ _ _) fun _ => remove_frame hI _ _
        by_cases h1 : a.label = v.label
        · simp only [h1, if_true]
          exact hcont b m hm
        · by_cases h2 : b.label = v.label
          · simp only [h1, h2, if_true, if_false]
            exact hcont a m hm
          · simp only [h1, h2, if_false]
            exact hm

/-- `fix_variable`, given what happens when the label is noted. -/
theorem fix_frame (hO : OffsetFree I) (clk : Nat → ℚ) (v : PVar) (value : PyNum)
    (hF : ∀ m, I m → I { m with fixed := sadd m.fixed v.label }) : Py.Preserves I (fixVariable clk v value) := by
  unfold fixVariable
  refine .bind .get' fun m => .bind (.liftE' _) fun q =>
    .bind (.modify' fun s h => hF s h) fun _ =>
    .bind (selectByVariable_inv _) fun names => .ite (.pure' _) (.ite ?_ ?_)
  · exact .forM fun n _ => remove_frame hI _ _
  · exact .forM fun n _ => fixOne_frame hI hO _ _ _ _

omit hI in
theorem removeFromConstraint_frame (hC : ∀ (m : LModel) c, I m → I { m with constraints := c }) (v : PVar) (l : String) :
    Py.Preserves I (removeFromConstraint v l) := by
  intro m hm
  unfold removeFromConstraint
  py_simp
  cases dget m.constraints l with
  | none => exact hm
  | some c =>
    simp only [Py.run_bind]
    cases c.removeVariable v with
    | error e => exact hm
    | ok c' => exact hC m _ hm

theorem delete_frame (hC : ∀ (m : LModel) c, I m → I { m with constraints := c }) (v : PVar)
    (hD : ∀ m, I m → I { m with deleted := sadd m.deleted v.label }) : Py.Preserves I (deleteVariable v) := by
  unfold deleteVariable
  refine .bind (.modify' fun s h => hD s h) fun _ => .bind .get' fun m =>
    .bind (.forM fun _ _ => removeFromConstraint_frame hC _ _) fun _ =>
    .bind (selectByVariable_inv _) fun names => .forM fun n _ => remove_frame hI _ _

/-- The part of a conversion after the variables have been converted. -/
theorem genConv_frame (hO : OffsetFree I) (env : Env) (mt : MType) (f o f₂ g₂ o₂ : Coef → Coef) (clk : Nat → ℚ)
    (m : LModel) (h₀ : I (((dkeys m.vars).forM retypeVar).run { m with mtype := mt }).state) :
    I ((genConv env mt f o f₂ g₂ o₂ clk).run m).state := by
  unfold genConv updateVariablesType
  simp only [Py.run_bind, Py.run_modify, Py.run_get]
  cases h : ((dkeys m.vars).forM retypeVar).run { m with mtype := mt } with
  | error e t => rw [h] at h₀; exact h₀
  | ok u t =>
    rw [h] at h₀
    simp only
    have key : Py.Preserves I (do
        makeFrame
        modify fun m => { m with rows := m.rows.map fun r =>
          if r.removed then r else { r with inter := r.inter.retype m.mtype.vtype } }
        let hs ← selectBody 1
        hs.forM (genLin env f o)
        let js ← selectBody 2
        js.zipIdx.forM fun p => genQuad env f₂ g₂ o₂ (fun i => clk (4 * p.2 + i)) p.1) := by
      refine .bind makeFrame_inv fun _ => .bind (.modify' fun s h => hI s _ _ _ _ h) fun _ =>
        .bind (selectBody_inv _) fun hs => .bind (.forM fun h _ => ?_) fun _ =>
        .bind (selectBody_inv _) fun js => .forM fun p _ => ?_
      · unfold genLin updateCoef
        exact .bind (update_frame hI _ _ _ _ _ _ _ _) fun _ => .modify' fun s h => hO s _ h
      · unfold genQuad updateCoef
        split
        · exact .throw' _
        · exact .bind (update_frame hI _ _ _ _ _ _ _ _) fun _ => .bind (add_frame hI _ _ _ _ _ _ _) fun _ =>
            .bind (add_frame hI _ _ _ _ _ _ _) fun _ => .modify' fun s h => hO s _ h
    have := key t h₀
    simp only [Py.run_bind, Py.run_modify] at this
    cases hf : makeFrame.run t with
    | error e t' => rw [hf] at this; exact this
    | ok u t' => rw [hf] at this; exact this

theorem popRow_frame (n : String) : Py.Preserves I (popRow n) := by
  unfold popRow
  refine .bind .get' fun m => .bind (.liftE' _) fun idx => .bind (.modify' fun s h => hI s _ _ _ _ h) fun _ =>
    .bind (.forM fun k _ => ?_) fun _ => .modify' fun s h => hI s _ _ _ _ h
  intro s hs
  unfold popCol
  py_simp
  cases dget s.attrCols k with
  | none => exact hs
  | some col =>
    simp only
    by_cases h : idx < col.length
    · rw [if_pos h]; exact hI s _ _ _ _ hs
    · rw [if_neg h]; exact hs

end Sawatabi
