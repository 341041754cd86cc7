import Verif.Lemmas.CongruenceLoops
import Verif.Lemmas.Constraint
import Verif.Lemmas.Merge

/-!
# Models made by public calls are proper
-/

namespace Sawatabi

theorem new_proper (mt : MType) (id : String) : (LModel.new mt id).Proper :=
  ⟨List.nodup_nil, List.nodup_nil, List.nodup_nil, by simp [LModel.new], List.nodup_nil, List.nodup_nil⟩

theorem LModel.Proper.same {m : LModel} (h : m.Proper) : Same m m := .refl h

theorem retypeVar_proper (k : String) : Py.Preserves LModel.Proper (retypeVar k) := by
  intro m hm
  unfold retypeVar
  py_simp
  cases dget m.vars k with
  | none => exact hm
  | some a =>
    py_simp
    rw [Py.run_liftE]
    cases arrayCreate k (a.shape.map Int.ofNat) m.mtype.vtype with
    | error e => exact hm
    | ok a' => exact (hm.same.setVar _ _).left

theorem removeFromConstraint_proper (v : PVar) (k : String) : Py.Preserves LModel.Proper (removeFromConstraint v k) := by
  intro m hm
  unfold removeFromConstraint
  py_simp
  cases hg : dget m.constraints k with
  | none => exact hm
  | some c =>
    py_simp
    rw [Py.run_liftE]
    cases hc : c.removeVariable v with
    | error e => exact hm
    | ok c' =>
      have := removeVariable_setVars hc (hm.sets _ (dget_mem hg))
      exact (hm.same.setCons _ (.refl _) this this).left

theorem popCol_proper (i : Nat) (k : String) : Py.Preserves LModel.Proper (popCol i k) := by
  intro m hm
  unfold popCol
  py_simp
  cases dget m.attrCols k with
  | none => exact hm
  | some c =>
    simp only [Py.run_ite]
    split
    · exact (hm.same.setCol _ _).left
    · exact hm

theorem popRow_proper (k : String) : Py.Preserves LModel.Proper (popRow k) := by
  unfold popRow
  refine .bind .get' fun m => .bind (.liftE' _) fun i => .bind (.modify' fun m h => (h.same.setRows _).left) fun _ => ?_
  exact .bind (.forM fun k _ => popCol_proper _ _) fun _ => .modify' fun m h => (h.same.setLength _).left

theorem deleteVariable_proper (v : PVar) : Py.Preserves LModel.Proper (deleteVariable v) := by
  unfold deleteVariable
  refine .bind (.modify' fun m h => (h.same.addDeleted _).left) fun _ => .bind .get' fun m => ?_
  exact .bind (.forM fun k _ => removeFromConstraint_proper _ _) fun _ => .bind (selectByVariable_con v).preserves fun _ =>
    .forM fun k _ => (removeInteraction_con _ _).preserves

theorem updateVariablesType_proper : Py.Preserves LModel.Proper updateVariablesType := by
  unfold updateVariablesType
  exact .bind .get' fun m => .bind (.forM fun k _ => retypeVar_proper _) fun _ => .bind makeFrame_con.preserves fun _ =>
    .modify' fun m h => (h.same.setRows _).left

theorem genConv_proper (env : Env) (mt : MType) (f o f₂ g₂ o₂ : Coef → Coef) (clk : Nat → ℚ) :
    Py.Preserves LModel.Proper (genConv env mt f o f₂ g₂ o₂ clk) := by
  unfold genConv
  exact .bind (.modify' fun m h => (h.same.setMtype _).left) fun _ => .bind updateVariablesType_proper fun _ =>
    .bind (selectBody_con _).preserves fun hs => .bind (.forM fun a _ => (genLin_con _ _ _ _).preserves) fun _ =>
    .bind (selectBody_con _).preserves fun js => .forM fun a _ => (genQuad_con _ _ _ _ _ _).preserves

theorem toIsing_proper (env : Env) (clk : Nat → ℚ) : Py.Preserves LModel.Proper (toIsing env clk) := by
  intro m hm
  rw [toIsing_run]
  split
  · exact hm
  · exact genConv_proper _ _ _ _ _ _ _ _ m hm

theorem toQubo_proper (env : Env) (clk : Nat → ℚ) : Py.Preserves LModel.Proper (toQubo env clk) := by
  intro m hm
  rw [toQubo_run]
  split
  · exact hm
  · exact genConv_proper _ _ _ _ _ _ _ _ m hm

theorem convertMtype_proper (env : Env) (clk : Nat → ℚ) : Py.Preserves LModel.Proper (convertMtype env clk) := by
  intro m hm
  unfold convertMtype
  py_simp
  cases m.mtype with
  | qubo => exact toIsing_proper _ _ m hm
  | ising => exact toQubo_proper _ _ m hm

theorem mergeVar_proper (p : String × VArray) : Py.Preserves LModel.Proper (mergeVar p) := by
  intro m hm
  unfold mergeVar
  py_simp
  cases dget m.vars p.1 with
  | none => exact (hm.same.setVar _ _).left
  | some a => exact Py.Preserves.bind (appendVars_con _ _).preserves (fun _ => .pure' _) m hm

theorem mapM_mergedCol_keys {a b : LModel} {l : List String} {cols : List (String × List PyVal)}
    (h : l.mapM (mergedCol a b) = .ok cols) : dkeys cols = l := by
  induction l generalizing cols with
  | nil => cases h; rfl
  | cons k l ih =>
    rw [List.mapM_cons] at h
    cases hk : mergedCol a b k with
    | error e => rw [hk] at h; cases h
    | ok c =>
      cases hl : l.mapM (mergedCol a b) with
      | error e => rw [hk, hl] at h; cases h
      | ok cs =>
        rw [hk, hl] at h
        cases h
        show c.1 :: dkeys cs = k :: l
        rw [ih hl]
        congr 1
        unfold mergedCol at hk
        split at hk
        · split at hk
          · cases hk
          · split at hk <;> cases hk <;> rfl
        · split at hk
          · cases hk
          · cases hk; rfl

/-- Both objects are proper. -/
def ProperPair (p : LModel × LModel) : Prop := p.1.Proper ∧ p.2.Proper

theorem onFst_proper {α : Type} {x : Py LModel α} (h : Py.Preserves LModel.Proper x) : Py.Preserves ProperPair (onFst x) := by
  intro p hp
  have := h p.1 hp.1
  unfold onFst
  simp only
  cases hx : x.run p.1 <;> rw [hx] at this <;> exact ⟨this, hp.2⟩

theorem onSnd_proper {α : Type} {x : Py LModel α} (h : Py.Preserves LModel.Proper x) : Py.Preserves ProperPair (onSnd x) := by
  intro p hp
  have := h p.2 hp.2
  unfold onSnd
  simp only
  cases hx : x.run p.2 <;> rw [hx] at this <;> exact ⟨hp.1, this⟩

theorem dupdate_proper {d e : List (String × Constraint)} (hd : (dkeys d).Nodup) (hs : ∀ p ∈ d, p.2.SetVars)
    (he : ∀ p ∈ e, p.2.SetVars) : (dkeys (dupdate d e)).Nodup ∧ ∀ p ∈ dupdate d e, p.2.SetVars := by
  unfold dupdate
  induction e generalizing d with
  | nil => exact ⟨hd, hs⟩
  | cons q e ih =>
    exact ih (nodup_dset _ hd) (Same.sets_dset hs _ (he q (by simp))) fun p hp => he p (by simp [hp])

theorem mergeTables_proper : Py.Preserves ProperPair mergeTables := by
  intro p hp
  unfold mergeTables
  py_simp
  rw [Py.run_liftE]
  cases hc : (mergedAttrs p.1 p.2).mapM (mergedCol p.1 p.2) with
  | error e => exact hp
  | ok cols =>
    refine ⟨{ hp.1 with cols := ?_ }, hp.2⟩
    show (dkeys cols).Nodup
    rw [mapM_mergedCol_keys hc]
    exact nodup_foldl_sadd (nodup_foldl_sadd List.nodup_nil)

theorem mergeRest_proper : Py.Preserves ProperPair mergeRest := by
  intro p hp
  unfold mergeRest
  py_simp
  split
  · exact hp
  · have := dupdate_proper hp.1.cons hp.1.sets hp.2.sets
    exact ⟨{ hp.1 with cons := this.1, sets := this.2, deleted := nodup_foldl_sadd hp.1.deleted,
                       fixed := nodup_foldl_sadd hp.1.fixed }, hp.2⟩

theorem mergeSame_proper : Py.Preserves ProperPair mergeSame := by
  unfold mergeSame
  refine .bind .get' fun p => .ite (fun _ h => h) ?_
  exact .bind (onFst_proper (.forM fun p _ => mergeVar_proper p)) fun _ => .bind mergeTables_proper fun _ => mergeRest_proper

theorem merge_proper (env : Env) (clk : Nat → ℚ) : Py.Preserves ProperPair (merge env clk) := by
  unfold merge
  exact .bind .get' fun p => .ite (.bind (onSnd_proper (convertMtype_proper env clk)) fun _ => mergeSame_proper)
    mergeSame_proper

theorem body_proper (now : ℚ) (c : Constraint) : Py.Preserves LModel.Proper (c.body now) := by
  have hpairs : ∀ l s vs v, Py.Preserves LModel.Proper (addPairsFrom now l s vs v) := fun l s vs v =>
    .forM fun w _ => .ite (addInteraction_con _ _ _ _ _ _ _).preserves (.pure' _)
  cases c with
  | nHot l s vs n => exact .forM fun v _ => .bind (addInteraction_con _ _ _ _ _ _ _).preserves fun _ => hpairs _ _ _ _
  | zeroOrOneHot l s vs => exact .forM fun v _ => hpairs _ _ _ _
  | equality l s v1 v2 =>
    exact .bind (.forM fun v _ => (addInteraction_con _ _ _ _ _ _ _).preserves) fun _ =>
      .bind (.forM fun v _ => hpairs _ _ _ _) fun _ => .bind (.forM fun v _ => hpairs _ _ _ _) fun _ =>
      .forM fun v _ => .forM fun w _ => (addInteraction_con _ _ _ _ _ _ _).preserves

theorem toModel_proper {now : ℚ} {id : String} {c : Constraint} {cm : LModel} (h : c.toModel now id = .ok cm) : cm.Proper := by
  unfold Constraint.toModel at h
  have := body_proper now c _ (new_proper .qubo id)
  cases hr : (c.body now).run (LModel.new .qubo id) with
  | error e m => rw [hr] at h; cases h
  | ok u m => rw [hr] at h this; cases h; exact this

theorem mergeConstraint_proper (env : Env) (clks : Nat → Nat → ℚ) (ids : Nat → String) (p : (String × Constraint) × Nat) :
    Py.Preserves LModel.Proper (mergeConstraint env clks ids p) := by
  intro m hm
  unfold mergeConstraint
  py_simp
  cases h : p.1.2.toModel (clks p.2 0) (ids p.2) with
  | error e => exact hm
  | ok cm =>
    simp only [Py.run_liftE_ok]
    have := merge_proper env (clks p.2) (m, cm) ⟨hm, toModel_proper h⟩
    cases hr : (merge env (clks p.2)).run (m, cm) <;> rw [hr] at this <;> exact this.1

theorem toPhysical_proper (env : Env) (clks : Nat → Nat → ℚ) (ids : Nat → String) (ph : List (String × ℚ)) :
    Py.Preserves LModel.Proper (toPhysical env clks ids ph) := by
  intro m hm
  rw [toPhysical_run]
  have h1 : Py.Preserves LModel.Proper (m.constraints.zipIdx.forM (mergeConstraint env clks ids)) :=
    .forM fun p _ => mergeConstraint_proper env clks ids p
  have h1 := h1 m hm
  cases hr : (m.constraints.zipIdx.forM (mergeConstraint env clks ids)).run m with
  | error e m₁ => rw [hr] at h1; exact h1
  | ok u m₁ =>
    rw [hr] at h1
    simp only
    cases group ph m₁ with
    | error e => exact h1
    | ok g =>
      simp only
      cases m₁.offset.resolve ph with
      | error e => exact h1
      | ok off =>
        simp only
        have h2 : Py.Preserves LModel.Proper (g.willRemove.forM popRow) := .forM fun n _ => popRow_proper n
        have h2 := h2 (restored m m₁) ⟨h1.vars, hm.cols, h1.cons, h1.sets, hm.deleted, hm.fixed⟩
        cases hp : (g.willRemove.forM popRow).run (restored m m₁) with
        | error e m₂ => rw [hp] at h2; exact h2
        | ok u m₂ => rw [hp] at h2; exact (cleaned_same h2.same).left

/-- Constraints added to a model have sets of variables (as all constraint objects do). -/
def SetArgs (_ : LModel) : Op → Prop
  | .addConstraint c => c.SetVars
  | _ => True

theorem step_proper (env : Env) {m : LModel} {op : Op} (hm : m.Proper) (hp : SetArgs m op)
    (ho : ∀ clk o, op = .merge clk o → o.Proper) : (op.step env m).Proper := by
  have hmap : ∀ {α : Type} {x : Py LModel α}, Py.Preserves LModel.Proper x →
      Py.Preserves LModel.Proper (do let _ ← x : Py LModel Unit) := fun hx => .bind hx fun _ => .pure' _
  unfold Op.step
  cases op with
  | «variables» n sh => exact hmap (createVars_con n sh).preserves m hm
  | variablesArray a => exact hmap (variablesArray_con a).preserves m hm
  | append n sh => exact hmap (appendVars_con n sh).preserves m hm
  | add now t n c s a ts => exact (addInteraction_con _ _ _ _ _ _ _).preserves m hm
  | update now t n c s a ts => exact (updateInteraction_con _ _ _ _ _ _ _ _).preserves m hm
  | remove t n => exact (removeInteraction_con _ _).preserves m hm
  | select v => exact hmap (selectByVariable_con v).preserves m hm
  | delete v => exact deleteVariable_proper v m hm
  | fix clk v q => exact (fixVariable_con clk v q).preserves m hm
  | addConstraint c => exact (addConstraint_con c hp).preserves m hm
  | removeConstraint l => exact (removeConstraint_con l).preserves m hm
  | setOffset c => exact (setOffset_con c).preserves m hm
  | fromPyqubo now pm => exact (withSnd_con pm (fromPyqubo_con now)).preserves m hm
  | toIsing clk => exact toIsing_proper env clk m hm
  | toQubo clk => exact toQubo_proper env clk m hm
  | merge clk o =>
    have := merge_proper env clk (m, o) ⟨hm, ho clk o rfl⟩
    simp only [Op.call, withSnd]
    cases hr : (Sawatabi.merge env clk).run (m, o) <;> rw [hr] at this <;> exact this.1
  | toPhysical a b c => exact hmap (toPhysical_proper env a b c) m hm

theorem made_proper {env : Env} {m : LModel} (h : Made env SetArgs m) : m.Proper := by
  induction h with
  | new mt id => exact new_proper mt id
  | step m op _ hp _ ih iho => exact step_proper env ih hp fun clk o e => iho clk o e

end Sawatabi
