import Verif.Lemmas.ToPhysical

/-!
# The attribute keys introduced by `add_interaction` always have columns

Unlike `Rect` this is kept by all calls.
-/

namespace Sawatabi

/-- The attribute keys that `add_interaction` introduced are distinct and have columns. -/
def LModel.Registered (m : LModel) : Prop := m.attrs.Nodup ∧ ∀ k ∈ m.attrs, k ∈ dkeys m.attrCols

abbrev KeepsReg {α : Type} (x : Py LModel α) : Prop := Py.Preserves LModel.Registered x

/-- A change that does not touch the columns. -/
theorem reg_same {m m' : LModel} (h : m.Registered) (hc : m'.attrCols = m.attrCols) (ha : m'.attrs = m.attrs) :
    m'.Registered := by
  unfold LModel.Registered
  rw [hc, ha]
  exact h

theorem dset_keeps {κ ν : Type} [DecidableEq κ] {d : List (κ × ν)} {a : List κ} (h : ∀ k ∈ a, k ∈ dkeys d) (k : κ) (v : ν) :
    ∀ k' ∈ a, k' ∈ dkeys (dset d k v) := fun k' hk => (mem_dkeys_dset _).mpr (Or.inr (h k' hk))

theorem pushNan_reg (k : String) : KeepsReg (pushNan k) := by
  intro m hm
  unfold pushNan
  py_simp
  cases dget m.attrCols k with
  | none => exact hm
  | some col => exact ⟨hm.1, dset_keeps hm.2 _ _⟩

theorem setLastAttr_reg (kv : String × PyVal) : KeepsReg (setLastAttr kv) := by
  intro m hm
  unfold setLastAttr
  cases hd : dget m.attrCols (attrKey kv.1) with
  | none =>
    have hnk := (dget_eq_none_iff _ _).mp hd
    have h1 : (m.attrs ++ [attrKey kv.1]).Nodup :=
      List.Nodup.append hm.1 (by simp) (by simpa using fun h => hnk (hm.2 _ h))
    have h2 : ∀ v, ∀ k ∈ m.attrs ++ [attrKey kv.1], k ∈ dkeys (dset m.attrCols (attrKey kv.1) v) := by
      intro v k hk
      rw [List.mem_append, List.mem_singleton] at hk
      rcases hk with hk | rfl
      · exact dset_keeps hm.2 _ _ k hk
      · exact (mem_dkeys_dset _).mpr (Or.inl rfl)
    py_simp
    simp only [hd, Option.isNone_none, if_true, dget_dset_self]
    cases (List.replicate (m.length + 1).toNat PyVal.nan) with
    | nil => exact ⟨h1, h2 _⟩
    | cons x xs => exact ⟨h1, dset_keeps (h2 _) _ _⟩
  | some col =>
    py_simp
    simp only [hd, Option.isNone_some, Bool.false_eq_true, if_false]
    cases col with
    | nil => exact hm
    | cons x xs => exact ⟨hm.1, dset_keeps hm.2 _ _⟩

theorem setAttrAt_reg (idx : Nat) (kv : String × PyVal) : KeepsReg (setAttrAt idx kv) := by
  intro m hm
  unfold setAttrAt
  cases hd : dget m.attrCols (attrKey kv.1) with
  | none =>
    py_simp
    simp only [hd, Option.isNone_none, if_true, dget_dset_self]
    split
    · exact ⟨hm.1, dset_keeps (dset_keeps hm.2 _ _) _ _⟩
    · exact ⟨hm.1, dset_keeps hm.2 _ _⟩
  | some col =>
    py_simp
    simp only [hd, Option.isNone_some, Bool.false_eq_true, if_false]
    split
    · exact ⟨hm.1, dset_keeps hm.2 _ _⟩
    · exact hm

theorem add_reg (now : ℚ) (target : PyTarget) (name : PyName) (c s : PyCoef) (a : PyAttrs) (ts : PyTs) :
    KeepsReg (addInteraction now target name c s a ts) := by
  intro m hm
  rw [addInteraction_run]
  split
  · exact hm
  · rename_i p hp
    have : KeepsReg (addTail p.1 p.2) := by
      unfold addTail
      exact .bind (.modify' fun s h => reg_same h rfl rfl) fun _ => .bind .get' fun s =>
        .bind (.forM fun k _ => pushNan_reg k) fun _ => .bind (.forM fun kv _ => setLastAttr_reg kv) fun _ =>
        .modify' fun s h => reg_same h rfl rfl
    exact this m hm

theorem remove_reg (target : PyTarget) (name : PyName) : KeepsReg (removeInteraction target name) := by
  intro m hm
  rw [removeInteraction_run]
  split
  · exact hm
  · split
    · exact hm
    · exact reg_same hm rfl rfl

theorem updateAny_reg (importTime now : ℚ) (target : PyTarget) (name : PyName) (c s : Option PyCoef)
    (a : PyAttrs) (ts : Option PyTs) : KeepsReg (updateInteraction importTime now target name c s a ts) := by
  intro m hm
  rw [updateInteraction_run]
  split
  · exact hm
  · exact add_reg _ _ _ _ _ _ _ m hm
  · rename_i idx c' s' ats ts' hc
    rw [writeRow_run]
    have : KeepsReg (ats.forM (setAttrAt idx)) := .forM fun kv _ => setAttrAt_reg idx kv
    have := this { m with rows := m.rows.modify idx (updRow₁ c' s') } (reg_same hm rfl rfl)
    cases hr : (ats.forM (setAttrAt idx)).run { m with rows := m.rows.modify idx (updRow₁ c' s') } with
    | ok u t => rw [hr] at this; exact reg_same this rfl rfl
    | error e t => rw [hr] at this; exact this

theorem update_reg (importTime now : ℚ) (target : PyTarget) (name : PyName) (c s : Option PyCoef)
    (ts : Option PyTs) : KeepsReg (updateInteraction importTime now target name c s .none ts) :=
  updateAny_reg _ _ _ _ _ _ _ _

theorem new_reg (mt : MType) (id : String) : (LModel.new mt id).Registered :=
  ⟨List.nodup_nil, by simp [LModel.new]⟩

theorem removeFromConstraint_reg (v : PVar) (l : String) : KeepsReg (removeFromConstraint v l) := by
  intro m hm
  unfold removeFromConstraint
  py_simp
  cases dget m.constraints l with
  | none => exact hm
  | some c =>
    simp only [Py.run_bind]
    cases c.removeVariable v with
    | error e => exact hm
    | ok c' => exact reg_same hm rfl rfl

theorem delete_reg (v : PVar) : KeepsReg (deleteVariable v) := by
  unfold deleteVariable
  refine .bind (.modify' fun s h => reg_same h rfl rfl) fun _ => .bind .get' fun m =>
    .bind (.forM fun _ _ => removeFromConstraint_reg _ _) fun _ =>
    .bind (selectByVariable_inv _) fun names => .forM fun n _ => remove_reg _ _

theorem fixOne_reg (now : ℚ) (v : PVar) (value : ℚ) (s : String) : KeepsReg (fixOne now v value s) := by
  unfold fixOne
  refine .bind_get fun m hm => ?_
  rw [Py.run_bind, Py.run_liftE]
  cases m.indexOf s with
  | error e => exact hm
  | ok idx =>
    simp only
    cases m.rows[idx]? with
    | none => exact hm
    | some r =>
      simp only
      cases r.inter with
      | lin w =>
        simp only [Py.run_bind, Py.run_set]
        exact remove_reg _ _ _ (reg_same hm rfl rfl)
      | quad a b =>
        simp only
        have hcont : ∀ keep : PVar, KeepsReg (do
            addInteraction now (.var keep) (.str (keep.label ++ " (before fixed: " ++ s ++ ")"))
              (match ((Coef.num value).mul r.coef).mul r.scale with
                | .num q => PyCoef.num q
                | .expr e => PyCoef.expr e) (.num 1) .none .none
            removeInteraction .none (.str s)) := fun keep =>
          .bind (add_reg _ _ _ _ _ _ _) fun _ => remove_reg _ _
        by_cases h1 : a.label = v.label
        · simp only [h1, if_true]
          exact hcont b m hm
        · by_cases h2 : b.label = v.label
          · simp only [h1, h2, if_true, if_false]
            exact hcont a m hm
          · simp only [h1, h2, if_false]
            exact hm

theorem fix_reg (clk : Nat → ℚ) (v : PVar) (value : PyNum) : KeepsReg (fixVariable clk v value) := by
  unfold fixVariable
  refine .bind .get' fun m => .bind (.liftE' _) fun q =>
    .bind (.modify' fun s h => reg_same h rfl rfl) fun _ =>
    .bind (selectByVariable_inv _) fun names => .ite (.pure' _) (.ite ?_ ?_)
  · exact .forM fun n _ => remove_reg _ _
  · exact .forM fun n _ => fixOne_reg _ _ _ _

theorem retypeVar_reg (n : String) : KeepsReg (retypeVar n) := by
  unfold retypeVar
  refine .bind_get fun m hm => ?_
  cases dget m.vars n with
  | none => exact hm
  | some a =>
    simp only [Py.run_bind, Py.run_liftE]
    cases arrayCreate n (a.shape.map Int.ofNat) m.mtype.vtype with
    | error e => exact hm
    | ok a' => exact reg_same hm rfl rfl

theorem updateVariablesType_reg : KeepsReg updateVariablesType := by
  unfold updateVariablesType
  exact .bind .get' fun m => .bind (.forM fun n _ => retypeVar_reg n) fun _ =>
    .bind makeFrame_inv fun _ => .modify' fun s h => reg_same h rfl rfl

theorem toIsing_reg (env : Env) (clk : Nat → ℚ) : KeepsReg (toIsing env clk) := by
  unfold toIsing
  refine .bind .get' fun m => .ite ?_ (.pure' _)
  refine .bind (.modify' fun s h => reg_same h rfl rfl) fun _ =>
    .bind updateVariablesType_reg fun _ =>
    .bind (selectBody_inv _) fun hs => .bind (.forM fun h _ => ?_) fun _ =>
    .bind (selectBody_inv _) fun js => .forM fun p _ => ?_
  · exact .bind (update_reg _ _ _ _ _ _ _) fun _ => .modify' fun s h => reg_same h rfl rfl
  · unfold toIsingQuad
    split
    · exact .throw' _
    · exact .bind (update_reg _ _ _ _ _ _ _) fun _ => .bind (add_reg _ _ _ _ _ _ _) fun _ =>
        .bind (add_reg _ _ _ _ _ _ _) fun _ => .modify' fun s h => reg_same h rfl rfl

theorem toQubo_reg (env : Env) (clk : Nat → ℚ) : KeepsReg (toQubo env clk) := by
  unfold toQubo
  refine .bind .get' fun m => .ite ?_ (.pure' _)
  refine .bind (.modify' fun s h => reg_same h rfl rfl) fun _ =>
    .bind updateVariablesType_reg fun _ =>
    .bind (selectBody_inv _) fun hs => .bind (.forM fun h _ => ?_) fun _ =>
    .bind (selectBody_inv _) fun js => .forM fun p _ => ?_
  · exact .bind (update_reg _ _ _ _ _ _ _) fun _ => .modify' fun s h => reg_same h rfl rfl
  · unfold toQuboQuad
    split
    · exact .throw' _
    · exact .bind (update_reg _ _ _ _ _ _ _) fun _ => .bind (add_reg _ _ _ _ _ _ _) fun _ =>
        .bind (add_reg _ _ _ _ _ _ _) fun _ => .modify' fun s h => reg_same h rfl rfl

theorem convertMtype_reg (env : Env) (clk : Nat → ℚ) : KeepsReg (convertMtype env clk) := by
  unfold convertMtype
  refine .bind .get' fun m => ?_
  split
  · exact toIsing_reg _ _
  · exact toQubo_reg _ _

theorem varsRel_reg {m m' : LModel} (h : VarsRel m m') (hm : m.Registered) : m'.Registered := by
  obtain ⟨vs, rfl⟩ := h
  exact reg_same hm rfl rfl

theorem mergeSame_reg (a b : LModel) (ha : a.Registered) (hb : b.Registered) :
    (mergeSame.run (a, b)).state.1.Registered ∧ (mergeSame.run (a, b)).state.2 = b := by
  rw [mergeSame_run]
  split
  · exact ⟨ha, rfl⟩
  · have hv := mergeVars_rel b.vars a
    cases h : (b.vars.forM mergeVar).run a with
    | error e a₁ => rw [h] at hv; exact ⟨varsRel_reg hv ha, rfl⟩
    | ok u a₁ =>
      rw [h] at hv
      have ha₁ : a₁.Registered := varsRel_reg hv ha
      simp only
      cases hc : (mergedAttrs a₁ b).mapM (mergedCol a₁ b) with
      | error e => exact ⟨ha₁, rfl⟩
      | ok cols =>
        have hkeys : dkeys cols = mergedAttrs a₁ b := by
          have h2 := mapM_except_ok hc
          clear hc
          unfold dkeys
          generalize mergedAttrs a₁ b = l at h2
          induction h2 with
          | nil => rfl
          | cons hk _ ih => simp [mergedCol_fst hk, ih]
        have hr : (mergedTable a₁ b cols).Registered := ⟨nodup_mergedAttrs a₁ b, fun k hk => by
          change k ∈ dkeys cols
          rw [hkeys]
          exact hk⟩
        simp only
        split
        · exact ⟨hr, rfl⟩
        · exact ⟨reg_same hr rfl rfl, rfl⟩

theorem merge_reg (env : Env) (clk : Nat → ℚ) (a b : LModel) (ha : a.Registered) (hb : b.Registered) :
    ((merge env clk).run (a, b)).state.1.Registered ∧ ((merge env clk).run (a, b)).state.2.Registered := by
  rw [merge_run]
  split
  · obtain ⟨h1, h2⟩ := mergeSame_reg a b ha hb
    exact ⟨h1, by rw [h2]; exact hb⟩
  · have hc := convertMtype_reg env clk b hb
    cases h : (convertMtype env clk).run b with
    | error e b₁ => rw [h] at hc; exact ⟨ha, hc⟩
    | ok u b₁ =>
      rw [h] at hc
      obtain ⟨h1, h2⟩ := mergeSame_reg a b₁ ha hc
      exact ⟨h1, by rw [h2]; exact hc⟩

/-! ## Constraint models -/

theorem addLin_reg (now : ℚ) (l : String) (v : PVar) (c : ℚ) : KeepsReg (addLin now l v c) :=
  add_reg _ _ _ _ _ _ _

theorem addPairsFrom_reg (now : ℚ) (l : String) (s : ℚ) (vs : List PVar) (v : PVar) :
    KeepsReg (addPairsFrom now l s vs v) := by
  unfold addPairsFrom
  exact .forM fun w _ => .ite (add_reg _ _ _ _ _ _ _) (.pure' _)

theorem body_reg (now : ℚ) (c : Constraint) : KeepsReg (c.body now) := by
  cases c with
  | nHot l s vs n => exact .forM fun v _ => .bind (addLin_reg _ _ _ _) fun _ => addPairsFrom_reg _ _ _ _ _
  | zeroOrOneHot l s vs => exact .forM fun v _ => addPairsFrom_reg _ _ _ _ _
  | equality l s v1 v2 =>
    exact .bind (.forM fun v _ => addLin_reg _ _ _ _) fun _ =>
      .bind (.forM fun v _ => addPairsFrom_reg _ _ _ _ _) fun _ =>
      .bind (.forM fun v _ => addPairsFrom_reg _ _ _ _ _) fun _ =>
      .forM fun v _ => .forM fun w _ => add_reg _ _ _ _ _ _ _

theorem toModel_reg {now : ℚ} {id : String} {c : Constraint} {cm : LModel}
    (h : c.toModel now id = .ok cm) : cm.Registered := by
  unfold Constraint.toModel at h
  have := body_reg now c _ (new_reg .qubo id)
  split at h
  · rename_i hr
    cases h
    rw [hr] at this
    exact this
  · cases h

theorem mergeConstraint_reg (env : Env) (clks : Nat → Nat → ℚ) (ids : Nat → String)
    (p : (String × Constraint) × Nat) : KeepsReg (mergeConstraint env clks ids p) := by
  intro m hm
  unfold mergeConstraint
  py_simp
  cases h : p.1.2.toModel (clks p.2 0) (ids p.2) with
  | error e => exact hm
  | ok cm =>
    simp only [Py.run_liftE_ok]
    have := (merge_reg env (clks p.2) m cm hm (toModel_reg h)).1
    cases hr : (merge env (clks p.2)).run (m, cm) with
    | ok u t => rw [hr] at this; exact this
    | error e t => rw [hr] at this; exact this

theorem popCol_reg (idx : Nat) (k : String) : KeepsReg (popCol idx k) := by
  intro m hm
  unfold popCol
  py_simp
  cases dget m.attrCols k with
  | none => exact hm
  | some col =>
    simp only
    split
    · exact ⟨hm.1, dset_keeps hm.2 _ _⟩
    · exact hm

theorem popRow_reg (n : String) : KeepsReg (popRow n) := by
  unfold popRow
  exact .bind .get' fun m => .bind (.liftE' _) fun idx => .bind (.modify' fun s h => reg_same h rfl rfl) fun _ =>
    .bind (.forM fun k _ => popCol_reg idx k) fun _ => .modify' fun s h => reg_same h rfl rfl

theorem restored_reg {o m : LModel} (h : o.Registered) : (restored o m).Registered := reg_same h rfl rfl

theorem markClean_reg {m : LModel} (h : m.Registered) : (markClean m).Registered := reg_same h rfl rfl

theorem toPhysical_reg (env : Env) (clks : Nat → Nat → ℚ) (ids : Nat → String) (ph : List (String × ℚ)) :
    KeepsReg (toPhysical env clks ids ph) := by
  intro m hm
  rw [toPhysical_run]
  have h1 : KeepsReg (m.constraints.zipIdx.forM (mergeConstraint env clks ids)) :=
    .forM fun p _ => mergeConstraint_reg env clks ids p
  have h1 := h1 m hm
  cases hr : (m.constraints.zipIdx.forM (mergeConstraint env clks ids)).run m with
  | error e m₁ => rw [hr] at h1; exact h1
  | ok u m₁ =>
    rw [hr] at h1
    simp only
    cases group ph m₁ with
    | error e => exact h1
    | ok g =>
      simp only
      cases m₁.offset.resolve ph with
      | error e => exact h1
      | ok off =>
        simp only
        have h2 : KeepsReg (g.willRemove.forM popRow) := .forM fun n _ => popRow_reg n
        have h2 := h2 (restored m m₁) (restored_reg hm)
        cases hp : (g.willRemove.forM popRow).run (restored m m₁) with
        | error e m₂ => rw [hp] at h2; exact h2
        | ok u m₂ => rw [hp] at h2; exact markClean_reg h2

end Sawatabi
