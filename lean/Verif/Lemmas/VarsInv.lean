import Verif.Lemmas.Arrays
import Verif.Lemmas.Frame

/-!
# Histories keep the variable dictionary well formed
-/

namespace Sawatabi

theorem varsOk_congr {m m' : LModel} (hv : m'.vars = m.vars) (ht : m'.mtype = m.mtype) (h : VarsOk m) : VarsOk m' :=
  ⟨by rw [hv]; exact h.keys, fun n a ha => by rw [hv] at ha; rw [ht]; exact h.arrays n a ha⟩

theorem varsOk_table : TableFree VarsOk := fun _ _ _ _ _ h => ⟨h.keys, h.arrays⟩
theorem varsOk_offset : OffsetFree VarsOk := fun _ _ h => ⟨h.keys, h.arrays⟩

theorem VarsOk.get {m : LModel} (h : VarsOk m) {n : String} {a : VArray} (ha : dget m.vars n = some a) :
    ArrayOk m.mtype.vtype n a := h.arrays n a (dget_mem ha)

/-- The variable loop of a conversion. -/
theorem retype_varsOk {m : LModel} (h : VarsOk m) (mt : MType) :
    ∃ m', ((dkeys m.vars).forM retypeVar).run { m with mtype := mt } = .ok ⟨⟩ m' ∧ VarsOk m' ∧ m'.mtype = mt ∧
      dkeys m'.vars = dkeys m.vars ∧
      ∀ n a, dget m.vars n = some a → dget m'.vars n = some (stdArray n a.shape mt.vtype) := by
  obtain ⟨m', hm'⟩ := retypeLoop_succeeds (dkeys m.vars) (m := { m with mtype := mt }) (by
    intro n hn
    obtain ⟨a, ha⟩ := (dget_isSome_iff _ _).mpr hn
    exact ⟨a, _, ha, arrayCreate_of_ok (h.get ha)⟩)
  refine ⟨m', hm', ?_⟩
  obtain ⟨vs, rfl, hk, _, hall⟩ := retypeLoop_ok _ hm'
  have hget : ∀ n a, dget m.vars n = some a → dget vs n = some (stdArray n a.shape mt.vtype) := by
    intro n a ha
    obtain ⟨b, b', h1, h2, h3⟩ := hall n ((dget_isSome_iff _ _).mp ⟨a, ha⟩)
    simp only at h1 h3
    rw [ha] at h1
    cases h1
    rw [arrayCreate_of_ok (h.get ha)] at h3
    cases h3
    exact h2
  refine ⟨⟨by rw [hk]; exact h.keys, ?_⟩, rfl, hk, hget⟩
  intro n a ha
  have hn : n ∈ dkeys m.vars := by
    simp only at hk
    rw [← hk]
    exact List.mem_map_of_mem (f := (·.1)) ha
  obtain ⟨b, hb⟩ := (dget_isSome_iff _ _).mpr hn
  have h1 := hget n b hb
  rw [dget_of_mem (by rw [hk]; exact h.keys) ha] at h1
  cases h1
  have := h.get hb
  exact ⟨stdArray_isArray _ _ _, this.2.1, this.2.2.1, this.2.2.2⟩

theorem genConv_varsOk {m : LModel} (h : VarsOk m) (env : Env) (mt : MType) (f o f₂ g₂ o₂ : Coef → Coef) (clk : Nat → ℚ) :
    VarsOk ((genConv env mt f o f₂ g₂ o₂ clk).run m).state := by
  apply genConv_frame varsOk_table varsOk_offset
  obtain ⟨m', hm', hok, _⟩ := retype_varsOk h mt
  rw [hm']
  exact hok

theorem genConv_mtype {m : LModel} (h : VarsOk m) (env : Env) (mt : MType) (f o f₂ g₂ o₂ : Coef → Coef) (clk : Nat → ℚ) :
    ((genConv env mt f o f₂ g₂ o₂ clk).run m).state.mtype = mt := by
  refine genConv_frame (I := fun m => m.mtype = mt) (fun _ _ _ _ _ h => h) (fun _ _ h => h) _ _ _ _ _ _ _ _ _ ?_
  obtain ⟨m', hm', _, hmt, _⟩ := retype_varsOk h mt
  rw [hm']
  exact hmt

theorem toIsing_varsOk (env : Env) (clk : Nat → ℚ) : Py.Preserves VarsOk (toIsing env clk) := by
  intro m hm
  rw [toIsing_run]
  split
  · exact hm
  · exact genConv_varsOk hm _ _ _ _ _ _ _ _

theorem toQubo_varsOk (env : Env) (clk : Nat → ℚ) : Py.Preserves VarsOk (toQubo env clk) := by
  intro m hm
  rw [toQubo_run]
  split
  · exact hm
  · exact genConv_varsOk hm _ _ _ _ _ _ _ _

/-- The other model type. -/
def MType.other : MType → MType
  | .ising => .qubo
  | .qubo => .ising

theorem MType.eq_other {a b : MType} (h : a ≠ b) : a = b.other := by cases a <;> cases b <;> simp_all [MType.other]

theorem convertMtype_run (env : Env) (clk : Nat → ℚ) (m : LModel) :
    (convertMtype env clk).run m = match m.mtype with
      | .qubo => (toIsing env clk).run m
      | .ising => (toQubo env clk).run m := by
  unfold convertMtype
  rw [Py.run_bind, Py.run_get]
  simp only
  cases m.mtype <;> rfl

theorem convertMtype_varsOk (env : Env) (clk : Nat → ℚ) (m : LModel) (h : VarsOk m) :
    VarsOk ((convertMtype env clk).run m).state ∧ ((convertMtype env clk).run m).state.mtype = m.mtype.other := by
  rw [convertMtype_run]
  cases hm : m.mtype with
  | qubo =>
    refine ⟨toIsing_varsOk env clk m h, ?_⟩
    simp only [toIsing_run, hm, MType.other]
    exact genConv_mtype h _ _ _ _ _ _ _ _
  | ising =>
    refine ⟨toQubo_varsOk env clk m h, ?_⟩
    simp only [toQubo_run, hm, MType.other]
    exact genConv_mtype h _ _ _ _ _ _ _ _

/-! ## merge -/

theorem mergeVar_run (p : String × VArray) (m : LModel) :
    (mergeVar p).run m = match dget m.vars p.1 with
      | none => .ok ⟨⟩ { m with vars := dset m.vars p.1 p.2 }
      | some cur =>
        match (appendVars p.1 (elementwiseSub (elementwiseMax (p.2.shape.map Int.ofNat) (cur.shape.map Int.ofNat))
          (cur.shape.map Int.ofNat))).run m with
        | .ok _ t => .ok ⟨⟩ t
        | .error e t => .error e t := by
  unfold mergeVar
  py_simp
  cases dget m.vars p.1 with
  | none => rfl
  | some cur =>
    simp only [Py.run_bind]
    generalize (appendVars _ _).run m = r
    cases r <;> rfl

theorem mergeVar_varsOk (p : String × VArray) (m : LModel) (h : VarsOk m) (hp : ArrayOk m.mtype.vtype p.1 p.2) :
    VarsOk ((mergeVar p).run m).state := by
  rw [mergeVar_run]
  cases dget m.vars p.1 with
  | none => exact h.set hp rfl
  | some cur =>
    simp only
    have := appendVars_ok p.1 (elementwiseSub (elementwiseMax (p.2.shape.map Int.ofNat) (cur.shape.map Int.ofNat))
          (cur.shape.map Int.ofNat)) m h
    split
    · rename_i hr; rw [hr] at this; exact this
    · rename_i hr; rw [hr] at this; exact this

theorem mergeSame_varsOk {a b : LModel} (ha : VarsOk a) (hb : VarsOk b) (ht : a.mtype = b.mtype) :
    VarsOk (mergeSame.run (a, b)).state.1 := by
  rw [mergeSame_run]
  split
  · exact ha
  · have key : ∀ (vs : List (String × VArray)) (m : LModel), VarsOk m ∧ m.mtype = a.mtype →
        (∀ p ∈ vs, ArrayOk a.mtype.vtype p.1 p.2) →
        VarsOk ((vs.forM mergeVar).run m).state ∧ ((vs.forM mergeVar).run m).state.mtype = a.mtype := by
      intro vs m hm hvs
      refine Py.Preserves.forM (I := fun m => VarsOk m ∧ m.mtype = a.mtype) (fun p hp m hm => ⟨?_, ?_⟩) m hm
      · apply mergeVar_varsOk p m hm.1
        rw [hm.2]
        exact hvs p hp
      · obtain ⟨vs, he⟩ := mergeVar_rel p m
        rw [he]
        exact hm.2
    have hv := key b.vars a ⟨ha, rfl⟩ (by
      intro p hp
      rw [ht]
      exact hb.arrays p.1 p.2 hp)
    cases h : (b.vars.forM mergeVar).run a with
    | error e a₁ => rw [h] at hv; exact hv.1
    | ok u a₁ =>
      rw [h] at hv
      simp only
      cases (mergedAttrs a₁ b).mapM (mergedCol a₁ b) with
      | error e => exact hv.1
      | ok cols =>
        simp only
        split
        · exact varsOk_congr (m := a₁) rfl rfl hv.1
        · exact varsOk_congr (m := a₁) rfl rfl hv.1

theorem merge_varsOk (env : Env) (clk : Nat → ℚ) {a b : LModel} (ha : VarsOk a) (hb : VarsOk b) :
    VarsOk ((merge env clk).run (a, b)).state.1 := by
  rw [merge_run]
  by_cases h : a.mtype = b.mtype
  · rw [if_pos h]
    exact mergeSame_varsOk ha hb h
  · rw [if_neg h]
    obtain ⟨h1, h2⟩ := convertMtype_varsOk env clk b hb
    cases hr : (convertMtype env clk).run b with
    | error e b₁ => exact ha
    | ok u b₁ =>
      rw [hr] at h1 h2
      exact mergeSame_varsOk ha h1 (by rw [MType.eq_other h]; exact h2.symm)

theorem new_varsOk (mt : MType) (id : String) : VarsOk (LModel.new mt id) := ⟨List.nodup_nil, by simp [LModel.new]⟩

theorem toModel_varsOk {now : ℚ} {id : String} {c : Constraint} {cm : LModel} (h : c.toModel now id = .ok cm) :
    VarsOk cm := by
  obtain ⟨_, rfl⟩ := Constraint.toModel_ok h
  exact varsOk_congr (m := LModel.new .qubo id) rfl rfl (new_varsOk _ _)

theorem mergeConstraint_varsOk (env : Env) (clks : Nat → Nat → ℚ) (ids : Nat → String)
    (p : (String × Constraint) × Nat) : Py.Preserves VarsOk (mergeConstraint env clks ids p) := by
  intro m hm
  unfold mergeConstraint
  py_simp
  cases h : p.1.2.toModel (clks p.2 0) (ids p.2) with
  | error e => exact hm
  | ok cm =>
    simp only [Py.run_liftE_ok]
    have := merge_varsOk env (clks p.2) hm (toModel_varsOk h)
    cases hr : (merge env (clks p.2)).run (m, cm) with
    | ok u t => rw [hr] at this; exact this
    | error e t => rw [hr] at this; exact this

theorem toPhysical_varsOk (env : Env) (clks : Nat → Nat → ℚ) (ids : Nat → String) (ph : List (String × ℚ)) :
    Py.Preserves VarsOk (toPhysical env clks ids ph) := by
  intro m hm
  rw [toPhysical_run]
  have h1 : Py.Preserves VarsOk (m.constraints.zipIdx.forM (mergeConstraint env clks ids)) :=
    .forM fun p _ => mergeConstraint_varsOk env clks ids p
  have h1 := h1 m hm
  cases hr : (m.constraints.zipIdx.forM (mergeConstraint env clks ids)).run m with
  | error e m₁ => rw [hr] at h1; exact h1
  | ok u m₁ =>
    rw [hr] at h1
    simp only
    cases group ph m₁ with
    | error e => exact h1
    | ok g =>
      simp only
      cases m₁.offset.resolve ph with
      | error e => exact h1
      | ok off =>
        simp only
        have h2 : Py.Preserves VarsOk (g.willRemove.forM popRow) := .forM fun n _ => popRow_frame varsOk_table n
        have h2 := h2 (restored m m₁) (varsOk_congr (m := m₁) rfl rfl h1)
        cases hp : (g.willRemove.forM popRow).run (restored m m₁) with
        | error e m₂ => rw [hp] at h2; exact h2
        | ok u m₂ => rw [hp] at h2; exact varsOk_congr (m := m₂) rfl rfl h2

/-- Every call keeps the dictionary well formed, except registering a foreign array. -/
theorem step_varsOk (env : Env) (op : Op) (m : LModel) (hm : VarsOk m) (h1 : ∀ a, op ≠ .variablesArray a)
    (h2 : ∀ clk o, op = .merge clk o → VarsOk o) : VarsOk (op.step env m) := by
  have hmap : ∀ {α : Type} {x : Py LModel α}, Py.Preserves VarsOk x →
      Py.Preserves VarsOk (do let _ ← x : Py LModel Unit) := fun hx => .bind hx fun _ => .pure' _
  unfold Op.step
  cases op with
  | «variables» n sh => exact hmap (createVars_ok n sh) m hm
  | variablesArray a => exact absurd rfl (h1 a)
  | append n sh => exact hmap (appendVars_ok n sh) m hm
  | add now t n c s a ts => exact add_frame varsOk_table _ _ _ _ _ _ _ m hm
  | update now t n c s a ts => exact update_frame varsOk_table _ _ _ _ _ _ _ _ m hm
  | remove t n => exact remove_frame varsOk_table _ _ m hm
  | select v => exact hmap (selectByVariable_inv v) m hm
  | delete v =>
    exact delete_frame varsOk_table (fun _ _ h => ⟨h.keys, h.arrays⟩) v (fun _ h => ⟨h.keys, h.arrays⟩) m hm
  | fix clk v q => exact fix_frame varsOk_table varsOk_offset clk v q (fun _ h => ⟨h.keys, h.arrays⟩) m hm
  | addConstraint c => exact ⟨hm.keys, hm.arrays⟩
  | removeConstraint l =>
    simp only [Op.call, removeConstraint]
    py_simp
    split
    · exact hm
    · exact ⟨hm.keys, hm.arrays⟩
  | setOffset c => exact ⟨hm.keys, hm.arrays⟩
  | fromPyqubo now pm =>
    exact withSnd_inv pm (fromPyqubo_inv (I := VarsOk) (add_frame varsOk_table) varsOk_offset now) m hm
  | toIsing clk => exact toIsing_varsOk env clk m hm
  | toQubo clk => exact toQubo_varsOk env clk m hm
  | merge clk o =>
    have := merge_varsOk env clk hm (h2 clk o rfl)
    simp only [Op.call, withSnd]
    cases hr : (merge env clk).run (m, o) with
    | ok u t => rw [hr] at this; exact this
    | error e t => rw [hr] at this; exact this
  | toPhysical a b c => exact hmap (toPhysical_varsOk env a b c) m hm

end Sawatabi
