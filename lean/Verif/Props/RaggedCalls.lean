import Verif.Props.Acceptance
import Verif.Props.Ragged
import Verif.Lemmas.Registered

/-!
# C03, C85 on tables that need not be rectangular
-/

namespace Sawatabi.Props

variable {m m' : LModel} {now importTime : ℚ} {target : PyTarget} {name : PyName}

/-- `add_interaction` can write the attribute: a new column has a line, a column that an update introduced is not empty. -/
def AddFits (m : LModel) (k : String) : Prop :=
  (dget m.attrCols ("attributes." ++ k) = none ∧ 0 ≤ m.length) ∨
  ∃ col, dget m.attrCols ("attributes." ++ k) = some col ∧ ("attributes." ++ k ∈ m.attrs ∨ col ≠ [])

/-- `update_interaction` can write the attribute in the line `idx`: its column, or a new one, is long enough. -/
def UpdateFits (m : LModel) (idx : Nat) (k : String) : Prop :=
  (dget m.attrCols ("attributes." ++ k) = none ∧ (idx : ℤ) < m.length) ∨
  ∃ col, dget m.attrCols ("attributes." ++ k) = some col ∧ idx < col.length

/-! ## The loops -/

/-- The condition for `setLastAttr`. -/
def LastFits (m : LModel) (kv : String × PyVal) : Prop :=
  (dget m.attrCols (attrKey kv.1) = none ∧ 0 ≤ m.length) ∨ ∃ col, dget m.attrCols (attrKey kv.1) = some col ∧ col ≠ []

theorem setLastAttr_fits (kv : String × PyVal) (m : LModel) (h : LastFits m kv) :
    ∃ m', (setLastAttr kv).run m = .ok ⟨⟩ m' ∧ m'.rows = m.rows ∧ m'.length = m.length ∧
      (∃ col, dget m'.attrCols (attrKey kv.1) = some col ∧ col ≠ []) ∧
      ∀ k, k ≠ attrKey kv.1 → dget m'.attrCols k = dget m.attrCols k := by
  unfold setLastAttr
  rcases h with ⟨h, hl⟩ | ⟨col, h, hne⟩
  · obtain ⟨n, hn⟩ : ∃ n, (m.length + 1).toNat = n + 1 := ⟨m.length.toNat, by omega⟩
    py_simp
    simp only [h, Option.isNone_none, if_true, dget_dset_self, hn, List.replicate_succ]
    refine ⟨_, rfl, rfl, rfl, ⟨_, dget_dset_self .., by simp⟩, fun k hk => ?_⟩
    simp only [dget_dset_ne _ _ hk]
  · py_simp
    simp only [h, Option.isNone_some, Bool.false_eq_true, if_false]
    cases col with
    | nil => exact absurd rfl hne
    | cons x xs =>
      refine ⟨_, rfl, rfl, rfl, ⟨_, dget_dset_self .., by simp⟩, fun k hk => ?_⟩
      simp only [dget_dset_ne _ _ hk]

theorem setLastAttr_raises (kv : String × PyVal) (m : LModel) (h : ¬ LastFits m kv) :
    ∃ m', (setLastAttr kv).run m = .error .indexError m' ∧ m'.rows = m.rows ∧ m'.length = m.length := by
  unfold setLastAttr
  cases hd : dget m.attrCols (attrKey kv.1) with
  | none =>
    have hl : (m.length + 1).toNat = 0 := by
      have : ¬ 0 ≤ m.length := fun hl => h (.inl ⟨hd, hl⟩)
      omega
    py_simp
    simp only [hd, Option.isNone_none, if_true, dget_dset_self, hl, List.replicate_zero]
    exact ⟨_, rfl, rfl, rfl⟩
  | some col =>
    have : col = [] := by
      by_contra hne
      exact h (.inr ⟨col, hd, hne⟩)
    subst this
    py_simp
    simp only [hd, Option.isNone_some, Bool.false_eq_true, if_false]
    exact ⟨_, rfl, rfl, rfl⟩

theorem lastFits_of {kv kv' : String × PyVal} {m m' : LModel} (hl : m'.length = m.length)
    (h1 : ∃ col, dget m'.attrCols (attrKey kv.1) = some col ∧ col ≠ [])
    (h2 : ∀ k, k ≠ attrKey kv.1 → dget m'.attrCols k = dget m.attrCols k) (h0 : LastFits m kv) :
    LastFits m' kv' ↔ LastFits m kv' := by
  by_cases he : attrKey kv'.1 = attrKey kv.1
  · unfold LastFits at *
    rw [he]
    exact ⟨fun _ => h0, fun _ => .inr h1⟩
  · unfold LastFits
    rw [h2 _ he, hl]

theorem setLast_loop (ats : List (String × PyVal)) (m : LModel) :
    ((∀ kv ∈ ats, LastFits m kv) → ∃ m', (ats.forM setLastAttr).run m = .ok ⟨⟩ m') ∧
    ((¬ ∀ kv ∈ ats, LastFits m kv) → ∃ m', (ats.forM setLastAttr).run m = .error .indexError m' ∧ m'.rows = m.rows ∧
      m'.length = m.length) := by
  induction ats generalizing m with
  | nil => exact ⟨fun _ => ⟨m, rfl⟩, fun h => absurd (by simp) h⟩
  | cons kv ats ih =>
    rw [Py.run_forM_cons]
    by_cases h0 : LastFits m kv
    · obtain ⟨m', hr, e1, e2, e3, e4⟩ := setLastAttr_fits kv m h0
      rw [hr]
      simp only [List.forall_mem_cons, h0, true_and]
      obtain ⟨i1, i2⟩ := ih m'
      have : (∀ kv' ∈ ats, LastFits m' kv') ↔ ∀ kv' ∈ ats, LastFits m kv' :=
        forall₂_congr fun kv' _ => lastFits_of e2 e3 e4 h0
      rw [this] at i1 i2
      refine ⟨i1, fun h => ?_⟩
      obtain ⟨m'', j1, j2, j3⟩ := i2 h
      exact ⟨m'', j1, j2.trans e1, j3.trans e2⟩
    · obtain ⟨m', hr, e1, e2⟩ := setLastAttr_raises kv m h0
      rw [hr]
      exact ⟨fun h => absurd (h kv (by simp)) h0, fun _ => ⟨m', rfl, e1, e2⟩⟩

/-- The condition for `setAttrAt`. -/
def AtFits (m : LModel) (idx : Nat) (kv : String × PyVal) : Prop :=
  (dget m.attrCols (attrKey kv.1) = none ∧ (idx : ℤ) < m.length) ∨
  ∃ col, dget m.attrCols (attrKey kv.1) = some col ∧ idx < col.length

theorem setAttrAt_fits (idx : Nat) (kv : String × PyVal) (m : LModel) (h : AtFits m idx kv) :
    ∃ m', (setAttrAt idx kv).run m = .ok ⟨⟩ m' ∧ m'.rows = m.rows ∧ m'.length = m.length ∧
      (∃ col, dget m'.attrCols (attrKey kv.1) = some col ∧ idx < col.length) ∧
      ∀ k, k ≠ attrKey kv.1 → dget m'.attrCols k = dget m.attrCols k := by
  unfold setAttrAt
  rcases h with ⟨h, hl⟩ | ⟨col, h, hne⟩
  · have hi : idx < (List.replicate m.length.toNat PyVal.nan).length := by rw [List.length_replicate]; omega
    py_simp
    simp only [h, Option.isNone_none, if_true, dget_dset_self, if_pos hi]
    refine ⟨_, rfl, rfl, rfl, ⟨_, dget_dset_self .., by rw [List.length_set]; exact hi⟩, fun k hk => ?_⟩
    simp only [dget_dset_ne _ _ hk]
  · py_simp
    simp only [h, Option.isNone_some, Bool.false_eq_true, if_false, if_pos hne]
    refine ⟨_, rfl, rfl, rfl, ⟨_, dget_dset_self .., by rw [List.length_set]; exact hne⟩, fun k hk => ?_⟩
    simp only [dget_dset_ne _ _ hk]

theorem setAttrAt_raises (idx : Nat) (kv : String × PyVal) (m : LModel) (h : ¬ AtFits m idx kv) :
    ∃ m', (setAttrAt idx kv).run m = .error .indexError m' ∧ m'.rows = m.rows ∧ m'.length = m.length := by
  unfold setAttrAt
  cases hd : dget m.attrCols (attrKey kv.1) with
  | none =>
    have hl : ¬ idx < (List.replicate m.length.toNat PyVal.nan).length := by
      rw [List.length_replicate]
      intro hlt
      exact h (.inl ⟨hd, by omega⟩)
    py_simp
    simp only [hd, Option.isNone_none, if_true, dget_dset_self, if_neg hl]
    exact ⟨_, rfl, rfl, rfl⟩
  | some col =>
    have hl : ¬ idx < col.length := fun hlt => h (.inr ⟨col, hd, hlt⟩)
    py_simp
    simp only [hd, Option.isNone_some, Bool.false_eq_true, if_false, if_neg hl]
    exact ⟨_, rfl, rfl, rfl⟩

theorem setAt_loop (idx : Nat) (ats : List (String × PyVal)) (m : LModel) :
    ((∀ kv ∈ ats, AtFits m idx kv) → ∃ m', (ats.forM (setAttrAt idx)).run m = .ok ⟨⟩ m') ∧
    ((¬ ∀ kv ∈ ats, AtFits m idx kv) → ∃ m', (ats.forM (setAttrAt idx)).run m = .error .indexError m' ∧ m'.rows = m.rows ∧
      m'.length = m.length) := by
  induction ats generalizing m with
  | nil => exact ⟨fun _ => ⟨m, rfl⟩, fun h => absurd (by simp) h⟩
  | cons kv ats ih =>
    rw [Py.run_forM_cons]
    by_cases h0 : AtFits m idx kv
    · obtain ⟨m', hr, e1, e2, e3, e4⟩ := setAttrAt_fits idx kv m h0
      rw [hr]
      simp only [List.forall_mem_cons, h0, true_and]
      obtain ⟨i1, i2⟩ := ih m'
      have : (∀ kv' ∈ ats, AtFits m' idx kv') ↔ ∀ kv' ∈ ats, AtFits m idx kv' := by
        refine forall₂_congr fun kv' _ => ?_
        by_cases he : attrKey kv'.1 = attrKey kv.1
        · unfold AtFits at *
          rw [he]
          exact ⟨fun _ => h0, fun _ => .inr e3⟩
        · unfold AtFits
          rw [e4 _ he, e2]
      rw [this] at i1 i2
      refine ⟨i1, fun h => ?_⟩
      obtain ⟨m'', j1, j2, j3⟩ := i2 h
      exact ⟨m'', j1, j2.trans e1, j3.trans e2⟩
    · obtain ⟨m', hr, e1, e2⟩ := setAttrAt_raises idx kv m h0
      rw [hr]
      exact ⟨fun h => absurd (h kv (by simp)) h0, fun _ => ⟨m', rfl, e1, e2⟩⟩

/-! ## Histories -/

theorem step_reg {env : Env} {m : LModel} (op : Op) (ih : m.Registered) (hp : ∀ clk o, op = .merge clk o → o.Registered) :
    (op.step env m).Registered := by
  have hmap : ∀ {α : Type} {x : Py LModel α}, KeepsReg x →
      KeepsReg (do let _ ← x : Py LModel Unit) := fun hx => .bind hx fun _ => .pure' _
  have hrel : ∀ {α : Type} {x : Py LModel α}, (∀ s, VarsRel s (x.run s).state) → KeepsReg x :=
    fun hx s hs => varsRel_reg (hx s) hs
  unfold Op.step
  cases op with
  | «variables» n sh => exact hmap (hrel fun s => createVars_rel n sh s) m ih
  | variablesArray a => exact hmap (hrel fun s => variablesArray_rel a s) m ih
  | append n sh => exact hmap (hrel fun s => appendVars_rel n sh s) m ih
  | add now t n c s a ts => exact add_reg _ _ _ _ _ _ _ m ih
  | update now t n c s a ts => exact updateAny_reg _ _ _ _ _ _ _ _ m ih
  | remove t n => exact remove_reg _ _ m ih
  | select v => exact hmap (selectByVariable_inv v) m ih
  | delete v => exact delete_reg v m ih
  | fix clk v q => exact fix_reg clk v q m ih
  | addConstraint c => exact reg_same ih rfl rfl
  | removeConstraint l =>
    simp only [Op.call, removeConstraint]
    py_simp
    split
    · exact ih
    · exact reg_same ih rfl rfl
  | setOffset c => exact reg_same ih rfl rfl
  | fromPyqubo now pm =>
    exact withSnd_inv pm (fromPyqubo_inv (I := LModel.Registered) add_reg (fun _ _ h => reg_same h rfl rfl) now) m ih
  | toIsing clk => exact toIsing_reg env clk m ih
  | toQubo clk => exact toQubo_reg env clk m ih
  | merge clk o =>
    have := (merge_reg env clk m o ih (hp clk o rfl)).1
    simp only [Op.call, withSnd]
    cases hr : (merge env clk).run (m, o) with
    | ok u t => rw [hr] at this; exact this
    | error e t => rw [hr] at this; exact this
  | toPhysical a b c => exact hmap (toPhysical_reg env a b c) m ih

/-- Along every history, successful or raising, the attribute keys that `add_interaction` introduced have columns. -/
theorem made_reg {env : Env} {P : LModel → Op → Prop} (h : Made env P m) : m.Registered := by
  induction h with
  | new mt id => exact new_reg mt id
  | step m op _ hp _ ih iho => exact step_reg op ih fun clk o e => iho clk o e

/-! ## add_interaction -/

theorem addTail_exact (row : Row) (ats : List (String × PyVal)) (hreg : m.Registered) :
    ((∀ kv ∈ ats, AddFits m kv.1) → ∃ m', (addTail row ats).run m = .ok ⟨⟩ m') ∧
    ((¬ ∀ kv ∈ ats, AddFits m kv.1) → ∃ m', (addTail row ats).run m = .error .indexError m' ∧
      m'.rows = m.rows ++ [row] ∧ m'.length = m.length) := by
  obtain ⟨c₁, hr1, -, hg1⟩ := pushNan_loop m.attrs { m with rows := m.rows ++ [row] } hreg.1 hreg.2
  have hiff : (∀ kv ∈ ats, LastFits { m with rows := m.rows ++ [row], attrCols := c₁ } kv) ↔ ∀ kv ∈ ats, AddFits m kv.1 := by
    refine forall₂_congr fun kv _ => ?_
    unfold LastFits AddFits
    change (dget c₁ (attrKey kv.1) = none ∧ 0 ≤ m.length ∨ ∃ col, dget c₁ (attrKey kv.1) = some col ∧ col ≠ []) ↔ _
    rw [hg1]
    change _ ↔ (dget m.attrCols (attrKey kv.1) = none ∧ 0 ≤ m.length) ∨
      ∃ col, dget m.attrCols (attrKey kv.1) = some col ∧ (attrKey kv.1 ∈ m.attrs ∨ col ≠ [])
    by_cases hk : attrKey kv.1 ∈ m.attrs
    · obtain ⟨col, hcol⟩ := (dget_isSome_iff _ _).mpr (hreg.2 _ hk)
      simp [hk, hcol]
    · simp [hk]
  obtain ⟨i1, i2⟩ := setLast_loop ats { m with rows := m.rows ++ [row], attrCols := c₁ }
  rw [hiff] at i1 i2
  have hrun : (addTail row ats).run m =
      match (ats.forM setLastAttr).run { m with rows := m.rows ++ [row], attrCols := c₁ } with
      | .ok _ t => .ok ⟨⟩ { t with length := t.length + 1 }
      | .error e t => .error e t := by
    unfold addTail
    simp only [Py.run_bind, Py.run_modify, Py.run_get, hr1]
    cases (ats.forM setLastAttr).run { m with rows := m.rows ++ [row], attrCols := c₁ } <;> rfl
  constructor
  · intro h
    obtain ⟨t, ht⟩ := i1 h
    rw [hrun, ht]
    exact ⟨_, rfl⟩
  · intro h
    obtain ⟨t, ht, e1, e2⟩ := i2 h
    rw [hrun, ht]
    exact ⟨_, rfl, e1, e2⟩

/-- What the checks of add find out if there is no reason to reject the arguments. -/
theorem addChecks_passes {c s : PyCoef} {attributes : PyAttrs} {ts : PyTs}
    (h : Decides (addReasons m target name c s attributes ts) none) :
    ∃ row, addChecks now m target name c s attributes ts = .ok (row, attributes.entries) ∧
      target.Denotes row.inter ∧ name.Names row.inter row.name ∧ c.Stores row.coef ∧ s.Stores row.scale := by
  unfold addReasons at h
  rcases h with _ | _ | ⟨h1, h⟩
  rcases h with _ | _ | ⟨h2, h⟩
  rcases h with _ | _ | ⟨h3, h⟩
  rcases h with _ | _ | ⟨h4, h⟩
  rcases h with _ | _ | ⟨h5, h⟩
  rcases h with _ | _ | ⟨h6, h⟩
  rcases h with _ | _ | ⟨h7, h⟩
  rcases h with _ | _ | ⟨h8, h⟩
  rcases h with _ | _ | ⟨h9, h⟩
  obtain ⟨i, hd, _⟩ := getInfo_denotes (not_not.mp h6) h7
  obtain ⟨n, hn⟩ : ∃ n, name.Names i n := by
    cases name with
    | str n =>
      by_cases hn : n = ""
      · subst hn; exact ⟨_, names_default i⟩
      · exact ⟨n, .given n i hn⟩
    | tuple => exact absurd (by simp) h8
    | other => exact absurd (by simp) h8
  obtain ⟨c', hc'⟩ : ∃ c', c.Stores c' := by
    cases c with
    | num q => exact ⟨_, .num q⟩
    | expr e => exact ⟨_, .expr e⟩
    | bad => exact absurd rfl h2
  obtain ⟨s', hs'⟩ : ∃ s', s.Stores s' := by
    cases s with
    | num q => exact ⟨_, .num q⟩
    | expr e => exact ⟨_, .expr e⟩
    | bad => exact absurd rfl h3
  exact ⟨{ name := n, inter := i, coef := c', scale := s', timestamp := some (ts.at now), dirty := true, removed := false },
    addChecks_ok_iff.mpr ⟨hd, hn, fun hmem => h9 ⟨i, n, hd, hn, hmem⟩, hc', hs', h4, h5, rfl, rfl, rfl, rfl⟩, hd, hn, hc', hs'⟩

/-- **C85** and **C03** for `add_interaction` on any table: with arguments that there is no reason to reject the call returns
exactly if all attributes fit; otherwise it raises IndexError and leaves the new interaction in the table, but not in the
length. -/
theorem C85_add_exact (hreg : m.Registered) {c s : PyCoef} {attributes : PyAttrs} {ts : PyTs}
    (h : Decides (addReasons m target name c s attributes ts) none) :
    ((∀ kv ∈ attributes.entries, AddFits m kv.1) →
      ∃ m', (addInteraction now target name c s attributes ts).run m = .ok ⟨⟩ m') ∧
    ((¬ ∀ kv ∈ attributes.entries, AddFits m kv.1) →
      ∃ m' row, (addInteraction now target name c s attributes ts).run m = .error .indexError m' ∧
        target.Denotes row.inter ∧ name.Names row.inter row.name ∧ c.Stores row.coef ∧ s.Stores row.scale ∧
        m'.rows = m.rows ++ [row] ∧ m'.length = m.length) := by
  obtain ⟨row, hp, hrow⟩ := addChecks_passes (now := now) h
  obtain ⟨i1, i2⟩ := addTail_exact row attributes.entries hreg
  rw [addInteraction_run, hp]
  refine ⟨i1, fun hf => ?_⟩
  obtain ⟨m', h1, h2⟩ := i2 hf
  exact ⟨m', row, h1, hrow.1, hrow.2.1, hrow.2.2.1, hrow.2.2.2, h2⟩

/-! ## update_interaction -/

theorem modify_middle {α : Type} (pre : List α) (r : α) (post : List α) (f : α → α) :
    (pre ++ r :: post).modify pre.length f = pre ++ f r :: post := by
  induction pre with
  | nil => rfl
  | cons x pre ih => simpa using ih

theorem writeRow_exact (idx : Nat) (c s : Option ℚ) (ats : List (String × PyVal)) (ts : Option ℚ) :
    ((∀ kv ∈ ats, UpdateFits m idx kv.1) → ∃ m', (writeRow idx c s ats ts).run m = .ok ⟨⟩ m') ∧
    ((¬ ∀ kv ∈ ats, UpdateFits m idx kv.1) → ∃ m', (writeRow idx c s ats ts).run m = .error .indexError m' ∧
      m'.rows = m.rows.modify idx (updRow₁ c s) ∧ m'.length = m.length) := by
  rw [writeRow_run]
  obtain ⟨i1, i2⟩ := setAt_loop idx ats { m with rows := m.rows.modify idx (updRow₁ c s) }
  constructor
  · intro h
    obtain ⟨t, ht⟩ := i1 h
    rw [ht]
    exact ⟨_, rfl⟩
  · intro h
    obtain ⟨t, ht, e⟩ := i2 h
    rw [ht]
    exact ⟨_, rfl, e⟩

/-- The interaction `r` is the first one named `n`; `pre` and `post` are those before and after it. -/
def First (m : LModel) (n : String) (pre : List Row) (r : Row) (post : List Row) : Prop :=
  m.rows = pre ++ r :: post ∧ (∀ x ∈ pre, x.name ≠ n) ∧ r.name = n

theorem first_index {n : String} {pre post : List Row} {r : Row} (h : First m n pre r post) : m.indexOf n = .ok pre.length := by
  obtain ⟨h1, h2, h3⟩ := h
  unfold LModel.indexOf
  have : m.rows.findIdx? (·.name = n) = some pre.length := by
    rw [h1, List.findIdx?_append, List.findIdx?_eq_none_iff.mpr (by simpa using h2)]
    simp [List.findIdx?_cons, h3]
  rw [this]

theorem first_exists {n : String} (h : n ∈ m.names) : ∃ pre r post, First m n pre r post := by
  unfold LModel.names at h
  unfold First
  generalize m.rows = l at h ⊢
  induction l with
  | nil => cases h
  | cons x l ih =>
    by_cases hx : x.name = n
    · exact ⟨[], x, l, rfl, by simp, hx⟩
    · rw [List.map_cons, List.mem_cons] at h
      obtain ⟨pre, r, post, rfl, h2, h3⟩ := ih (h.resolve_left fun e => hx e.symm)
      refine ⟨x :: pre, r, post, rfl, ?_, h3⟩
      intro y hy
      rw [List.mem_cons] at hy
      rcases hy with rfl | hy
      · exact hx
      · exact h2 y hy

/-- **C85** and **C03** for `update_interaction` of an existing interaction on any table: with arguments that there is no reason
to reject the call returns exactly if all attributes fit in the line of the interaction; otherwise it raises IndexError and
leaves the new coefficient and scale in the table, but neither the time nor the mark that it was changed. -/
theorem C85_update_exact {c s : Option PyCoef} {attributes : PyAttrs} {ts : Option PyTs}
    (h : Decides (updateReasons m target name c s attributes ts) none) {n : String} (hn : Resolves m target name n)
    {pre post : List Row} {r : Row} (hr : First m n pre r post) :
    ((∀ kv ∈ attributes.entries, UpdateFits m pre.length kv.1) →
      ∃ m', (updateInteraction importTime now target name c s attributes ts).run m = .ok ⟨⟩ m') ∧
    ((¬ ∀ kv ∈ attributes.entries, UpdateFits m pre.length kv.1) →
      ∃ m' row, (updateInteraction importTime now target name c s attributes ts).run m = .error .indexError m' ∧
        m'.rows = pre ++ row :: post ∧ m'.length = m.length ∧
        (∀ q, c = some (.num q) → row.coef = .num q) ∧ (c = none → row.coef = r.coef) ∧
        (∀ q, s = some (.num q) → row.scale = .num q) ∧ (s = none → row.scale = r.scale) ∧
        row.name = n ∧ row.inter = r.inter ∧ row.timestamp = r.timestamp ∧ row.dirty = r.dirty ∧ row.removed = r.removed) := by
  rcases updateChecks_prefix (importTime := importTime) h with ⟨e, he, _⟩ | ⟨hform, hts, hd, info?, hi, c', s', heq⟩
  · cases he
  clear h
  rcases hd with _ | h | ⟨h1, hd⟩
  rcases hd with _ | h | ⟨h2, hd⟩
  have hmem : n ∈ m.names := by cases hn <;> assumption
  obtain ⟨hrm, idx, hidx, hlt⟩ := isRemoved_not_gone hmem (fun hg => h2 ⟨n, hn, hg⟩)
  have hpre := hidx
  rw [first_index hr] at hpre
  obtain rfl := Except.ok.inj hpre
  rw [updateName_resolves hi hn] at heq
  simp only [hrm, hidx] at heq
  obtain ⟨_, hc, hs, _⟩ := updateChecks_write heq
  obtain ⟨i1, i2⟩ := writeRow_exact (m := m) pre.length c' s' attributes.entries (ts.getD (.num importTime)).stored
  rw [updateInteraction_run, heq]
  refine ⟨i1, fun hf => ?_⟩
  obtain ⟨m', j1, j2, j3⟩ := i2 hf
  have hrows : m'.rows = pre ++ updRow₁ c' s' r :: post := by
    rw [j2, hr.1]
    exact modify_middle _ _ _ _
  refine ⟨m', updRow₁ c' s' r, j1, hrows, j3, ?_, ?_, ?_, ?_, hr.2.2, rfl, rfl, rfl, rfl⟩
  · rintro q rfl
    cases c' with
    | none => cases hc
    | some p => cases hc; rfl
  · rintro rfl
    cases c' with
    | none => rfl
    | some p => cases hc
  · rintro q rfl
    cases s' with
    | none => cases hs
    | some p => cases hs; rfl
  · rintro rfl
    cases s' with
    | none => rfl
    | some p => cases hs

/-- **C03** is false for `update_interaction`, too: on a ragged table it raises IndexError when the coefficient is already
written. -/
theorem C03_update_atomic_refuted :
    let m := Ex.ragged .ising Ex.x0 Ex.x1 3 5
    ∃ m', (updateInteraction 0 1 .none (.str "x[0]") (some (.num 7)) none (.dict [("a", .num 1)]) none).run m =
      .error .indexError m' ∧ m.rows.map Row.coef = [.num 3, .num 5] ∧ m'.rows.map Row.coef = [.num 7, .num 5] := by
  refine ⟨_, rfl, ?_, ?_⟩ <;> decide +kernel

/-- **C85** and **C03** for `add_interaction` on every model that calls, successful or raising, can make: it returns exactly if there is
no reason to reject the arguments and all attributes fit. -/
theorem C85_add_made {env : Env} (hm : Made env AnyCall m) {c s : PyCoef} {attributes : PyAttrs} {ts : PyTs} :
    (∃ m', (addInteraction now target name c s attributes ts).run m = .ok ⟨⟩ m') ↔
      Decides (addReasons m target name c s attributes ts) none ∧ ∀ kv ∈ attributes.entries, AddFits m kv.1 := by
  constructor
  · rintro ⟨m', h⟩
    obtain ⟨r, hd⟩ := decides_total (addReasons m target name c s attributes ts)
    cases r with
    | some e =>
      rw [(C85_add_partial (now := now) hd).1 e rfl] at h
      cases h
    | none =>
      refine ⟨hd, ?_⟩
      by_contra hf
      obtain ⟨_, _, hr, _⟩ := (C85_add_exact (now := now) (made_reg hm) hd).2 hf
      rw [hr] at h
      cases h
  · rintro ⟨hd, hf⟩
    exact (C85_add_exact (made_reg hm) hd).1 hf

/-- **C85** and **C03** for `update_interaction` on every model that calls, successful or raising, can make: it returns exactly
if there is no reason to reject the arguments and, where it updates an existing interaction, all attributes fit in its line. -/
theorem C85_update_made {env : Env} (hm : Made env AnyCall m) {c s : Option PyCoef} {attributes : PyAttrs} {ts : Option PyTs} :
    (∃ m', (updateInteraction importTime now target name c s attributes ts).run m = .ok ⟨⟩ m') ↔
      Decides (updateReasons m target name c s attributes ts) none ∧
      ∀ n pre r post, Resolves m target name n → First m n pre r post → ∀ kv ∈ attributes.entries, UpdateFits m pre.length kv.1 := by
  constructor
  · rintro ⟨m', h⟩
    obtain ⟨r, hd⟩ := decides_total (updateReasons m target name c s attributes ts)
    cases r with
    | some e =>
      rw [(C85_update_partial (importTime := importTime) (now := now) hd).1 e rfl] at h
      cases h
    | none =>
      refine ⟨hd, fun n pre r post hn hf => ?_⟩
      by_contra hfit
      obtain ⟨_, _, hr, _⟩ := (C85_update_exact (importTime := importTime) (now := now) hd hn hf).2 hfit
      rw [hr] at h
      cases h
  · rintro ⟨h, hf⟩
    by_cases hres : ∃ n, Resolves m target name n
    · obtain ⟨n, hn⟩ := hres
      have hmem : n ∈ m.names := by cases hn <;> assumption
      obtain ⟨pre, r, post, hr⟩ := first_exists hmem
      exact (C85_update_exact h hn hr).1 (hf n pre r post hn hr)
    · rcases updateChecks_prefix (importTime := importTime) h with ⟨e, he, _⟩ | ⟨hform, hts, hd, info?, hi, c', s', heq⟩
      · cases he
      clear h
      rcases hd with _ | h | ⟨h1, hd⟩
      rcases hform with ⟨_, hg⟩ | ⟨rfl, i, hd⟩
      · exact absurd ⟨hg, hres⟩ h1
      · have h3 : target ≠ .none := by rintro rfl; cases hd
        rw [optInfo, if_neg h3, getInfo_ok_iff.mpr hd] at hi
        cases hi
        have hnew : i.defaultName ∉ m.names := fun hmem => hres ⟨_, .byTarget _ i _ hd (names_default i) hmem⟩
        have hun : updateName m (some i) (.str "") = .ok none := by
          unfold updateName
          rw [if_neg (by decide)]
          have : m.hasName i.defaultName = false := by
            by_contra hh
            exact hnew ((hasName_iff m _).mp (by simpa using hh))
          simp [this]
        rw [updateInteraction_run, heq, hun]
        simp only
        have hp : addChecks now m target (.str "") (.num (Option.getD c' 0)) (.num (Option.getD s' 1)) .none
            (ts.getD (.num importTime)) = .ok (
              { name := i.defaultName, inter := i, coef := .num (Option.getD c' 0), scale := .num (Option.getD s' 1)
                timestamp := some ((ts.getD (.num importTime)).«at» now), dirty := true, removed := false }, []) :=
          addChecks_ok_iff.mpr ⟨hd, names_default i, hnew, .num _, .num _, by simp, hts, rfl, rfl, rfl, rfl⟩
        rw [addInteraction_run, hp]
        exact (addTail_exact _ [] (made_reg hm)).1 (by simp)

/-- On the ragged table the attribute `a` fits neither for add nor for update, and the attribute `b` fits. -/
example : (Ex.ragged .ising Ex.x0 Ex.x1 3 5).Registered ∧ ¬ AddFits (Ex.ragged .ising Ex.x0 Ex.x1 3 5) "a" ∧
    ¬ UpdateFits (Ex.ragged .ising Ex.x0 Ex.x1 3 5) 0 "a" ∧ AddFits (Ex.ragged .ising Ex.x0 Ex.x1 3 5) "b" ∧
    UpdateFits (Ex.ragged .ising Ex.x0 Ex.x1 3 5) 0 "b" ∧ ¬ UpdateFits (Ex.ragged .ising Ex.x0 Ex.x1 3 5) 1 "b" := by
  have h : dget (Ex.ragged .ising Ex.x0 Ex.x1 3 5).attrCols ("attributes." ++ "a") = some [] := by decide +kernel
  have h' : dget (Ex.ragged .ising Ex.x0 Ex.x1 3 5).attrCols ("attributes." ++ "b") = none := by decide +kernel
  have hl : (Ex.ragged .ising Ex.x0 Ex.x1 3 5).length = 1 := by decide +kernel
  have ha : (Ex.ragged .ising Ex.x0 Ex.x1 3 5).attrs = [] := by decide +kernel
  unfold LModel.Registered AddFits UpdateFits
  rw [h, h', hl, ha]
  simp

/-- Add and update have no reason to reject these arguments there. -/
example : Decides (addReasons (Ex.ragged .ising Ex.x0 Ex.x1 3 5) (.tuple [some Ex.x0, some Ex.x1]) (.str "") (.num 1) (.num 1)
      (.dict [("a", .num 1)]) .none) none ∧
    Decides (updateReasons (Ex.ragged .ising Ex.x0 Ex.x1 3 5) .none (.str "x[0]") (some (.num 7)) none (.dict [("a", .num 1)])
      none) none ∧ Resolves (Ex.ragged .ising Ex.x0 Ex.x1 3 5) .none (.str "x[0]") "x[0]" := by
  have hn : (Ex.ragged .ising Ex.x0 Ex.x1 3 5).names = ["x[0]", "x[1]"] := by decide +kernel
  have hr : Resolves (Ex.ragged .ising Ex.x0 Ex.x1 3 5) .none (.str "x[0]") "x[0]" :=
    .byName _ _ rfl (by decide) (by rw [hn]; decide)
  refine ⟨?_, ?_, hr⟩
  · unfold addReasons
    refine .skip (by simp [PyTarget.Given]) (.skip (by simp) (.skip (by simp) (.skip (by simp) (.skip (by simp) (.skip ?_
      (.skip ?_ (.skip (by simp) (.skip ?_ .nothing))))))))
    · exact not_not.mpr (.inr ⟨_, _, rfl⟩)
    · rintro ⟨v, w, h, hl⟩; cases h; revert hl; decide
    · rintro ⟨i, n, hd, hnm, hmem⟩
      rw [hn] at hmem
      have hi := getInfo_ok_iff.mpr hd
      cases hnm with
      | given _ _ h => exact h rfl
      | lin v => cases hd
      | quad v w =>
        have : getInfo (.tuple [some Ex.x0, some Ex.x1]) = .ok (.quad Ex.x0 Ex.x1) := by decide
        rw [this] at hi
        cases hi
        revert hmem
        decide
  · unfold updateReasons
    refine .skip (by simp [PyName.Given]) (.skip (by simp [PyTarget.Given]) (.skip ?_ (.skip ?_ (.skip (by simp) (.skip (by simp)
      (.skip (by simp) (.skip ?_ (.skip ?_ (.skip ?_ .nothing)))))))))
    · rintro ⟨x, hx, h⟩; cases hx; exact h 7 rfl
    · rintro ⟨x, hx, h⟩; cases hx
    · rintro ⟨v, w, h, _⟩; cases h
    · rintro ⟨_, h⟩; exact h ⟨_, hr⟩
    · rintro ⟨n, _, a, r, b, hab, _, _, hrm⟩
      have : ∀ r ∈ (Ex.ragged .ising Ex.x0 Ex.x1 3 5).rows, r.removed = false := by decide +kernel
      rw [this r (by rw [hab]; simp)] at hrm
      cases hrm

example : ∃ r, First (Ex.ragged .ising Ex.x0 Ex.x1 3 5) "x[1]" ((Ex.ragged .ising Ex.x0 Ex.x1 3 5).rows.take 1) r [] := by
  refine ⟨((Ex.ragged .ising Ex.x0 Ex.x1 3 5).rows[1]'(by decide +kernel)), ?_, ?_, ?_⟩ <;> decide +kernel

end Sawatabi.Props
