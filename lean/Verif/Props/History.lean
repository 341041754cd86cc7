import Verif.Lemmas.ToPhysical
import Verif.Props.Examples

/-!
# Properties of histories (C01, C07, C08)
-/

namespace Sawatabi.Props

variable {env : Env}

/-! ## C01: interaction names stay unique -/

/-- Calls that keep names unique: everything but `merge`, and not a `to_physical` that raises while
the constraints are merged into the model. -/
def NameSafe (env : Env) (m : LModel) : Op → Prop
  | .merge _ _ => False
  | .toPhysical clks ids ph => m.constraints = [] ∨ ((toPhysical env clks ids ph).run m).isOk = true
  | _ => True

theorem nodup_closed : RowClosed fun l => (l.map (·.name)).Nodup where
  append l r h hr _ _ := by
    rw [List.map_append, List.map_singleton, List.nodup_append]
    refine ⟨h, List.nodup_singleton _, ?_⟩
    rintro a ha b hb rfl
    rw [List.mem_singleton] at hb
    exact hr (hb ▸ ha)
  upd l l' h hl := by
    have : l'.map (·.name) = l.map (·.name) := by
      induction hl with
      | nil => rfl
      | cons hr _ ih => simp [hr.name, ih (List.nodup_cons.mp h).2]
    rw [this]
    exact h

/-- All calls but merge and to_physical keep a closed property of the rows. -/
theorem call_rows {P : List Row → Prop} (hP : RowClosed P) (op : Op) (m : LModel) (hm : P m.rows)
    (h1 : ∀ clk o, op ≠ .merge clk o) (h2 : ∀ a b c, op ≠ .toPhysical a b c) :
    P (op.step env m).rows := by
  have hmap : ∀ {α : Type} {x : Py LModel α}, Py.Preserves (onRows P) x →
      Py.Preserves (onRows P) (do let _ ← x : Py LModel Unit) := fun hx => .bind hx fun _ => .pure' _
  have hrel : ∀ {α : Type} {x : Py LModel α}, (∀ s, VarsRel s (x.run s).state) →
      Py.Preserves (onRows P) x := by
    intro α x hx s hs
    obtain ⟨vs, he⟩ := hx s
    unfold onRows at hs ⊢
    rw [he]
    exact hs
  unfold Op.step
  cases op with
  | «variables» n sh => exact hmap (hrel fun s => createVars_rel n sh s) m hm
  | variablesArray a => exact hmap (hrel fun s => variablesArray_rel a s) m hm
  | append n sh => exact hmap (hrel fun s => appendVars_rel n sh s) m hm
  | add now t n c s a ts => exact add_rows hP _ _ _ _ _ _ _ m hm
  | update now t n c s a ts => exact update_rows hP _ _ _ _ _ _ _ _ m hm
  | remove t n => exact remove_rows hP _ _ m hm
  | select v => exact hmap (selectByVariable_inv v) m hm
  | delete v => exact delete_rows hP v m hm
  | fix clk v q => exact fix_rows hP clk v q m hm
  | addConstraint c => exact hm
  | removeConstraint l =>
    simp only [Op.call, removeConstraint]
    py_simp
    split <;> exact hm
  | setOffset c => exact hm
  | fromPyqubo now pm =>
    exact withSnd_inv pm (fromPyqubo_inv (I := onRows P) (add_rows hP) (fun _ _ h => h) now) m hm
  | toIsing clk => exact toIsing_rows hP env clk m hm
  | toQubo clk => exact toQubo_rows hP env clk m hm
  | merge clk o => exact absurd rfl (h1 clk o)
  | toPhysical a b c => exact absurd rfl (h2 a b c)

/-- One call. -/
theorem step_names {m : LModel} {op : Op} (hp : NameSafe env m op) (ih : m.names.Nodup) : (op.step env m).names.Nodup := by
  by_cases h1 : ∃ clk o, op = .merge clk o
  · obtain ⟨clk, o, rfl⟩ := h1
    exact hp.elim
  by_cases h2 : ∃ a b c, op = .toPhysical a b c
  · obtain ⟨clks, ids, ph, rfl⟩ := h2
    have hsub : List.Sublist ((Op.step env m (.toPhysical clks ids ph)).rows.map (·.name))
        (m.rows.map (·.name)) := by
      unfold Op.step Op.call
      simp only [Py.run_bind]
      rcases hp with hc | hok
      · have := toPhysical_sublist (env := env) (clks := clks) (ids := ids) (ph := ph) hc
        cases hr : (toPhysical env clks ids ph).run m with
        | ok p m' => rw [hr] at this; exact this
        | error e m' => rw [hr] at this; exact this
      · cases hr : (toPhysical env clks ids ph).run m with
        | ok p m' => exact toPhysical_ok_sublist hr
        | error e m' => rw [hr] at hok; cases hok
    exact hsub.nodup ih
  · exact call_rows nodup_closed op m ih (fun clk o e => h1 ⟨clk, o, e⟩)
      (fun a b c e => h2 ⟨a, b, c, e⟩)

/-- In every state reached by a history of calls, successful or raising, that does not use `merge`
(also not through a failing `to_physical` with constraints), no two interactions have the same name.
(`_partial`: `merge` can produce equal names, see below.) -/
theorem C01_names_unique_partial {mt : MType} {id : String} {m : LModel}
    (h : Reach env (NameSafe env) (LModel.new mt id) m) : m.names.Nodup := by
  induction h with
  | start => exact List.nodup_nil
  | step m op _ hp ih => exact step_names hp ih

/-- Merging a model whose interactions `x[0]` and `x[0] (101)` meet one named `x[0]` gives two
interactions with the same name. -/
theorem C01_merge_refuted :
    let a := Ex.after (LModel.new .ising "101") (addInteraction 1 (.var Ex.x0) (.str "") (.num 1) (.num 1)
      .none .none)
    let b := Ex.after (LModel.new .ising "102") (do
      addInteraction 1 (.var Ex.x0) (.str "") (.num 1) (.num 1) .none .none
      addInteraction 1 (.var Ex.x1) (.str "x[0] (101)") (.num 1) (.num 1) .none .none)
    a.names.Nodup ∧ b.names.Nodup ∧
      (Op.step ⟨0, fun _ => ""⟩ a (.merge (fun _ => 0) b)).names = ["x[0] (101)", "x[0] (102)", "x[0] (101)"] := by
  decide

example : NameSafe ⟨0, fun _ => ""⟩ Ex.ising (.toPhysical (fun _ _ => 0) (fun _ => "") []) ∧
    NameSafe ⟨0, fun _ => ""⟩ Ex.ising (.delete Ex.x0) := ⟨Or.inl (by decide), trivial⟩

/-! ## C07: removed names are reserved until the next conversion -/

/-- The model holds an interaction named `n` that is logically removed. -/
def IsRemoved (m : LModel) (n : String) : Prop := ∃ r ∈ m.rows, r.name = n ∧ r.removed = true

theorem removed_closed (n : String) : RowClosed fun l => (∃ r ∈ l, r.name = n ∧ r.removed = true) where
  append l r h _ _ _ := by
    obtain ⟨r', hr', h⟩ := h
    exact ⟨r', List.mem_append_left _ hr', h⟩
  upd l l' h hl := by
    induction hl with
    | nil => exact h
    | cons hr _ ih =>
      obtain ⟨r', hr', hn, hrm⟩ := h
      rcases List.mem_cons.mp hr' with rfl | hr'
      · exact ⟨_, List.mem_cons_self, by rw [hr.name, hn], hr.removed hrm⟩
      · obtain ⟨r'', h1, h2⟩ := ih ⟨r', hr', hn, hrm⟩
        exact ⟨r'', List.mem_cons_of_mem _ h1, h2⟩

/-- A successful remove marks the interaction as removed. -/
theorem C07_remove_marks {m m' : LModel} {target : PyTarget} {name : PyName} {n : String}
    (hn : Resolves m target name n) (h : (removeInteraction target name).run m = .ok ⟨⟩ m') :
    IsRemoved m' n := by
  rw [removeInteraction_run] at h
  split at h
  · cases h
  rename_i n' hin
  split at h
  · cases h
  rename_i i hi
  cases h
  obtain ⟨hlt, hnm⟩ := indexOf_ok hi
  have hnn : n' = n := by
    unfold internalName at hin
    cases hn with
    | byName n t ht hne hm =>
      subst ht
      have hb : (PyName.str n).truthy = true := by simp [PyName.truthy, hne]
      have hh : m.hasName n = true := (hasName_iff _ _).mpr hm
      simp only [hb, PyTarget.truthy, optInfo, bind, Except.bind, pure, Except.pure, hh, if_true] at hin
      cases hin
      rfl
    | byTarget t i n hd hnm hm =>
      have hb : (PyName.str "").truthy = false := rfl
      have htn : target ≠ .none := by rintro rfl; cases hd
      have hdef := names_empty hnm
      have hh : m.hasName i.defaultName = true := (hasName_iff _ _).mpr (hdef ▸ hm)
      simp [hb, Denotes_truthy hd, optInfo, htn, getInfo_ok_iff.mpr hd] at hin
      change (if m.hasName i.defaultName = true then Except.ok i.defaultName else
        Except.error Err.keyError) = _ at hin
      rw [if_pos hh] at hin
      cases hin
      exact hdef.symm
  subst hnn
  exact ⟨(m.rows.modify i rmRow)[i]'(by simpa using hlt), List.getElem_mem _, by
    simp [rmRow, hnm], by simp [rmRow]⟩

/-- A removed interaction stays removed under every call but `to_physical` and `merge`. -/
theorem C07_removed_stays {m m' : LModel} {n : String} (h : IsRemoved m n)
    (hr : Reach env (fun _ op => (∀ clk o, op ≠ .merge clk o) ∧ ∀ a b c, op ≠ .toPhysical a b c) m m') :
    IsRemoved m' n := by
  induction hr with
  | start => exact h
  | step m' op _ hp ih => exact call_rows (removed_closed n) op m' ih hp.1 hp.2

/-- A removed name cannot be added (ValueError), by name or by default name; nothing changes. -/
theorem C07_removed_not_added {m : LModel} {now : ℚ} {target : PyTarget} {name : PyName} {i : Inter}
    {n : String} {c s : PyCoef} {attributes : PyAttrs} {ts : PyTs} (h : IsRemoved m n)
    (hd : target.Denotes i) (hn : name.Names i n) (hc : c ≠ .bad) (hs : s ≠ .bad)
    (ha : attributes ≠ .bad) (ht : ts ≠ .bad) :
    (addInteraction now target name c s attributes ts).run m = .error .valueError m := by
  obtain ⟨r, hr, rfl, _⟩ := h
  have hh : m.hasName r.name = true := (hasName_iff _ _).mpr (List.mem_map.mpr ⟨r, hr, rfl⟩)
  have hch : addChecks now m target name c s attributes ts = .error .valueError := by
    unfold addChecks
    have h1 : ∀ {p : PyCoef}, p ≠ .bad → ∃ q, checkCoef p = .ok q := by
      intro p hp
      cases p <;> first | exact ⟨_, rfl⟩ | exact absurd rfl hp
    obtain ⟨c', hc'⟩ := h1 hc
    obtain ⟨s', hs'⟩ := h1 hs
    have h2 : addAttrs attributes = .ok attributes.entries := by
      cases attributes <;> first | rfl | exact absurd rfl ha
    have h3 : addTs now ts = .ok (ts.at now) := by
      cases ts <;> first | rfl | exact absurd rfl ht
    simp [Denotes_truthy hd, hc', hs', h2, h3, getInfo_ok_iff.mpr hd, addName_ok_iff.mpr hn, hh]
  rw [addInteraction_run, hch]

/-- A removed interaction cannot be updated (ValueError), by name or target; nothing changes. -/
theorem C07_removed_not_updated {m : LModel} (hu : m.names.Nodup) {importTime now : ℚ}
    {target : PyTarget} {name : PyName} {n : String} {c s : Option ℚ} {attributes : PyAttrs}
    {ts : Option PyTs} (h : IsRemoved m n) (hn : Resolves m target name n) (ha : attributes ≠ .bad)
    (ht : ts ≠ some .bad) :
    (updateInteraction importTime now target name (c.map .num) (s.map .num) attributes ts).run m =
      .error .valueError m := by
  have hc : ∀ x : Option ℚ, checkNum? (x.map PyCoef.num) = .ok x := by intro x; cases x <;> rfl
  have hts : ts.getD (.num importTime) ≠ .bad := by
    cases ts with
    | none => simp
    | some t => intro h; exact ht (by simpa using h)
  obtain ⟨r, hr, hrn, hrm⟩ := h
  have hh : m.hasName n = true := (hasName_iff _ _).mpr (List.mem_map.mpr ⟨r, hr, hrn⟩)
  have hrem : m.isRemoved n = .ok true := by
    obtain ⟨i, hi⟩ := indexOf_of_hasName hh
    obtain ⟨hlt, hnm⟩ := indexOf_ok hi
    unfold LModel.isRemoved
    rw [hi]
    simp only [bind, Except.bind, List.getElem?_eq_getElem hlt]
    obtain ⟨j, hj, rfl⟩ := List.getElem_of_mem hr
    have : i = j := (List.Nodup.getElem_inj_iff hu (hi := by simpa [LModel.names] using hlt)
      (hj := by simpa [LModel.names] using hj)).mp (by simp [LModel.names, hnm, hrn])
    subst this
    rw [hrm]
  have hch : updateChecks importTime m target name (c.map .num) (s.map .num) attributes ts =
      .error .valueError := by
    unfold updateChecks
    cases hn with
    | byName n t htn hne hm =>
      subst htn
      simp [PyTarget.truthy, PyName.truthy, hc, ha, hts, optInfo, updateName, hh, hne, hrem]
    | byTarget t i n hd hnm hm =>
      have htn : target ≠ .none := by rintro rfl; cases hd
      have hdef := names_empty hnm
      subst hdef
      simp [Denotes_truthy hd, PyName.truthy, hc, ha, hts, optInfo, htn, getInfo_ok_iff.mpr hd,
        updateName, hh, hrem]
  rw [updateInteraction_run, hch]

/-- Removing an interaction again succeeds and does not change the energy. -/
theorem C07_remove_again {m : LModel} (hu : m.names.Nodup) {n : String} (hne : n ≠ "") (h : IsRemoved m n) :
    ∃ m', (removeInteraction .none (.str n)).run m = .ok ⟨⟩ m' ∧
      ∀ ρ σ, m'.energy ρ σ = m.energy ρ σ := by
  obtain ⟨r, hr, hrn, hrm⟩ := h
  have hh : m.hasName n = true := (hasName_iff _ _).mpr (List.mem_map.mpr ⟨r, hr, hrn⟩)
  obtain ⟨i, hi⟩ := indexOf_of_hasName hh
  obtain ⟨hlt, hnm⟩ := indexOf_ok hi
  refine ⟨_, by rw [removeByName_run n hne, hi], fun ρ σ => ?_⟩
  simp only [LModel.energy]
  congr 2
  rw [modify_eq_map_of_unique _ hu hlt hnm, List.map_map]
  apply List.map_congr_left
  intro r' hr'
  simp only [Function.comp]
  split
  · rename_i he
    have : r' = r := by
      obtain ⟨a, ha, rfl⟩ := List.getElem_of_mem hr'
      obtain ⟨b, hb, rfl⟩ := List.getElem_of_mem hr
      have : a = b := (List.Nodup.getElem_inj_iff hu (hi := by simpa [LModel.names] using ha)
        (hj := by simpa [LModel.names] using hb)).mp (by simp [LModel.names, he, hrn])
      subst this
      rfl
    subst this
    simp [Row.term, rmRow, hrm]
  · rfl

example : IsRemoved Ex.ising "gone" ∧ Ex.ising.names.Nodup ∧
    Resolves Ex.ising .none (.str "gone") "gone" :=
  ⟨⟨_, List.mem_of_getElem? (i := 2) rfl, by decide, by decide⟩, by decide,
    .byName _ _ rfl (by decide) (by decide)⟩

/-! ## C08: the interaction table stays rectangular -/

/-- Calls that keep the table rectangular: an update names only registered attribute keys, and a
merged model has itself a rectangular table. -/
def RectSafe (m : LModel) : Op → Prop
  | .update _ _ _ _ _ attributes _ => ∀ kv ∈ attributes.entries, "attributes." ++ kv.1 ∈ m.attrs
  | .merge _ other => other.Rect
  | _ => True

theorem step_rect {m : LModel} (op : Op) (ih : m.Rect) (hp : RectSafe m op) : (op.step env m).Rect := by
  have hmap : ∀ {α : Type} {x : Py LModel α}, KeepsRect x →
      KeepsRect (do let _ ← x : Py LModel Unit) := fun hx => .bind hx fun _ => .pure' _
  have hrel : ∀ {α : Type} {x : Py LModel α}, (∀ s, VarsRel s (x.run s).state) → KeepsRect x :=
    fun hx s hs => (hx s).rect hs
  unfold Op.step
  cases op with
  | «variables» n sh => exact hmap (hrel fun s => createVars_rel n sh s) m ih
  | variablesArray a => exact hmap (hrel fun s => variablesArray_rel a s) m ih
  | append n sh => exact hmap (hrel fun s => appendVars_rel n sh s) m ih
  | add now t n c s a ts => exact add_rect _ _ _ _ _ _ _ m ih
  | update now t n c s a ts => exact update_rect' _ _ _ _ _ _ _ _ m ih hp
  | remove t n => exact remove_rect _ _ m ih
  | select v => exact hmap (selectByVariable_inv v) m ih
  | delete v => exact delete_rect v m ih
  | fix clk v q => exact fix_rect clk v q m ih
  | addConstraint c => exact rect_same ih rfl rfl rfl rfl
  | removeConstraint l =>
    simp only [Op.call, removeConstraint]
    py_simp
    split
    · exact ih
    · exact rect_same ih rfl rfl rfl rfl
  | setOffset c => exact rect_same ih rfl rfl rfl rfl
  | fromPyqubo now pm =>
    exact withSnd_inv pm (fromPyqubo_inv (I := LModel.Rect) add_rect
      (fun _ _ h => rect_same h rfl rfl rfl rfl) now) m ih
  | toIsing clk => exact toIsing_rect env clk m ih
  | toQubo clk => exact toQubo_rect env clk m ih
  | merge clk o =>
    have := (merge_rect env clk m o ih hp).1
    simp only [Op.call, withSnd]
    cases hr : (merge env clk).run (m, o) with
    | ok u t => rw [hr] at this; exact this
    | error e t => rw [hr] at this; exact this
  | toPhysical a b c => exact hmap (toPhysical_rect env a b c) m ih

/-- In every state reached by calls, successful or raising, in which updates use only attribute keys
that were introduced by an add, every column has one entry per interaction. (`_partial`: an update
with a new key breaks it, see below.) -/
theorem C08_rect_partial {mt : MType} {id : String} {m : LModel}
    (h : Reach env RectSafe (LModel.new mt id) m) : m.Rect := by
  induction h with
  | start => exact new_rect mt id
  | step m op _ hp ih => exact step_rect op ih hp

/-- In a rectangular model `select_interaction`, `select_interactions_by_variable` and the other users
of the data frame do not raise. -/
theorem C08_rect_frame {m : LModel} (h : m.Rect) : makeFrame.run m = .ok ⟨⟩ m := by
  unfold makeFrame
  py_simp
  rw [if_neg]
  simp only [List.any_eq_true, not_exists, not_and]
  intro p hp
  simp [h.cols p hp]

/-- An update that brings a new attribute key, followed by an add, leaves columns of different
lengths, and building the data frame raises ValueError. -/
theorem C08_rect_refuted :
    let m := Ex.after (LModel.new .ising "1") (do
      addInteraction 1 (.var Ex.x0) (.str "") (.num 1) (.num 1) .none .none
      updateInteraction 0 2 .none (.str "x[0]") none none (.dict [("a", .num 7)]) none
      addInteraction 3 (.var Ex.x1) (.str "") (.num 1) (.num 1) .none .none)
    m.rows.length = 2 ∧ m.attrCols.map (·.2.length) = [1] ∧
      makeFrame.run m = .error .valueError m := by
  decide

example : RectSafe Ex.ising (.update 0 .none (.str "x[0]") none none (.dict [("a", .nan)]) none) := by
  intro kv hkv
  simp only [PyAttrs.entries, List.mem_singleton] at hkv
  subst hkv
  decide

end Sawatabi.Props
