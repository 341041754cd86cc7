import Verif.Lemmas.Merge

/-!
# Lemmas about to_physical: its effect on the logical model
-/

namespace Sawatabi

/-- The loop that pops one position from every column. -/
theorem popCol_loop (idx : Nat) (l : List String) (s : LModel) (hl : l.Nodup)
    (hk : ∀ k ∈ l, ∃ c, dget s.attrCols k = some c ∧ idx < c.length) :
    ∃ c, (l.forM (popCol idx)).run s = .ok ⟨⟩ { s with attrCols := c } ∧ dkeys c = dkeys s.attrCols ∧
      ∀ k, dget c k = if k ∈ l then (dget s.attrCols k).map (·.eraseIdx idx) else dget s.attrCols k := by
  induction l generalizing s with
  | nil => exact ⟨s.attrCols, rfl, rfl, fun k => by simp⟩
  | cons a l ih =>
    obtain ⟨col, hcol, hlt⟩ := hk a (by simp)
    have ha : (popCol idx a).run s =
        .ok ⟨⟩ { s with attrCols := dset s.attrCols a (col.eraseIdx idx) } := by
      unfold popCol
      py_simp
      rw [hcol]
      simp only
      rw [if_pos hlt]
      rfl
    have hmem : a ∈ dkeys s.attrCols := (dget_isSome_iff _ _).mp ⟨col, hcol⟩
    have hnd := List.nodup_cons.mp hl
    obtain ⟨c, hr, hkeys, hget⟩ := ih { s with attrCols := dset s.attrCols a (col.eraseIdx idx) } hnd.2
      (by
        intro k hkl
        obtain ⟨c, hc, hlt⟩ := hk k (by simp [hkl])
        have hne : k ≠ a := by rintro rfl; exact hnd.1 hkl
        exact ⟨c, by simpa [dget_dset_ne _ _ hne] using hc, hlt⟩)
    refine ⟨c, ?_, ?_, ?_⟩
    · rw [Py.run_forM_cons, ha]; exact hr
    · rw [hkeys]; simp only; rw [dkeys_dset_of_mem _ hmem]
    · intro k
      rw [hget k]
      by_cases hka : k = a
      · subst hka
        simp [hnd.1, hcol, dget_dset_self]
      · simp [hka, dget_dset_ne _ _ hka]

/-- Popping a row: default columns, attribute columns and the length. -/
theorem popRow_ok (n : String) (m : LModel) (hm : m.Rect) {i : Nat} (hi : m.indexOf n = .ok i) :
    ∃ c, (popRow n).run m =
        .ok ⟨⟩ { m with rows := m.rows.eraseIdx i, attrCols := c, length := m.length - 1 } ∧
      LModel.Rect { m with rows := m.rows.eraseIdx i, attrCols := c, length := m.length - 1 } ∧
      ∀ k, dget c k = (dget m.attrCols k).map (·.eraseIdx i) := by
  obtain ⟨hlt, _⟩ := indexOf_ok hi
  obtain ⟨c, hr, hkeys, hget⟩ := popCol_loop i (dkeys m.attrCols) { m with rows := m.rows.eraseIdx i }
    (by rw [hm.keys]; exact hm.nodup)
    (by
      intro k hk
      obtain ⟨c, hc⟩ := (dget_isSome_iff _ _).mpr hk
      exact ⟨c, hc, by rw [hm.toCols.cols k c hc]; exact hlt⟩)
  have hget' : ∀ k, dget c k = (dget m.attrCols k).map (·.eraseIdx i) := by
    intro k
    rw [hget k]
    by_cases hk : k ∈ dkeys m.attrCols
    · simp [hk]
    · simp only [hk, if_false]
      rw [(dget_eq_none_iff _ _).mpr hk]
      rfl
  refine ⟨c, ?_, ?_, hget'⟩
  · unfold popRow
    py_simp
    rw [hi]
    simp only [Py.run_liftE_ok]
    rw [hr]
  · refine Cols.toRect (n := m.rows.length - 1) ⟨?_, hm.nodup, ?_⟩ ?_ ?_
    · rw [← hm.keys]; exact hkeys
    · intro k c' hc'
      simp only at hc'
      rw [hget' k] at hc'
      obtain ⟨c₀, hc₀, rfl⟩ := Option.map_eq_some_iff.mp hc'
      have := hm.toCols.cols k c₀ hc₀
      rw [List.length_eraseIdx_of_lt (by omega), this]
    · simp [List.length_eraseIdx_of_lt hlt]
    · simp only [List.length_eraseIdx_of_lt hlt, hm.len]
      omega

theorem popRow_rect (n : String) : KeepsRect (popRow n) := by
  intro m hm
  cases hi : m.indexOf n with
  | error e =>
    unfold popRow
    py_simp
    rw [hi]
    exact hm
  | ok i =>
    obtain ⟨c, hr, hrect, _⟩ := popRow_ok n m hm hi
    rw [hr]
    exact hrect

/-- The model with its own interactions restored after the constraints were merged. -/
def restored (orig m : LModel) : LModel :=
  { m with offset := orig.offset, deleted := orig.deleted, fixed := orig.fixed, rows := orig.rows,
           attrCols := orig.attrCols, attrs := orig.attrs, length := orig.length }

/-- The dirty marks cleared. -/
def markClean (m : LModel) : LModel :=
  { m with rows := (m.rows.take m.length.toNat).map (fun r => { r with dirty := false }) ++
      m.rows.drop m.length.toNat }

theorem toPhysical_run (env : Env) (clks : Nat → Nat → ℚ) (ids : Nat → String) (ph : List (String × ℚ))
    (m : LModel) :
    (toPhysical env clks ids ph).run m =
      match (m.constraints.zipIdx.forM (mergeConstraint env clks ids)).run m with
      | .error e m₁ => .error e m₁
      | .ok _ m₁ =>
        match group ph m₁ with
        | .error e => .error e m₁
        | .ok g =>
          match m₁.offset.resolve ph with
          | .error e => .error e m₁
          | .ok off =>
            match (g.willRemove.forM popRow).run (restored m m₁) with
            | .error e m₂ => .error e m₂
            | .ok _ m₂ => .ok (buildPhysical m₁ g off) (markClean m₂) := by
  unfold toPhysical
  py_simp
  cases (m.constraints.zipIdx.forM (mergeConstraint env clks ids)).run m with
  | error e m₁ => rfl
  | ok u m₁ =>
    simp only
    cases group ph m₁ with
    | error e => rfl
    | ok g =>
      simp only [Py.run_liftE_ok]
      cases m₁.offset.resolve ph with
      | error e => rfl
      | ok off =>
        simp only [Py.run_liftE_ok]
        unfold restored
        generalize (g.willRemove.forM popRow).run _ = r
        cases r with
        | error e m₂ => rfl
        | ok u m₂ => rfl

theorem markClean_rect {m : LModel} (h : m.Rect) : (markClean m).Rect := by
  refine rect_same h rfl ?_ rfl rfl
  simp only [markClean, List.length_append, List.length_map, List.length_take, List.length_drop]
  omega

theorem restored_rect {o m : LModel} (h : o.Rect) : (restored o m).Rect := rect_same h rfl rfl rfl rfl

theorem toPhysical_rect (env : Env) (clks : Nat → Nat → ℚ) (ids : Nat → String) (ph : List (String × ℚ)) :
    KeepsRect (toPhysical env clks ids ph) := by
  intro m hm
  rw [toPhysical_run]
  have h1 : KeepsRect (m.constraints.zipIdx.forM (mergeConstraint env clks ids)) :=
    .forM fun p _ => mergeConstraint_rect env clks ids p
  have h1 := h1 m hm
  cases hr : (m.constraints.zipIdx.forM (mergeConstraint env clks ids)).run m with
  | error e m₁ => rw [hr] at h1; exact h1
  | ok u m₁ =>
    rw [hr] at h1
    simp only
    cases group ph m₁ with
    | error e => exact h1
    | ok g =>
      simp only
      cases m₁.offset.resolve ph with
      | error e => exact h1
      | ok off =>
        simp only
        have h2 : KeepsRect (g.willRemove.forM popRow) := .forM fun n _ => popRow_rect n
        have h2 := h2 (restored m m₁) (restored_rect hm)
        cases hp : (g.willRemove.forM popRow).run (restored m m₁) with
        | error e m₂ => rw [hp] at h2; exact h2
        | ok u m₂ => rw [hp] at h2; exact markClean_rect h2

/-! ## from_pyqubo -/

theorem fromPyqubo_inv {I : LModel → Prop}
    (hadd : ∀ now t n c s a ts, Py.Preserves I (addInteraction now t n c s a ts))
    (hoff : ∀ (m : LModel) o, I m → I { m with offset := o }) (now : ℚ) :
    Py.Preserves (fun p : LModel × PModel => I p.1) (fromPyqubo now) := by
  unfold fromPyqubo
  refine .bind_get fun s hs => ?_
  have hstep : ∀ kv, Py.Preserves (fun p : LModel × PModel => I p.1) (fromPyquboStep now kv) := by
    intro kv
    have hfst : ∀ {x : Py LModel Unit}, Py.Preserves I x →
        Py.Preserves (fun p : LModel × PModel => I p.1) (onFst x) := by
      intro x hx p hp
      rw [onFst_run]
      have := hx p.1 hp
      cases h : x.run p.1 with
      | ok a t => rw [h] at this; exact this
      | error e t => rw [h] at this; exact this
    unfold fromPyquboStep
    refine .bind .get' fun s => .bind (.liftE' _) fun t0 => .bind (.liftE' _) fun t1 => ?_
    have htail : Py.Preserves (fun p : LModel × PModel => I p.1)
        (if kv.1.1 = kv.1.2 then
          onFst (addInteraction now (.var t0) (.str "") (negCoef kv.2).toPy (.num 1) .none .none)
        else
          onFst (addInteraction now (.tuple [some t0, some t1]) (.str "") (negCoef kv.2).toPy (.num 1)
            .none .none)) := .ite (hfst (hadd _ _ _ _ _ _ _)) (hfst (hadd _ _ _ _ _ _ _))
    by_cases h : (!kv.2.isNum) = true
    · simp only [h, if_true]
      exact .bind (.modify' fun s h => h) fun _ => htail
    · simp only [h]
      exact htail
  have htail : Py.Preserves (fun p : LModel × PModel => I p.1)
      (modify fun s : LModel × PModel => ({ s.1 with offset := s.2.offset }, s.2)) :=
    .modify' fun s h => hoff _ _ h
  exact Py.Preserves.bind (.forM fun kv _ => hstep kv) (fun _ => htail) s hs

theorem withSnd_inv {σ τ : Type} {I : σ → Prop} {x : Py (σ × τ) Unit} (t : τ)
    (h : Py.Preserves (fun p : σ × τ => I p.1) x) : Py.Preserves I (withSnd t x) := by
  intro s hs
  have := h (s, t) hs
  unfold withSnd
  simp only
  cases hr : x.run (s, t) with
  | ok a p => rw [hr] at this; exact this
  | error e p => rw [hr] at this; exact this

/-! ## Rows under to_physical, without assumptions on the columns -/

theorem popCol_rows (idx : Nat) (k : String) (m : LModel) : ((popCol idx k).run m).state.rows = m.rows := by
  unfold popCol
  py_simp
  cases dget m.attrCols k with
  | none => rfl
  | some c =>
    simp only
    split <;> rfl

theorem popRow_sublist (n : String) (m : LModel) :
    List.Sublist ((popRow n).run m).state.rows m.rows := by
  unfold popRow
  py_simp
  cases m.indexOf n with
  | error e => exact List.Sublist.refl _
  | ok i =>
    simp only [Py.run_liftE_ok]
    have h := Py.forM_rel (R := fun s t : LModel => t.rows = s.rows) (fun _ => rfl)
      (fun a b c h1 h2 => by rw [h2, h1]) (popCol i) (dkeys m.attrCols)
      (fun k _ s => popCol_rows i k s) { m with rows := m.rows.eraseIdx i }
    cases hr : ((dkeys m.attrCols).forM (popCol i)).run { m with rows := m.rows.eraseIdx i } with
    | error e t =>
      rw [hr] at h
      simp only [Res.state] at h ⊢
      rw [h]
      exact List.eraseIdx_sublist _ _
    | ok u t =>
      rw [hr] at h
      simp only [Res.state] at h ⊢
      rw [h]
      exact List.eraseIdx_sublist _ _

theorem popRows_sublist (l : List String) (m : LModel) :
    List.Sublist ((l.forM popRow).run m).state.rows m.rows :=
  Py.forM_rel (R := fun s t : LModel => List.Sublist t.rows s.rows) (fun _ => List.Sublist.refl _)
    (fun a b c h1 h2 => h2.trans h1) popRow l (fun n _ s => popRow_sublist n s) m

theorem markClean_names (m : LModel) : (markClean m).rows.map (·.name) = m.rows.map (·.name) := by
  simp only [markClean, List.map_append, List.map_map]
  conv_rhs => rw [← List.take_append_drop m.length.toNat m.rows, List.map_append]
  rfl

/-- A successful to_physical only drops rows. -/
theorem toPhysical_ok_sublist {env : Env} {clks : Nat → Nat → ℚ} {ids : Nat → String}
    {ph : List (String × ℚ)} {m m' : LModel} {p : Physical}
    (h : (toPhysical env clks ids ph).run m = .ok p m') :
    List.Sublist (m'.rows.map (·.name)) (m.rows.map (·.name)) := by
  rw [toPhysical_run] at h
  split at h
  · cases h
  rename_i m₁ _
  split at h
  · cases h
  rename_i g _
  split at h
  · cases h
  have hs := popRows_sublist g.willRemove (restored m m₁)
  split at h
  · cases h
  rename_i m₂ hm₂
  rw [hm₂] at hs
  cases h
  rw [markClean_names]
  exact hs.map _

/-- Without constraints, to_physical only drops rows, also when it raises. -/
theorem toPhysical_sublist {env : Env} {clks : Nat → Nat → ℚ} {ids : Nat → String}
    {ph : List (String × ℚ)} {m : LModel} (hc : m.constraints = []) :
    List.Sublist (((toPhysical env clks ids ph).run m).state.rows.map (·.name)) (m.rows.map (·.name)) := by
  cases h : (toPhysical env clks ids ph).run m with
  | ok p m' => exact toPhysical_ok_sublist h
  | error e m' =>
    rw [toPhysical_run, hc] at h
    simp only [List.zipIdx_nil, Py.run_forM_nil] at h
    split at h
    · cases h; exact List.Sublist.refl _
    rename_i g _
    split at h
    · cases h; exact List.Sublist.refl _
    have hs := popRows_sublist g.willRemove (restored m m)
    split at h
    · rename_i m₂ hm₂
      rw [hm₂] at hs
      cases h
      exact hs.map _
    · cases h

end Sawatabi
