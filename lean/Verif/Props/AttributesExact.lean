import Verif.Props.Attributes
import Verif.Props.RaggedCalls

/-!
# C09, exactly: what `get_attribute` returns after an update, on every table
-/

namespace Sawatabi.Props

variable {m m' : LModel} {importTime now : ℚ} {target t : PyTarget} {name nm : PyName}

/-- All registered attributes have a value in this line. -/
def LineFull (m : LModel) (idx : Nat) : Prop := ∀ a ∈ m.attrs, ∃ v, m.cell a idx = some v

/-- On any table `get_attribute` reads the attribute if it is registered and all registered attributes have a value in the line
of the interaction. -/
theorem getAttribute_full {n : String} {idx : Nat} (hn : Resolves m target name n) (hi : m.indexOf n = .ok idx)
    (hf : LineFull m idx) (key : String) :
    m.getAttribute target name key = if key ∈ m.attrs then (match m.cell key idx with | some v => .ok v | none => .error .keyError)
      else .error .keyError := by
  obtain ⟨d, hd, hk⟩ := attrFold_ok m idx m.attrs hf []
  unfold LModel.getAttribute LModel.getAttributes
  rw [internalName_of_resolves hn]
  simp only [bind, Except.bind, hi]
  rw [hd]
  simp only
  rw [hk key]
  by_cases hm : key ∈ m.attrs
  · simp only [if_pos hm]; cases m.cell key idx <;> rfl
  · simp only [if_neg hm]; rfl

/-- Otherwise it raises. -/
theorem getAttribute_lacks {n : String} {idx : Nat} (hn : Resolves m target name n) (hi : m.indexOf n = .ok idx)
    (hf : ¬ LineFull m idx) (key : String) :
    m.getAttribute target name key = .error .keyError ∨ m.getAttribute target name key = .error .indexError := by
  have key' : ∀ (l : List String) res, (¬ ∀ a ∈ l, ∃ v, m.cell a idx = some v) →
      l.foldlM (attrFold m idx) res = .error .keyError ∨ l.foldlM (attrFold m idx) res = .error .indexError := by
    intro l
    induction l with
    | nil => intro res h; exact absurd (by simp) h
    | cons a l ih =>
      intro res h
      rw [List.foldlM_cons]
      cases hc : m.cell a idx with
      | some v =>
        have ha : attrFold m idx res a = .ok (dset res a v) := by
          unfold LModel.cell at hc
          unfold attrFold
          cases hg : dget m.attrCols a with
          | none => rw [hg] at hc; cases hc
          | some col =>
            rw [hg] at hc
            simp only [Option.bind_some] at hc
            simp only [hc]
        rw [ha]
        refine ih _ fun hl => h fun b hb => ?_
        rcases List.mem_cons.mp hb with rfl | hb
        · exact ⟨v, hc⟩
        · exact hl b hb
      | none =>
        unfold LModel.cell at hc
        unfold attrFold
        cases hg : dget m.attrCols a with
        | none => left; rfl
        | some col =>
          rw [hg] at hc
          simp only [Option.bind_some] at hc
          right
          simp only [hc]
          rfl
  unfold LModel.getAttribute LModel.getAttributes
  rw [internalName_of_resolves hn]
  simp only [bind, Except.bind, hi]
  rcases key' m.attrs [] hf with h | h <;> rw [h] <;> simp

/-- What one attribute of an update does to the cells. -/
theorem setAttrAt_cells {idx : Nat} {kv : String × PyVal} (h : (setAttrAt idx kv).run m = .ok ⟨⟩ m') :
    m'.rows = m.rows ∧ m'.attrs = m.attrs ∧ m'.cell (attrKey kv.1) idx = some kv.2 ∧
    (∀ a, a ≠ attrKey kv.1 → dget m'.attrCols a = dget m.attrCols a) ∧
    (dget m'.attrCols (attrKey kv.1)).isSome ∧
    ∀ i, i ≠ idx → (dget m.attrCols (attrKey kv.1)).isSome → m'.cell (attrKey kv.1) i = m.cell (attrKey kv.1) i := by
  have hrun : (setAttrAt idx kv).run m =
      match (dget m.attrCols (attrKey kv.1)).getD (List.replicate m.length.toNat PyVal.nan) with
      | col => if idx < col.length then .ok ⟨⟩ { m with attrCols := dset (if (dget m.attrCols (attrKey kv.1)).isSome then m.attrCols
          else dset m.attrCols (attrKey kv.1) (List.replicate m.length.toNat PyVal.nan)) (attrKey kv.1) (col.set idx kv.2) }
        else .error .indexError { m with attrCols := (if (dget m.attrCols (attrKey kv.1)).isSome then m.attrCols
            else dset m.attrCols (attrKey kv.1) (List.replicate m.length.toNat PyVal.nan)) } := by
    unfold setAttrAt
    py_simp
    cases hg : dget m.attrCols (attrKey kv.1) with
    | none =>
      simp only [Option.isNone_none, if_true, Option.getD_none, Option.isSome_none, Bool.false_eq_true, if_false]
      rw [dget_dset_self]
      simp only
      split <;> rfl
    | some col =>
      simp only [Option.isNone_some, Bool.false_eq_true, if_false, Option.getD_some, Option.isSome_some, if_true]
      split <;> rfl
  rw [hrun] at h
  simp only at h
  split at h
  · rename_i hlt
    cases h
    refine ⟨rfl, rfl, ?_, fun a ha => ?_, ?_, fun i hi hs => ?_⟩
    · simp only [LModel.cell, dget_dset_self, Option.bind_some]
      rw [List.getElem?_set_self hlt]
    · simp only
      rw [dget_dset_ne _ _ ha]
      split
      · rfl
      · rw [dget_dset_ne _ _ ha]
    · simp [dget_dset_self]
    · obtain ⟨col, hcol⟩ := Option.isSome_iff_exists.mp hs
      simp only [LModel.cell, dget_dset_self, Option.bind_some, hcol, Option.getD_some]
      rw [List.getElem?_set_ne (Ne.symm hi)]
  · cases h

theorem setAttrs_cells {idx : Nat} {d : List (String × PyVal)} (h : (d.forM (setAttrAt idx)).run m = .ok ⟨⟩ m') :
    m'.rows = m.rows ∧ m'.attrs = m.attrs ∧
    (∀ a, (dget m.attrCols a).isSome → (dget m'.attrCols a).isSome) ∧
    (∀ a, (∀ kv ∈ d, a ≠ "attributes." ++ kv.1) → dget m'.attrCols a = dget m.attrCols a) ∧
    (∀ a i, i ≠ idx → (dget m.attrCols a).isSome → m'.cell a i = m.cell a i) ∧
    ((dkeys d).Nodup → ∀ kv ∈ d, m'.cell ("attributes." ++ kv.1) idx = some kv.2) := by
  induction d generalizing m with
  | nil => cases h; exact ⟨rfl, rfl, fun _ h => h, fun _ _ => rfl, fun _ _ _ _ => rfl, by simp⟩
  | cons kv d ih =>
    rw [Py.run_forM_cons] at h
    cases hr : (setAttrAt idx kv).run m with
    | error e m1 => rw [hr] at h; cases h
    | ok u m1 =>
      rw [hr] at h
      simp only at h
      obtain ⟨a1, a2, a3, a4, a5, a6⟩ := setAttrAt_cells hr
      obtain ⟨b1, b2, b3, b4, b5, b6⟩ := ih h
      have hsome : ∀ a, (dget m.attrCols a).isSome → (dget m1.attrCols a).isSome := by
        intro a ha
        by_cases he : a = attrKey kv.1
        · rw [he]; exact a5
        · rw [a4 a he]; exact ha
      refine ⟨b1.trans a1, b2.trans a2, fun a ha => b3 a (hsome a ha), fun a ha => ?_, fun a i hi ha => ?_, fun hnd => ?_⟩
      · rw [b4 a fun kv' h' => ha kv' (by simp [h'])]
        exact a4 a (ha kv (by simp))
      · rw [b5 a i hi (hsome a ha)]
        by_cases he : a = attrKey kv.1
        · subst he; exact a6 i hi ha
        · unfold LModel.cell; rw [a4 a he]
      · have hnd' : kv.1 ∉ dkeys d ∧ (dkeys d).Nodup := by simpa [dkeys] using hnd
        intro x hx
        rcases List.mem_cons.mp hx with rfl | hx
        · have : m'.cell ("attributes." ++ x.1) idx = m1.cell ("attributes." ++ x.1) idx := by
            unfold LModel.cell
            rw [b4 _ fun kv' h' he => hnd'.1 ?_]
            have : x.1 = kv'.1 := by simpa using he
            rw [this]
            exact List.mem_map_of_mem h'
          rw [this]; exact a3
        · exact b6 hnd'.2 x hx

/-- The result of an update that does not add, on any table. -/
theorem update_cells {c s : Option PyCoef} {d : List (String × PyVal)} {ts : Option PyTs} {n : String}
    (hn : Resolves m target name n)
    (h : (updateInteraction importTime now target name c s (.dict d) ts).run m = .ok ⟨⟩ m') :
    m'.names = m.names ∧ m'.attrs = m.attrs ∧ ∃ idx, m.indexOf n = .ok idx ∧
      (∀ a, (∀ kv ∈ d, a ≠ "attributes." ++ kv.1) → dget m'.attrCols a = dget m.attrCols a) ∧
      (∀ a i, i ≠ idx → (dget m.attrCols a).isSome → m'.cell a i = m.cell a i ∧ (dget m'.attrCols a).isSome) ∧
      ((dkeys d).Nodup → ∀ kv ∈ d, m'.cell ("attributes." ++ kv.1) idx = some kv.2) := by
  rw [updateInteraction_run] at h
  split at h
  · cases h
  · rename_i hc
    exfalso
    obtain ⟨he, ⟨i, hd, hnot⟩, _⟩ := updateChecks_add hc
    cases hn with
    | byName n t ht hne hm => simp only [PyName.str.injEq] at he; exact absurd he hne
    | byTarget t j n hd' hnm hm =>
      have := getInfo_ok_iff.mpr hd
      rw [getInfo_ok_iff.mpr hd'] at this
      cases this
      rw [names_empty hnm] at hm
      exact hnot hm
  · rename_i idx c' s' ats ts' hc
    obtain ⟨⟨n', hr, hi, hrm⟩, _, _, _, hats, _, _⟩ := updateChecks_write hc
    simp only [PyAttrs.entries] at hats
    subst hats
    obtain rfl := hn.unique hr
    rw [writeRow_run] at h
    split at h
    · rename_i t ht
      cases h
      obtain ⟨a1, a2, a3, a4, a5, a6⟩ := setAttrs_cells ht
      refine ⟨?_, a2, idx, hi, a4, fun a i hi ha => ⟨a5 a i hi ha, a3 a ha⟩, a6⟩
      have e1 := map_name_modify t.rows idx (fun r => { r with timestamp := ts', dirty := true }) (fun _ => rfl)
      have e2 := map_name_modify m.rows idx (updRow₁ c' s') (fun _ => by cases c' <;> cases s' <;> rfl)
      unfold LModel.names
      rw [e1, a1]
      exact e2
    · cases h

/-- **C09** after a successful update of an existing interaction, on any table: the value given for an attribute is read back
exactly if the attribute is registered and all registered attributes have a value in that line; otherwise reading raises. -/
theorem C09_update_exact {c s : Option PyCoef} {d : List (String × PyVal)} (hd : (dkeys d).Nodup) {ts : Option PyTs} {n : String}
    (hn : Resolves m target name n) {idx : Nat} (hi : m.indexOf n = .ok idx)
    (h : (updateInteraction importTime now target name c s (.dict d) ts).run m = .ok ⟨⟩ m')
    (hr : Resolves m' t nm n) {k : String} {v : PyVal} (hkv : (k, v) ∈ d) :
    (m'.getAttribute t nm ("attributes." ++ k) = .ok v ↔
      "attributes." ++ k ∈ m.attrs ∧ ∀ a ∈ m.attrs, (∃ kv ∈ d, a = "attributes." ++ kv.1) ∨ ∃ w, m.cell a idx = some w) ∧
    (m'.getAttribute t nm ("attributes." ++ k) ≠ .ok v →
      m'.getAttribute t nm ("attributes." ++ k) = .error .keyError ∨
      m'.getAttribute t nm ("attributes." ++ k) = .error .indexError) := by
  obtain ⟨h1, h2, idx', hi', h3, h4, h5⟩ := update_cells hn h
  rw [hi] at hi'
  cases hi'
  have hfull : LineFull m' idx ↔ ∀ a ∈ m.attrs, (∃ kv ∈ d, a = "attributes." ++ kv.1) ∨ ∃ w, m.cell a idx = some w := by
    unfold LineFull
    rw [h2]
    refine forall₂_congr fun a ha => ?_
    by_cases hex : ∃ kv ∈ d, a = "attributes." ++ kv.1
    · obtain ⟨kv, hkv, rfl⟩ := hex
      simp only [h5 hd kv hkv, Option.some.injEq, exists_eq', true_iff]
      exact .inl ⟨kv, hkv, rfl⟩
    · have : m'.cell a idx = m.cell a idx := by
        unfold LModel.cell
        rw [h3 a fun kv hkv he => hex ⟨kv, hkv, he⟩]
      rw [this]
      simp [hex]
  have hi2 : m'.indexOf n = .ok idx := by rw [indexOf_names h1]; exact hi
  have hv : m'.cell ("attributes." ++ k) idx = some v := h5 hd (k, v) hkv
  rw [← hfull]
  by_cases hf : LineFull m' idx
  · rw [getAttribute_full hr hi2 hf, h2, hv]
    by_cases hk : "attributes." ++ k ∈ m.attrs <;> simp [hk, hf]
  · rcases getAttribute_lacks hr hi2 hf ("attributes." ++ k) with h | h <;> rw [h] <;> simp [hf]

/-- So on rectangular tables: exactly if the attribute is registered, and otherwise reading raises KeyError. -/
theorem C09_update_iff (hm : m.Rect) {c s : Option PyCoef} {d : List (String × PyVal)} (hd : (dkeys d).Nodup) {ts : Option PyTs}
    {n : String} (hn : Resolves m target name n)
    (h : (updateInteraction importTime now target name c s (.dict d) ts).run m = .ok ⟨⟩ m')
    (hr : Resolves m' t nm n) {k : String} {v : PyVal} (hkv : (k, v) ∈ d) :
    m'.getAttribute t nm ("attributes." ++ k) = if "attributes." ++ k ∈ m.attrs then .ok v else .error .keyError := by
  obtain ⟨h1, h2, idx, hi, h3, h4, h5⟩ := update_cells hn h
  have hlt := (indexOf_ok hi).1
  have hf : LineFull m' idx := by
    intro a ha
    rw [h2] at ha
    by_cases hex : ∃ kv ∈ d, a = "attributes." ++ kv.1
    · obtain ⟨kv, hkv, rfl⟩ := hex
      exact ⟨_, h5 hd kv hkv⟩
    · have : m'.cell a idx = m.cell a idx := by
        unfold LModel.cell
        rw [h3 a fun kv hkv he => hex ⟨kv, hkv, he⟩]
      rw [this]
      exact hm.cell_some ha hlt
  rw [getAttribute_full hr (by rw [indexOf_names h1]; exact hi) hf, h2, h5 hd (k, v) hkv]

/-- The attributes of other interactions can be read exactly as before, on every table that calls can make. -/
theorem C09_update_others {env : Env} (hm : Made env AnyCall m) {c s : Option PyCoef} {d : List (String × PyVal)} {ts : Option PyTs}
    {n n' : String} (hn : Resolves m target name n)
    (h : (updateInteraction importTime now target name c s (.dict d) ts).run m = .ok ⟨⟩ m')
    (hr : Resolves m t nm n') (hne : n' ≠ n) (key : String) : m'.getAttribute t nm key = m.getAttribute t nm key := by
  obtain ⟨h1, h2, idx, hi, h3, h4, h5⟩ := update_cells hn h
  obtain ⟨idx', hidx'⟩ := indexOf_mem hr.mem
  have hne' : idx' ≠ idx := by
    rintro rfl
    exact hne ((indexOf_ok hidx').2.symm.trans (indexOf_ok hi).2)
  have hreg := made_reg hm
  have hr' : Resolves m' t nm n' := hr.mono (by rw [h1]; exact hr.mem)
  have hi2 : m'.indexOf n' = .ok idx' := by rw [indexOf_names h1]; exact hidx'
  have hfold : ∀ (l : List String) res, (∀ a ∈ l, a ∈ m.attrs) →
      l.foldlM (attrFold m' idx') res = l.foldlM (attrFold m idx') res := by
    intro l
    induction l with
    | nil => intro res _; rfl
    | cons a l ih =>
      intro res hl
      obtain ⟨col, hcol⟩ := (dget_isSome_iff m.attrCols a).mpr (hreg.2 a (hl a (by simp)))
      obtain ⟨hcell, hsome⟩ := h4 a idx' hne' (by rw [hcol]; rfl)
      obtain ⟨col', hcol'⟩ := Option.isSome_iff_exists.mp hsome
      have : attrFold m' idx' res a = attrFold m idx' res a := by
        unfold LModel.cell at hcell
        rw [hcol, hcol'] at hcell
        simp only [Option.bind_some] at hcell
        unfold attrFold
        rw [hcol, hcol']
        simp only [hcell]
      rw [List.foldlM_cons, List.foldlM_cons, this]
      exact bind_congr fun r => ih r fun b hb => hl b (by simp [hb])
  unfold LModel.getAttribute LModel.getAttributes
  rw [internalName_of_resolves hr', internalName_of_resolves hr]
  simp only [bind, Except.bind, hi2, hidx', h2]
  rw [hfold m.attrs [] fun _ h => h]

/-- Another interaction on a table with columns of different lengths. -/
example : ∃ m m', Made ⟨0, fun _ => ""⟩ AnyCall m ∧ m.rows.length = 2 ∧ m.attrCols.map (·.2.length) = [1] ∧
    (updateInteraction 0 3 .none (.str "x[0]") none none (.dict [("a", .num 8)]) none).run m = .ok ⟨⟩ m' ∧
    Resolves m .none (.str "x[0]") "x[0]" ∧ Resolves m .none (.str "x[1]") "x[1]" := by
  refine ⟨_, _, .step _ (.add 3 (.var Ex.x1) (.str "") (.num 1) (.num 1) .none .none) (.step _ (.update 2 .none (.str "x[0]") none none
    (.dict [("a", .num 7)]) none) (.step _ (.add 1 (.var Ex.x0) (.str "") (.num 1) (.num 1) .none .none) (.new .ising "1") trivial
    (by simp)) trivial (by simp)) trivial (by simp), by decide +kernel, by decide +kernel, rfl,
    .byName _ _ rfl (by decide) (by decide +kernel), .byName _ _ rfl (by decide) (by decide +kernel)⟩

/-- Updates of a line with a registered and with a new attribute, on the model of the other examples. -/
example : Ex.ising.Rect ∧ (dkeys [("new", PyVal.num 1), ("a", .num 2)]).Nodup ∧ Resolves Ex.ising .none (.str "x[0]") "x[0]" ∧
    ∃ m', (updateInteraction 0 20 .none (.str "x[0]") none none (.dict [("new", .num 1), ("a", .num 2)]) none).run Ex.ising
      = .ok ⟨⟩ m' ∧ Resolves m' .none (.str "x[0]") "x[0]" ∧ "attributes.a" ∈ Ex.ising.attrs ∧ "attributes.new" ∉ Ex.ising.attrs := by
  refine ⟨⟨by decide, by decide, by decide, by decide⟩, by decide, .byName _ _ rfl (by decide) (by decide), _, rfl, .byName _ _ rfl (by decide) (by decide),
    by decide, by decide⟩

end Sawatabi.Props
