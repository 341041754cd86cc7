import Verif.Lemmas.Update

/-!
# `get_attributes`, `get_attribute` and name resolution
-/

namespace Sawatabi

/-- The name resolution of remove and get_attributes. -/
theorem internalName_of_resolves {m : LModel} {target : PyTarget} {name : PyName} {n : String}
    (hn : Resolves m target name n) : internalName m target name = .ok n := by
  unfold internalName
  cases hn with
  | byName n t ht hne hm =>
    subst ht
    have hb : (PyName.str n).truthy = true := by simp [PyName.truthy, hne]
    have hh : m.hasName n = true := (hasName_iff _ _).mpr hm
    simp only [hb, PyTarget.truthy, optInfo, bind, Except.bind, pure, Except.pure, hh, if_true]
    rfl
  | byTarget t i n hd hnm hm =>
    have hb : (PyName.str "").truthy = false := rfl
    have htn : target ≠ .none := by rintro rfl; cases hd
    have hdef := names_empty hnm
    have hh : m.hasName i.defaultName = true := (hasName_iff _ _).mpr (hdef ▸ hm)
    simp [hb, Denotes_truthy hd, optInfo, htn, getInfo_ok_iff.mpr hd]
    change (if m.hasName i.defaultName = true then Except.ok i.defaultName else
      Except.error Err.keyError) = _
    rw [if_pos hh, hdef]

theorem Resolves.mem {m : LModel} {target : PyTarget} {name : PyName} {n : String}
    (hn : Resolves m target name n) : n ∈ m.names := by
  cases hn <;> assumption

/-- Name resolution depends only on the names. -/
theorem Resolves.mono {m m' : LModel} {target : PyTarget} {name : PyName} {n : String}
    (hn : Resolves m target name n) (h : n ∈ m'.names) : Resolves m' target name n := by
  cases hn with
  | byName n t ht hne hm => exact .byName n _ ht hne h
  | byTarget t i n hd hnm hm => exact .byTarget _ i n hd hnm h

theorem Resolves.unique {m : LModel} {target : PyTarget} {name : PyName} {n n' : String}
    (hn : Resolves m target name n) (hn' : Resolves m target name n') : n = n' := by
  have := internalName_of_resolves hn
  rw [internalName_of_resolves hn'] at this
  cases this
  rfl

theorem attrFold_ok (m : LModel) (idx : Nat) (l : List String)
    (hl : ∀ a ∈ l, ∃ v, m.cell a idx = some v) (res : List (String × PyVal)) :
    ∃ d, l.foldlM (attrFold m idx) res = .ok d ∧
      ∀ k, dget d k = if k ∈ l then m.cell k idx else dget res k := by
  induction l generalizing res with
  | nil => exact ⟨res, rfl, fun k => by simp⟩
  | cons a l ih =>
    obtain ⟨v, hv⟩ := hl a (by simp)
    have ha : attrFold m idx res a = .ok (dset res a v) := by
      unfold LModel.cell at hv
      unfold attrFold
      cases hg : dget m.attrCols a with
      | none => rw [hg] at hv; cases hv
      | some col =>
        rw [hg] at hv
        simp only [Option.bind_some] at hv
        simp only [hv]
    obtain ⟨d, hd, hk⟩ := ih (fun b hb => hl b (by simp [hb])) (dset res a v)
    refine ⟨d, ?_, fun k => ?_⟩
    · rw [List.foldlM_cons, ha]; exact hd
    · rw [hk k]
      by_cases h : k ∈ l
      · simp [h]
      · by_cases hka : k = a
        · subst hka; simp [h, dget_dset_self, hv]
        · simp [h, hka, dget_dset_ne _ _ hka]

theorem LModel.Rect.cell_some {m : LModel} (hm : m.Rect) {k : String} (hk : k ∈ m.attrs) {i : Nat}
    (hi : i < m.rows.length) : ∃ v, m.cell k i = some v := by
  rw [← hm.keys] at hk
  obtain ⟨c, hc⟩ := (dget_isSome_iff _ _).mpr hk
  have := hm.cols _ (dget_mem hc)
  exact ⟨c[i]'(by simp only at this; omega), by simp [LModel.cell, hc, show i < c.length by simp only at this; omega]⟩

theorem LModel.Rect.mem_of_cell {m : LModel} (hm : m.Rect) {k : String} {i : Nat} {v : PyVal}
    (h : m.cell k i = some v) : k ∈ m.attrs := by
  rw [← hm.keys, ← dget_isSome_iff]
  unfold LModel.cell at h
  cases hc : dget m.attrCols k with
  | none => rw [hc] at h; cases h
  | some c => exact ⟨c, rfl⟩

/-- On a rectangular table `get_attribute` reads the attribute's cell in the interaction's row. -/
theorem getAttribute_rect {m : LModel} (hm : m.Rect) {target : PyTarget} {name : PyName} {n : String}
    (hn : Resolves m target name n) {idx : Nat} (hi : m.indexOf n = .ok idx) (key : String) :
    m.getAttribute target name key = match m.cell key idx with
      | some v => .ok v
      | none => .error .keyError := by
  obtain ⟨hlt, _⟩ := indexOf_ok hi
  obtain ⟨d, hd, hk⟩ := attrFold_ok m idx m.attrs (fun a ha => hm.cell_some ha hlt) []
  unfold LModel.getAttribute LModel.getAttributes
  rw [internalName_of_resolves hn]
  simp only [bind, Except.bind, hi]
  rw [hd]
  simp only
  rw [hk key]
  by_cases h : key ∈ m.attrs
  · obtain ⟨v, hv⟩ := hm.cell_some h hlt
    simp [h, hv]
  · simp only [h, if_false]
    have : m.cell key idx = none := by
      cases hc : m.cell key idx with
      | none => rfl
      | some v => exact absurd (hm.mem_of_cell hc) h
    rw [this]
    rfl

theorem getAttribute_ok_iff {m : LModel} (hm : m.Rect) {target : PyTarget} {name : PyName} {n : String}
    (hn : Resolves m target name n) {idx : Nat} (hi : m.indexOf n = .ok idx) {key : String} {v : PyVal} :
    m.getAttribute target name key = .ok v ↔ m.cell key idx = some v := by
  rw [getAttribute_rect hm hn hi]
  cases m.cell key idx with
  | none => simp
  | some w => simp

/-- Positions depend only on the names. -/
theorem indexOf_names {m m' : LModel} (h : m'.names = m.names) (n : String) : m'.indexOf n = m.indexOf n := by
  have key : ∀ l : List Row, l.findIdx? (·.name = n) = (l.map (·.name)).findIdx? (· = n) := by
    intro l
    rw [List.findIdx?_map]
    rfl
  unfold LModel.indexOf
  rw [key, key]
  unfold LModel.names at h
  rw [h]

theorem indexOf_append {m : LModel} {rows : List Row} {n : String} {i : Nat} (h : m.indexOf n = .ok i)
    {m' : LModel} (hr : m'.rows = m.rows ++ rows) : m'.indexOf n = .ok i := by
  unfold LModel.indexOf at h ⊢
  rw [hr, List.findIdx?_append]
  cases hf : m.rows.findIdx? (·.name = n) with
  | none => rw [hf] at h; cases h
  | some j => rw [hf] at h; cases h; rfl

theorem indexOf_new {m : LModel} {r : Row} (h : r.name ∉ m.names) {m' : LModel}
    (hr : m'.rows = m.rows ++ [r]) : m'.indexOf r.name = .ok m.rows.length := by
  unfold LModel.indexOf
  rw [hr, List.findIdx?_append]
  have : m.rows.findIdx? (·.name = r.name) = none := by
    rw [List.findIdx?_eq_none_iff]
    intro x hx
    simp only [decide_eq_false_iff_not]
    rintro he
    exact h (List.mem_map.mpr ⟨x, hx, he⟩)
  rw [this]
  simp

theorem indexOf_mem {m : LModel} {n : String} (h : n ∈ m.names) : ∃ i, m.indexOf n = .ok i :=
  indexOf_of_hasName ((hasName_iff _ _).mpr h)

end Sawatabi
