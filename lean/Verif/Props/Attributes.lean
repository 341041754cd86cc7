import Verif.Lemmas.Getters
import Verif.Lemmas.Rect
import Verif.Props.Interactions

/-!
# Attributes read back what was written (C09)
-/

namespace Sawatabi.Props

variable {m m' : LModel} {now importTime : ℚ} {target : PyTarget} {name : PyName}

/-- After a successful add with attributes `d`, `get_attribute` on the new interaction (by whatever
argument selects it) returns the given value for each given key. -/
theorem C09_add_then_get (hm : m.Rect) {c s : PyCoef} {d : List (String × PyVal)} (hd : (dkeys d).Nodup)
    {ts : PyTs} (h : (addInteraction now target name c s (.dict d) ts).run m = .ok ⟨⟩ m')
    {i : Inter} {n : String} (hi : target.Denotes i) (hn : name.Names i n) {t : PyTarget} {nm : PyName}
    (hr : Resolves m' t nm n) : ∀ k v, (k, v) ∈ d → m'.getAttribute t nm ("attributes." ++ k) = .ok v := by
  intro k v hkv
  rw [addInteraction_run] at h
  split at h
  · cases h
  · rename_i p hp
    obtain ⟨row, ats⟩ := p
    obtain ⟨hd', hn', hnew, _, _, _, _, _, _, _, rfl⟩ := addChecks_ok_iff.mp hp
    have hrn : row.name = n := by
      have h1 := getInfo_ok_iff.mpr hi
      rw [getInfo_ok_iff.mpr hd'] at h1
      cases h1
      have h2 := addName_ok_iff.mpr hn
      rw [addName_ok_iff.mpr hn'] at h2
      cases h2
      rfl
    subst hrn
    obtain ⟨cols, as, hrun, hrect, _, _, hval, _⟩ := addTail_rect row ats m hm
    rw [hrun] at h
    cases h
    have hidx := indexOf_new (m := m) (r := row) hnew (m' := { m with
      rows := m.rows ++ [row], attrCols := cols, attrs := as, length := m.length + 1 }) rfl
    rw [getAttribute_ok_iff hrect hr hidx]
    exact hval hd (k, v) hkv

/-- A successful add does not change any attribute value of another interaction. -/
theorem C09_add_others (hm : m.Rect) {c s : PyCoef} {a : PyAttrs} {ts : PyTs}
    (h : (addInteraction now target name c s a ts).run m = .ok ⟨⟩ m') {t : PyTarget} {nm : PyName}
    {n : String} (hr : Resolves m t nm n) {key : String} {v : PyVal}
    (hv : m.getAttribute t nm key = .ok v) : m'.getAttribute t nm key = .ok v := by
  rw [addInteraction_run] at h
  split at h
  · cases h
  · rename_i p hp
    obtain ⟨cols, as, hrun, hrect, _, hold, _⟩ := addTail_rect p.1 p.2 m hm
    rw [hrun] at h
    cases h
    obtain ⟨idx, hidx⟩ := indexOf_mem hr.mem
    obtain ⟨hlt, _⟩ := indexOf_ok hidx
    have hcell := (getAttribute_ok_iff hm hr hidx).mp hv
    have hr' : Resolves { m with
      rows := m.rows ++ [p.1], attrCols := cols, attrs := as, length := m.length + 1 } t nm n :=
      hr.mono (by simp only [LModel.names, List.map_append]; exact List.mem_append_left _ hr.mem)
    refine (getAttribute_ok_iff hrect hr' (indexOf_append hidx rfl)).mpr ?_
    have := hold key idx hlt (hm.mem_of_cell hcell)
    unfold LModel.cell at this ⊢
    rw [this]
    exact hcell

/-- The result of an update with registered attribute keys. -/
theorem update_registered (hm : m.Rect) {c s : Option PyCoef} {d : List (String × PyVal)} {ts : Option PyTs}
    {n : String} (hn : Resolves m target name n) (hk : ∀ kv ∈ d, "attributes." ++ kv.1 ∈ m.attrs)
    (h : (updateInteraction importTime now target name c s (.dict d) ts).run m = .ok ⟨⟩ m') :
    m'.Rect ∧ m'.names = m.names ∧ ∃ idx, m.indexOf n = .ok idx ∧
      (∀ k i, (i ≠ idx ∨ ∀ kv ∈ d, k ≠ "attributes." ++ kv.1) → m'.cell k i = m.cell k i) ∧
      ((dkeys d).Nodup → ∀ kv ∈ d, m'.cell ("attributes." ++ kv.1) idx = some kv.2) := by
  rw [updateInteraction_run] at h
  split at h
  · cases h
  · rename_i hc
    exfalso
    obtain ⟨he, ⟨i, hd, hnot⟩, _⟩ := updateChecks_add hc
    cases hn with
    | byName n t ht hne hm => simp only [PyName.str.injEq] at he; exact absurd he hne
    | byTarget t j n hd' hnm hm =>
      have := getInfo_ok_iff.mpr hd
      rw [getInfo_ok_iff.mpr hd'] at this
      cases this
      rw [names_empty hnm] at hm
      exact hnot hm
  · rename_i idx c' s' ats ts' hc
    obtain ⟨⟨n', hr, hi, hrm⟩, _, _, _, hats, _, _⟩ := updateChecks_write hc
    simp only [PyAttrs.entries] at hats
    subst hats
    obtain rfl := hn.unique hr
    obtain ⟨hlt, _⟩ := indexOf_ok hi
    obtain ⟨cols, hrun, hrect, h1, h2⟩ := writeRow_rect idx c' s' ats ts' m hm hlt hk
    rw [hrun] at h
    cases h
    exact ⟨hrect, map_name_modify _ _ _ (fun _ => rfl), idx, hi, h1, h2⟩

/-- After a successful update with registered attribute keys, `get_attribute` returns the given
values. (`_partial`: for a new key it raises KeyError, see below.) -/
theorem C09_update_then_get_partial (hm : m.Rect) {c s : Option PyCoef} {d : List (String × PyVal)}
    (hd : (dkeys d).Nodup) {ts : Option PyTs} {n : String} (hn : Resolves m target name n)
    (hk : ∀ kv ∈ d, "attributes." ++ kv.1 ∈ m.attrs)
    (h : (updateInteraction importTime now target name c s (.dict d) ts).run m = .ok ⟨⟩ m')
    {t : PyTarget} {nm : PyName} (hr : Resolves m' t nm n) :
    ∀ k v, (k, v) ∈ d → m'.getAttribute t nm ("attributes." ++ k) = .ok v := by
  intro k v hkv
  obtain ⟨hrect, hnames, idx, hi, _, hval⟩ := update_registered hm hn hk h
  rw [getAttribute_ok_iff hrect hr (by rw [indexOf_names hnames]; exact hi)]
  exact hval hd (k, v) hkv

/-- An update with registered keys changes no attribute value of another interaction, and no
attribute of this one that was not given. -/
theorem C09_update_others_partial (hm : m.Rect) {c s : Option PyCoef} {d : List (String × PyVal)}
    {ts : Option PyTs} {n : String} (hn : Resolves m target name n)
    (hk : ∀ kv ∈ d, "attributes." ++ kv.1 ∈ m.attrs)
    (h : (updateInteraction importTime now target name c s (.dict d) ts).run m = .ok ⟨⟩ m')
    {t : PyTarget} {nm : PyName} {n' : String} (hr : Resolves m t nm n') (key : String)
    (hne : n' ≠ n ∨ ∀ kv ∈ d, key ≠ "attributes." ++ kv.1) :
    m'.getAttribute t nm key = m.getAttribute t nm key := by
  obtain ⟨hrect, hnames, idx, hi, hother, _⟩ := update_registered hm hn hk h
  obtain ⟨idx', hidx'⟩ := indexOf_mem hr.mem
  rw [getAttribute_rect hrect (hr.mono (by rw [hnames]; exact hr.mem))
    (by rw [indexOf_names hnames]; exact hidx'), getAttribute_rect hm hr hidx', hother key idx' ?_]
  rcases hne with hne | hne
  · left
    rintro rfl
    obtain ⟨_, h1⟩ := indexOf_ok hi
    obtain ⟨_, h2⟩ := indexOf_ok hidx'
    exact hne (h2.symm.trans h1)
  · exact Or.inr hne

/-- Removing an interaction changes no attribute value. -/
theorem C09_remove_keeps (hm : m.Rect) (h : (removeInteraction target name).run m = .ok ⟨⟩ m')
    {t : PyTarget} {nm : PyName} {n : String} (hr : Resolves m t nm n) (key : String) :
    m'.getAttribute t nm key = m.getAttribute t nm key := by
  have hrect : m'.Rect := by have := remove_rect target name m hm; rw [h] at this; exact this
  rw [removeInteraction_run] at h
  split at h
  · cases h
  split at h
  · cases h
  cases h
  obtain ⟨idx, hidx⟩ := indexOf_mem hr.mem
  have hnames : ∀ i : Nat, ({ m with rows := m.rows.modify i rmRow } : LModel).names = m.names :=
    fun i => map_name_modify _ _ _ fun _ => rfl
  rw [getAttribute_rect hrect (hr.mono (by rw [hnames]; exact hr.mem))
    (by rw [indexOf_names (hnames _)]; exact hidx), getAttribute_rect hm hr hidx]
  rfl

/-- An update with a key that no add has introduced succeeds, but the value cannot be read back. -/
theorem C09_update_new_key_refuted :
    ∃ m', (updateInteraction 0 20 .none (.str "x[0]") none none (.dict [("new", .num 1)]) none).run Ex.ising
      = .ok ⟨⟩ m' ∧ m'.getAttribute .none (.str "x[0]") "attributes.new" = .error .keyError := by
  refine ⟨_, rfl, ?_⟩
  decide

example : Ex.ising.Rect ∧ (dkeys [("b", PyVal.num 1), ("a", .num 2)]).Nodup ∧
    ((addInteraction 5 (.var Ex.x1) (.str "") (.num 2) (.num 1) (.dict [("b", .num 1), ("a", .num 2)])
      .none).run Ex.ising).isOk = true ∧
    ((updateInteraction 0 5 .none (.str "x[0]") none none (.dict [("a", .num 2)]) none).run
      Ex.ising).isOk = true ∧
    Resolves Ex.ising .none (.str "x[0]") "x[0]" ∧ "attributes.a" ∈ Ex.ising.attrs :=
  ⟨⟨by decide, by decide, by decide, by decide⟩, by decide, by decide, by decide,
    .byName _ _ rfl (by decide) (by decide), by decide⟩

end Sawatabi.Props
