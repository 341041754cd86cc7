import Verif.Lemmas.Core

/-!
# Attribute columns

Under `Rect` (every column registered and of full length) the attribute loops of add and update
succeed; `cell` describes their result.
-/

namespace Sawatabi

/-- The interaction table is rectangular and its columns are the registered ones. -/
structure LModel.Rect (m : LModel) : Prop where
  len : m.length = m.rows.length
  keys : dkeys m.attrCols = m.attrs
  nodup : m.attrs.Nodup
  cols : ∀ p ∈ m.attrCols, p.2.length = m.rows.length

/-- Columns registered, distinct and of length `n`. -/
structure Cols (m : LModel) (n : Nat) : Prop where
  keys : dkeys m.attrCols = m.attrs
  nodup : m.attrs.Nodup
  cols : ∀ k c, dget m.attrCols k = some c → c.length = n

/-- The value of an attribute column in a row. -/
def LModel.cell (m : LModel) (key : String) (i : Nat) : Option PyVal :=
  (dget m.attrCols key).bind (·[i]?)

theorem attrKey_inj {a b : String} (h : attrKey a = attrKey b) : a = b := by
  unfold attrKey at h
  have := congrArg String.toList h
  simp only [String.toList_append] at this
  exact String.toList_injective (List.append_cancel_left this)

theorem dget_map_val {κ ν : Type} [DecidableEq κ] (d : List (κ × ν)) (f : κ → ν → ν) (k : κ) :
    dget (d.map fun p => (p.1, f p.1 p.2)) k = (dget d k).map (f k) := by
  induction d with
  | nil => rfl
  | cons p d ih =>
    obtain ⟨k', v'⟩ := p
    by_cases h : k' = k
    · subst h; simp [dget]
    · simp [dget, h, ih]

theorem LModel.Rect.toCols {m : LModel} (h : m.Rect) : Cols m m.rows.length :=
  ⟨h.keys, h.nodup, fun k c hk => h.cols (k, c) (dget_mem hk)⟩

theorem Cols.toRect {m : LModel} {n : Nat} (h : Cols m n) (hn : n = m.rows.length)
    (hl : m.length = m.rows.length) : m.Rect :=
  ⟨hl, h.keys, h.nodup, fun p hp => by
    rw [← hn]
    exact h.cols p.1 p.2 (dget_of_mem (by rw [h.keys]; exact h.nodup) hp)⟩

/-- The loop that extends the registered columns. -/
theorem pushNan_loop (l : List String) (s : LModel) (hl : l.Nodup) (hk : ∀ k ∈ l, k ∈ dkeys s.attrCols) :
    ∃ c, (l.forM pushNan).run s = .ok ⟨⟩ { s with attrCols := c } ∧ dkeys c = dkeys s.attrCols ∧
      ∀ k, dget c k = if k ∈ l then (dget s.attrCols k).map (· ++ [PyVal.nan]) else dget s.attrCols k := by
  induction l generalizing s with
  | nil => exact ⟨s.attrCols, rfl, rfl, fun k => by simp⟩
  | cons a l ih =>
    obtain ⟨col, hcol⟩ := (dget_isSome_iff _ _).mpr (hk a (by simp))
    have ha : (pushNan a).run s =
        .ok ⟨⟩ { s with attrCols := dset s.attrCols a (col ++ [PyVal.nan]) } := by
      unfold pushNan; py_simp; rw [hcol]; rfl
    have hkeys : dkeys (dset s.attrCols a (col ++ [PyVal.nan])) = dkeys s.attrCols :=
      dkeys_dset_of_mem _ (hk a (by simp))
    rw [Py.run_forM_cons, ha]
    obtain ⟨c, hc, hck, hcg⟩ := ih { s with attrCols := dset s.attrCols a (col ++ [PyVal.nan]) }
      (List.nodup_cons.mp hl).2 (fun k h => by
        show k ∈ dkeys (dset s.attrCols a (col ++ [PyVal.nan]))
        rw [hkeys]; exact hk k (by simp [h]))
    refine ⟨c, hc, hck.trans hkeys, fun k => ?_⟩
    rw [hcg k]
    by_cases h1 : k = a
    · subst h1
      have : k ∉ l := (List.nodup_cons.mp hl).1
      simp [this, dget_dset_self, hcol]
    · simp [h1, dget_dset_ne _ _ h1]

/-- One attribute set by add. -/
theorem setLastAttr_run (kv : String × PyVal) (s : LModel) {n : Nat} (hl : s.length = n) (h : Cols s (n + 1)) :
    ∃ c a, (setLastAttr kv).run s = .ok ⟨⟩ { s with attrCols := c, attrs := a } ∧
      Cols { s with attrCols := c, attrs := a } (n + 1) ∧
      (∀ k, k ∈ a ↔ k = attrKey kv.1 ∨ k ∈ s.attrs) ∧
      (∀ k, k ≠ attrKey kv.1 → dget c k = dget s.attrCols k) ∧
      ∃ col, dget c (attrKey kv.1) = some (col ++ [kv.2]) ∧ col.length = n ∧
        (∀ old, dget s.attrCols (attrKey kv.1) = some old → col = old.take n) ∧
        (dget s.attrCols (attrKey kv.1) = none → col = List.replicate n PyVal.nan) := by
  set key := attrKey kv.1 with hkey
  cases hg : dget s.attrCols key with
  | none =>
    have hnk : key ∉ dkeys s.attrCols := (dget_eq_none_iff _ _).mp hg
    refine ⟨dset (dset s.attrCols key (List.replicate (n + 1) PyVal.nan)) key
        (List.replicate n PyVal.nan ++ [kv.2]), s.attrs ++ [key], ?_, ?_, ?_, ?_,
        List.replicate n PyVal.nan, ?_, ?_, ?_, ?_⟩
    · unfold setLastAttr
      py_simp
      rw [← hkey, hg]
      have hl' : (s.length + 1).toNat = n + 1 := by omega
      simp only [Option.isNone_none, if_true, dget_dset_self, hl', List.replicate_succ, Py.run_set]
      congr 4
      rw [← List.replicate_succ, List.dropLast_replicate]; rfl
    · refine ⟨?_, ?_, ?_⟩
      · show dkeys (dset _ _ _) = s.attrs ++ [key]
        rw [dkeys_dset_of_mem _ ((mem_dkeys_dset _).mpr (Or.inl rfl)),
          dkeys_dset_of_not_mem _ hnk, h.keys]
      · refine List.Nodup.append h.nodup (by simp) ?_
        rw [h.keys] at hnk
        simpa using hnk
      · intro k c hc
        change dget (dset _ _ _) k = some c at hc
        by_cases hk : k = key
        · subst hk
          rw [dget_dset_self] at hc
          cases hc; simp
        · rw [dget_dset_ne _ _ hk, dget_dset_ne _ _ hk] at hc
          exact h.cols k c hc
    · intro k; simp [or_comm]
    · intro k hk; rw [dget_dset_ne _ _ hk, dget_dset_ne _ _ hk]
    · exact dget_dset_self _ _ _
    · simp
    · intro old ho; cases ho
    · intro _; rfl
  | some old =>
    have hmem : key ∈ dkeys s.attrCols := (dget_isSome_iff _ _).mp ⟨_, hg⟩
    have hlen := h.cols key old hg
    refine ⟨dset s.attrCols key (old.dropLast ++ [kv.2]), s.attrs, ?_, ?_, ?_, ?_,
        old.dropLast, ?_, ?_, ?_, ?_⟩
    · unfold setLastAttr
      py_simp
      rw [← hkey, hg]
      simp only [Option.isNone_some, Bool.false_eq_true, if_false]
      cases old with
      | nil => simp at hlen
      | cons x xs => rfl
    · refine ⟨?_, h.nodup, ?_⟩
      · show dkeys (dset _ _ _) = s.attrs
        rw [dkeys_dset_of_mem _ hmem, h.keys]
      · intro k c hc
        change dget (dset _ _ _) k = some c at hc
        by_cases hk : k = key
        · subst hk
          rw [dget_dset_self] at hc
          cases hc; simp [hlen]
        · rw [dget_dset_ne _ _ hk] at hc
          exact h.cols k c hc
    · intro k
      constructor
      · exact Or.inr
      · rintro (rfl | hk)
        · rw [← h.keys]; exact hmem
        · exact hk
    · intro k hk; rw [dget_dset_ne _ _ hk]
    · exact dget_dset_self _ _ _
    · simp [hlen]
    · intro o ho; cases ho; rw [List.dropLast_eq_take, hlen]; rfl
    · intro hh; cases hh

/-- The attribute loop of add succeeds. -/
theorem setLast_loop_ok (ats : List (String × PyVal)) (s : LModel) {n : Nat} (hl : s.length = n) (h : Cols s (n + 1)) :
    ∃ c a, (ats.forM setLastAttr).run s = .ok ⟨⟩ { s with attrCols := c, attrs := a } ∧
      Cols { s with attrCols := c, attrs := a } (n + 1) ∧
      (∀ k, k ∈ a ↔ (∃ kv ∈ ats, k = attrKey kv.1) ∨ k ∈ s.attrs) ∧
      (∀ k, (∀ kv ∈ ats, k ≠ attrKey kv.1) → dget c k = dget s.attrCols k) ∧
      (∀ k i, i < n → k ∈ s.attrs →
        (dget c k).bind (·[i]?) = (dget s.attrCols k).bind (·[i]?)) := by
  induction ats generalizing s with
  | nil => exact ⟨s.attrCols, s.attrs, rfl, h, by simp, by simp, by simp⟩
  | cons kv ats ih =>
    obtain ⟨c₁, a₁, hr, hc, ha, ho, col, hcol, hlen, hold, hnew⟩ := setLastAttr_run kv s hl h
    obtain ⟨c, a, hr2, hc2, ha2, ho2, hcell⟩ := ih { s with attrCols := c₁, attrs := a₁ } hl hc
    refine ⟨c, a, ?_, hc2, ?_, ?_, ?_⟩
    · rw [Py.run_forM_cons, hr]; exact hr2
    · intro k
      rw [ha2]
      show (_ ∨ k ∈ a₁) ↔ _
      rw [ha]
      simp only [List.mem_cons, exists_eq_or_imp, or_assoc]
      exact or_left_comm
    · intro k hk
      rw [ho2 k (fun kv h => hk kv (by simp [h]))]
      exact ho k (hk kv (by simp))
    · intro k i hi hk
      rw [hcell k i hi ((ha k).mpr (Or.inr hk))]
      show (dget c₁ k).bind (·[i]?) = _
      by_cases hkk : k = attrKey kv.1
      · subst hkk
        rw [hcol]
        rw [← h.keys] at hk
        obtain ⟨old, hg⟩ := (dget_isSome_iff _ _).mpr hk
        rw [hg]
        have := hold old hg
        subst this
        simp only [Option.bind_some]
        rw [List.getElem?_append_left (by rw [hlen]; exact hi), List.getElem?_take_of_lt hi]
      · rw [ho k hkk]

/-- What the attribute loop of add leaves in the last row. -/
theorem setLast_loop_val (ats : List (String × PyVal)) (s t : LModel) {n : Nat} (hl : s.length = n) (h : Cols s (n + 1))
    (hn : (dkeys ats).Nodup) (hrun : (ats.forM setLastAttr).run s = .ok ⟨⟩ t) :
    ∀ kv ∈ ats, t.cell (attrKey kv.1) n = some kv.2 := by
  induction ats generalizing s with
  | nil => simp
  | cons kv ats ih =>
    obtain ⟨c₁, a₁, hr, hc, ha, ho, col, hcol, hlen, hold, hnew⟩ := setLastAttr_run kv s hl h
    obtain ⟨c, a, hr2, hc2, ha2, ho2, hcell⟩ :=
      setLast_loop_ok ats { s with attrCols := c₁, attrs := a₁ } hl hc
    rw [Py.run_forM_cons, hr] at hrun
    simp only [dkeys, List.map_cons, List.nodup_cons] at hn
    intro kv' hkv'
    rcases List.mem_cons.mp hkv' with e | e
    · subst e
      have ht : t = { s with attrCols := c, attrs := a } := by
        change (ats.forM setLastAttr).run { s with attrCols := c₁, attrs := a₁ } = _ at hrun
        rw [hr2] at hrun; cases hrun; rfl
      subst ht
      unfold LModel.cell
      show (dget c _).bind _ = _
      rw [ho2 (attrKey kv'.1) (fun kv h e => hn.1 (List.mem_map.mpr ⟨kv, h, (attrKey_inj e).symm⟩))]
      show (dget c₁ _).bind _ = _
      rw [hcol]
      simp [← hlen]
    · exact ih { s with attrCols := c₁, attrs := a₁ } hl hc hn.2 hrun kv' e

/-! ## Add under `Rect` -/

/-- What `add_interaction` does once its checks have passed, in terms of cells. -/
theorem addTail_rect (row : Row) (ats : List (String × PyVal)) (m : LModel) (h : m.Rect) :
    ∃ c a, (addTail row ats).run m =
        .ok ⟨⟩ { m with rows := m.rows ++ [row], attrCols := c, attrs := a, length := m.length + 1 } ∧
      LModel.Rect { m with rows := m.rows ++ [row], attrCols := c, attrs := a, length := m.length + 1 } ∧
      (∀ k, k ∈ a ↔ (∃ kv ∈ ats, k = attrKey kv.1) ∨ k ∈ m.attrs) ∧
      (∀ k i, i < m.rows.length → k ∈ m.attrs → (dget c k).bind (·[i]?) = m.cell k i) ∧
      ((dkeys ats).Nodup → ∀ kv ∈ ats, (dget c (attrKey kv.1)).bind (·[m.rows.length]?) = some kv.2) ∧
      (∀ k ∈ m.attrs, (∀ kv ∈ ats, k ≠ attrKey kv.1) → (dget c k).bind (·[m.rows.length]?) = some .nan) := by
  have hc := h.toCols
  obtain ⟨c₁, hr1, hk1, hg1⟩ := pushNan_loop m.attrs { m with rows := m.rows ++ [row] } h.nodup
    (fun k hk => by show k ∈ dkeys m.attrCols; rw [h.keys]; exact hk)
  change dkeys c₁ = dkeys m.attrCols at hk1
  change ∀ k, dget c₁ k = if k ∈ m.attrs then (dget m.attrCols k).map (· ++ [PyVal.nan])
    else dget m.attrCols k at hg1
  have hcols1 : Cols { m with rows := m.rows ++ [row], attrCols := c₁ } (m.rows.length + 1) := by
    refine ⟨hk1.trans h.keys, h.nodup, ?_⟩
    intro k col hcol
    change dget c₁ k = some col at hcol
    have hkm : k ∈ m.attrs := by
      rw [← h.keys, ← hk1]; exact (dget_isSome_iff _ _).mp ⟨_, hcol⟩
    rw [hg1, if_pos hkm] at hcol
    cases ho : dget m.attrCols k with
    | none => rw [ho] at hcol; cases hcol
    | some old =>
      rw [ho] at hcol; cases hcol
      have := hc.cols k old ho
      simp [this]
  obtain ⟨c, a, hr2, hc2, ha, hoth, hcell⟩ :=
    setLast_loop_ok ats { m with rows := m.rows ++ [row], attrCols := c₁ } h.len hcols1
  refine ⟨c, a, ?_, ?_, ha, ?_, ?_, ?_⟩
  · unfold addTail
    simp only [Py.run_bind, Py.run_modify, Py.run_get]
    simp only [hr1, hr2]
  · refine Cols.toRect (n := m.rows.length + 1) ⟨hc2.keys, hc2.nodup, hc2.cols⟩ ?_ ?_
    · simp [h.len]
    · simp [h.len]
  · intro k i hi hk
    rw [hcell k i hi hk]
    show (dget c₁ k).bind _ = _
    rw [hg1, if_pos hk]
    unfold LModel.cell
    cases ho : dget m.attrCols k with
    | none => rfl
    | some old =>
      have := hc.cols k old ho
      simp only [Option.map_some, Option.bind_some]
      exact List.getElem?_append_left (by rw [this]; exact hi)
  · intro hn kv hkv
    exact setLast_loop_val ats { m with rows := m.rows ++ [row], attrCols := c₁ } _ h.len hcols1 hn hr2 kv hkv
  · intro k hk hnk
    rw [hoth k hnk]
    show (dget c₁ k).bind _ = _
    rw [hg1, if_pos hk]
    have hkk := hk
    rw [← h.keys] at hkk
    obtain ⟨old, ho⟩ := (dget_isSome_iff _ _).mpr hkk
    have := hc.cols k old ho
    rw [ho]
    simp [h.len, ← this]

/-! ## Update -/

/-- One attribute set by update, for a registered key. -/
theorem setAttrAt_run (idx : Nat) (kv : String × PyVal) (s : LModel) (n : Nat) (h : Cols s n) (hi : idx < n)
    (hk : attrKey kv.1 ∈ s.attrs) :
    ∃ c, (setAttrAt idx kv).run s = .ok ⟨⟩ { s with attrCols := c } ∧ Cols { s with attrCols := c } n ∧
      ∀ k i, (dget c k).bind (·[i]?) =
        if k = attrKey kv.1 ∧ i = idx then some kv.2 else s.cell k i := by
  have hmem : attrKey kv.1 ∈ dkeys s.attrCols := by rw [h.keys]; exact hk
  obtain ⟨old, ho⟩ := (dget_isSome_iff _ _).mpr hmem
  have hl := h.cols _ _ ho
  refine ⟨dset s.attrCols (attrKey kv.1) (old.set idx kv.2), ?_, ?_, ?_⟩
  · unfold setAttrAt
    py_simp
    rw [ho]
    simp only [Option.isNone_some, Bool.false_eq_true, if_false]
    rw [if_pos (by rw [hl]; exact hi)]
    rfl
  · refine ⟨?_, h.nodup, ?_⟩
    · show dkeys (dset _ _ _) = s.attrs
      rw [dkeys_dset_of_mem _ hmem, h.keys]
    · intro k c hc
      change dget (dset _ _ _) k = some c at hc
      by_cases hkk : k = attrKey kv.1
      · subst hkk
        rw [dget_dset_self] at hc
        cases hc; simp [hl]
      · rw [dget_dset_ne _ _ hkk] at hc
        exact h.cols k c hc
  · intro k i
    by_cases hkk : k = attrKey kv.1
    · subst hkk
      rw [dget_dset_self]
      unfold LModel.cell
      rw [ho]
      simp only [Option.bind_some, true_and]
      by_cases hii : i = idx
      · subst hii; simp [hl, hi]
      · rw [if_neg hii, List.getElem?_set_ne (Ne.symm hii)]
    · rw [dget_dset_ne _ _ hkk, if_neg (fun e => hkk e.1)]
      rfl

/-- The attribute loop of update, for registered keys. -/
theorem setAttr_loop (idx : Nat) (ats : List (String × PyVal)) (s : LModel) (n : Nat) (h : Cols s n)
    (hi : idx < n) (hk : ∀ kv ∈ ats, attrKey kv.1 ∈ s.attrs) :
    ∃ c, (ats.forM (setAttrAt idx)).run s = .ok ⟨⟩ { s with attrCols := c } ∧
      Cols { s with attrCols := c } n ∧
      (∀ k i, (i ≠ idx ∨ ∀ kv ∈ ats, k ≠ attrKey kv.1) → (dget c k).bind (·[i]?) = s.cell k i) ∧
      ((dkeys ats).Nodup → ∀ kv ∈ ats, (dget c (attrKey kv.1)).bind (·[idx]?) = some kv.2) := by
  induction ats generalizing s with
  | nil => exact ⟨s.attrCols, rfl, h, fun _ _ _ => rfl, by simp⟩
  | cons kv ats ih =>
    obtain ⟨c₁, hr, hc, hcell⟩ := setAttrAt_run idx kv s n h hi (hk kv (by simp))
    obtain ⟨c, hr2, hc2, hcell2, hval⟩ := ih { s with attrCols := c₁ } hc (fun kv h => hk kv (by simp [h]))
    refine ⟨c, ?_, hc2, ?_, ?_⟩
    · rw [Py.run_forM_cons, hr]; exact hr2
    · intro k i hki
      rw [hcell2 k i (by
        rcases hki with h | h
        · exact Or.inl h
        · exact Or.inr fun kv hkv => h kv (by simp [hkv]))]
      unfold LModel.cell
      show (dget c₁ k).bind _ = _
      rw [hcell k i, if_neg]
      · rfl
      · rintro ⟨h1, h2⟩
        rcases hki with h | h
        · exact h h2
        · exact h kv (by simp) h1
    · intro hn kv' hkv'
      simp only [dkeys, List.map_cons, List.nodup_cons] at hn
      rcases List.mem_cons.mp hkv' with e | e
      · subst e
        rw [hcell2 (attrKey kv'.1) idx
          (Or.inr fun kv h e => hn.1 (List.mem_map.mpr ⟨kv, h, (attrKey_inj e).symm⟩))]
        show (dget c₁ _).bind _ = _
        rw [hcell]; simp
      · exact hval hn.2 kv' e

end Sawatabi
