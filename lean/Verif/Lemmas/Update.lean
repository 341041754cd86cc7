import Verif.Lemmas.Attr
import Verif.Spec.Args
import Mathlib.Data.String.Basic

/-!
# Lemmas about update and remove
-/

namespace Sawatabi

/-- A successful add, without any assumption on the columns. -/
theorem addTail_ok {row : Row} {ats : List (String × PyVal)} {m m' : LModel}
    (h : (addTail row ats).run m = .ok ⟨⟩ m') :
    ∃ c a, m' = { m with rows := m.rows ++ [row], attrCols := c, attrs := a, length := m.length + 1 } := by
  unfold addTail at h
  simp only [Py.run_bind, Py.run_modify, Py.run_get] at h
  have h1 := Py.forM_rel (R := AttrRel) AttrRel.refl (fun _ _ _ => AttrRel.trans) pushNan m.attrs
    (fun k _ s => pushNan_rel k s) { m with rows := m.rows ++ [row] }
  cases hp : (m.attrs.forM pushNan).run { m with rows := m.rows ++ [row] } with
  | error e t => rw [hp] at h; cases h
  | ok u t =>
    rw [hp] at h h1
    have h2 := Py.forM_rel (R := AttrRel) AttrRel.refl (fun _ _ _ => AttrRel.trans) setLastAttr ats
      (fun k _ s => setLastAttr_rel k s) t
    simp only at h
    cases hq : (ats.forM setLastAttr).run t with
    | error e t' => rw [hq] at h; cases h
    | ok u' t' =>
      rw [hq] at h h2
      obtain ⟨c₁, a₁, e₁⟩ := h1
      obtain ⟨c₂, a₂, e₂⟩ := h2
      simp only [Res.state] at e₁ e₂
      subst e₁
      subst e₂
      cases h
      exact ⟨c₂, a₂, rfl⟩

/-- A failing tail of add leaves the row behind. -/
theorem addTail_error {row : Row} {ats : List (String × PyVal)} {m m' : LModel} {e : Err}
    (h : (addTail row ats).run m = .error e m') :
    ∃ c a, m' = { m with rows := m.rows ++ [row], attrCols := c, attrs := a } := by
  unfold addTail at h
  simp only [Py.run_bind, Py.run_modify, Py.run_get] at h
  have h1 := Py.forM_rel (R := AttrRel) AttrRel.refl (fun _ _ _ => AttrRel.trans) pushNan m.attrs
    (fun k _ s => pushNan_rel k s) { m with rows := m.rows ++ [row] }
  cases hp : (m.attrs.forM pushNan).run { m with rows := m.rows ++ [row] } with
  | error e t =>
    rw [hp] at h h1
    obtain ⟨c₁, a₁, e₁⟩ := h1
    cases h
    exact ⟨c₁, a₁, e₁⟩
  | ok u t =>
    rw [hp] at h h1
    have h2 := Py.forM_rel (R := AttrRel) AttrRel.refl (fun _ _ _ => AttrRel.trans) setLastAttr ats
      (fun k _ s => setLastAttr_rel k s) t
    simp only at h
    cases hq : (ats.forM setLastAttr).run t with
    | error e t' =>
      rw [hq] at h h2
      obtain ⟨c₁, a₁, e₁⟩ := h1
      obtain ⟨c₂, a₂, e₂⟩ := h2
      simp only [Res.state] at e₁ e₂
      subst e₁
      subst e₂
      cases h
      exact ⟨c₂, a₂, rfl⟩
    | ok u' t' => rw [hq] at h; cases h

/-! ## Update -/

/-- Outcome of the checks of update: add instead, or write to a row. -/
inductive UpdPlan where
  | add (c s : ℚ) (ts : PyTs)
  | write (idx : Nat) (c s : Option ℚ) (ats : List (String × PyVal)) (ts : Option ℚ)

/-- The checks of `update_interaction`. -/
def updateChecks (importTime : ℚ) (m : LModel) (target : PyTarget) (name : PyName)
    (coefficient scale : Option PyCoef) (attributes : PyAttrs) (timestamp : Option PyTs) :
    Except Err UpdPlan :=
  if !target.truthy && !name.truthy then .error .valueError else
  if target.truthy && name.truthy then .error .valueError else
  match checkNum? coefficient with
  | .error e => .error e
  | .ok c =>
  match checkNum? scale with
  | .error e => .error e
  | .ok s =>
  if attributes = .bad then .error .typeError else
  let ts := timestamp.getD (.num importTime)
  if ts = .bad then .error .typeError else
  match optInfo target with
  | .error e => .error e
  | .ok info? =>
  match updateName m info? name with
  | .error e => .error e
  | .ok none => .ok (.add (c.getD 0) (s.getD 1) ts)
  | .ok (some n) =>
    match m.isRemoved n with
    | .error e => .error e
    | .ok true => .error .valueError
    | .ok false =>
      match m.indexOf n with
      | .error e => .error e
      | .ok idx => .ok (.write idx c s attributes.entries ts.stored)

theorem updateInteraction_run (importTime now : ℚ) (m : LModel) (target : PyTarget) (name : PyName)
    (coefficient scale : Option PyCoef) (attributes : PyAttrs) (timestamp : Option PyTs) :
    (updateInteraction importTime now target name coefficient scale attributes timestamp).run m =
      match updateChecks importTime m target name coefficient scale attributes timestamp with
      | .error e => .error e m
      | .ok (.add c s ts) =>
        (addInteraction now target (.str "") (.num c) (.num s) .none ts).run m
      | .ok (.write idx c s ats ts) => (writeRow idx c s ats ts).run m := by
  unfold updateInteraction updateChecks
  cases h1 : (!target.truthy && !name.truthy) with
  | true => rfl
  | false =>
  cases h2 : (target.truthy && name.truthy) with
  | true => rfl
  | false =>
  cases hc : checkNum? coefficient with
  | error e => rfl
  | ok c =>
  cases hs : checkNum? scale with
  | error e => rfl
  | ok s =>
  by_cases ha : attributes = .bad
  · subst ha; rfl
  by_cases ht : timestamp.getD (.num importTime) = .bad
  · simp only [ht, ha, if_false, if_true, Py.run_bind, Py.run_liftE_ok, Bool.false_eq_true,
      Py.run_throw]
  simp only [ht, ha, if_false, Py.run_bind, Py.run_liftE_ok, Bool.false_eq_true, Py.run_get]
  cases optInfo target with
  | error e => rfl
  | ok info? =>
  simp only [Py.run_liftE_ok]
  cases updateName m info? name with
  | error e => rfl
  | ok n? =>
  cases n? with
  | none => rfl
  | some n =>
  simp only [Py.run_liftE_ok]
  cases m.isRemoved n with
  | error e => rfl
  | ok b =>
    cases b with
    | true => rfl
    | false =>
      cases m.indexOf n with
      | error e => rfl
      | ok i => rfl

/-- What update does to the default columns of a row. -/
def updRow (c s : Option ℚ) (ts : Option ℚ) (r : Row) : Row :=
  { r with
    coef := match c with
      | some q => .num q
      | none => r.coef
    scale := match s with
      | some q => .num q
      | none => r.scale
    timestamp := ts
    dirty := true }

/-- The part of `updRow` done before the attribute loop. -/
def updRow₁ (c s : Option ℚ) (r : Row) : Row :=
  { r with
    coef := match c with
      | some q => .num q
      | none => r.coef
    scale := match s with
      | some q => .num q
      | none => r.scale }

theorem modify_modify {α : Type} (l : List α) (i : Nat) (f g : α → α) :
    (l.modify i f).modify i g = l.modify i (g ∘ f) := by
  induction l generalizing i with
  | nil => simp
  | cons a l ih =>
    cases i with
    | zero => simp
    | succ i => simp [ih]

theorem modify_id' {α : Type} (l : List α) (i : Nat) (f : α → α) (h : ∀ a, f a = a) :
    l.modify i f = l := by
  have : f = id := funext h
  subst this
  simp

theorem writeRow_run (idx : Nat) (c s : Option ℚ) (ats : List (String × PyVal)) (ts : Option ℚ)
    (m : LModel) :
    (writeRow idx c s ats ts).run m =
      match (ats.forM (setAttrAt idx)).run { m with rows := m.rows.modify idx (updRow₁ c s) } with
      | .ok _ t => .ok ⟨⟩ { t with rows := t.rows.modify idx fun r => { r with timestamp := ts, dirty := true } }
      | .error e t => .error e t := by
  have h1 : ((do
      setRow? idx (fun q r => { r with coef := .num q }) c
      setRow? idx (fun q r => { r with scale := .num q }) s : Py LModel Unit)).run m =
      .ok ⟨⟩ { m with rows := m.rows.modify idx (updRow₁ c s) } := by
    cases c with
    | none =>
      cases s with
      | none =>
        have : m.rows.modify idx (updRow₁ none none) = m.rows := modify_id' _ _ _ fun r => rfl
        rw [this]; rfl
      | some q => rfl
    | some p =>
      cases s with
      | none => rfl
      | some q =>
        simp only [setRow?, setRow, Py.run_bind, Py.run_modify, modify_modify]
        rfl
  unfold writeRow
  have h2 : ∀ k : Py LModel Unit, ((do
      setRow? idx (fun q r => { r with coef := .num q }) c
      setRow? idx (fun q r => { r with scale := .num q }) s
      k : Py LModel Unit)).run m = k.run { m with rows := m.rows.modify idx (updRow₁ c s) } := by
    intro k
    have : (do
      setRow? idx (fun q r => { r with coef := .num q }) c
      setRow? idx (fun q r => { r with scale := .num q }) s
      k : Py LModel Unit).run m = ((do
      setRow? idx (fun q r => { r with coef := .num q }) c
      setRow? idx (fun q r => { r with scale := .num q }) s : Py LModel Unit) >>= fun _ => k).run m := by
      simp only [Py.run_bind]
      cases (setRow? idx (fun q r => { r with coef := .num q }) c).run m <;> rfl
    rw [this, Py.run_bind, h1]
  rw [h2, Py.run_bind]
  cases (ats.forM (setAttrAt idx)).run { m with rows := m.rows.modify idx (updRow₁ c s) } with
  | error e t => rfl
  | ok u t =>
    simp only [setRow, Py.run_bind, Py.run_modify, modify_modify]
    rfl

theorem setAttrAt_rel' (idx : Nat) (kv : String × PyVal) (s : LModel) :
    ∃ c, ((setAttrAt idx kv).run s).state = { s with attrCols := c } := by
  unfold setAttrAt
  py_simp
  by_cases h : (dget s.attrCols (attrKey kv.1)).isNone
  · rw [if_pos h]
    rw [dget_dset_self]
    simp only
    split
    · exact ⟨_, rfl⟩
    · exact ⟨_, rfl⟩
  · rw [if_neg h]
    cases dget s.attrCols (attrKey kv.1) with
    | none => exact ⟨s.attrCols, rfl⟩
    | some col =>
      simp only
      split
      · exact ⟨_, rfl⟩
      · exact ⟨s.attrCols, rfl⟩

theorem setAttrLoop_rel (idx : Nat) (ats : List (String × PyVal)) (s : LModel) :
    ∃ c, ((ats.forM (setAttrAt idx)).run s).state = { s with attrCols := c } :=
  Py.forM_rel (R := fun s t => ∃ c, t = { s with attrCols := c }) (fun s => ⟨s.attrCols, rfl⟩)
    (by rintro a b c ⟨c₁, rfl⟩ ⟨c₂, rfl⟩; exact ⟨c₂, rfl⟩) _ ats
    (fun kv _ s => setAttrAt_rel' idx kv s) s

theorem writeRow_ok {idx : Nat} {c s : Option ℚ} {ats : List (String × PyVal)} {ts : Option ℚ}
    {m m' : LModel} (h : (writeRow idx c s ats ts).run m = .ok ⟨⟩ m') :
    ∃ cols, m' = { m with rows := m.rows.modify idx (updRow c s ts), attrCols := cols } := by
  rw [writeRow_run] at h
  obtain ⟨cols, hc⟩ := setAttrLoop_rel idx ats { m with rows := m.rows.modify idx (updRow₁ c s) }
  cases hr : (ats.forM (setAttrAt idx)).run { m with rows := m.rows.modify idx (updRow₁ c s) } with
  | error e t => rw [hr] at h; cases h
  | ok u t =>
    rw [hr] at h hc
    simp only [Res.state] at hc
    subst hc
    simp only [modify_modify] at h
    cases h
    exact ⟨cols, rfl⟩

theorem writeRow_error {idx : Nat} {c s : Option ℚ} {ats : List (String × PyVal)} {ts : Option ℚ}
    {m m' : LModel} {e : Err} (h : (writeRow idx c s ats ts).run m = .error e m') :
    ∃ cols, m' = { m with rows := m.rows.modify idx (updRow₁ c s), attrCols := cols } := by
  rw [writeRow_run] at h
  obtain ⟨cols, hc⟩ := setAttrLoop_rel idx ats { m with rows := m.rows.modify idx (updRow₁ c s) }
  cases hr : (ats.forM (setAttrAt idx)).run { m with rows := m.rows.modify idx (updRow₁ c s) } with
  | ok u t => rw [hr] at h; cases h
  | error e t =>
    rw [hr] at h hc
    simp only [Res.state] at hc
    subst hc
    cases h
    exact ⟨cols, rfl⟩

/-- In a rectangular model, writing registered attributes always succeeds. -/
theorem writeRow_rect (idx : Nat) (c s : Option ℚ) (ats : List (String × PyVal)) (ts : Option ℚ)
    (m : LModel) (hm : m.Rect) (hi : idx < m.rows.length) (hk : ∀ kv ∈ ats, attrKey kv.1 ∈ m.attrs) :
    ∃ cols, (writeRow idx c s ats ts).run m =
        .ok ⟨⟩ { m with rows := m.rows.modify idx (updRow c s ts), attrCols := cols } ∧
      LModel.Rect { m with rows := m.rows.modify idx (updRow c s ts), attrCols := cols } ∧
      (∀ k i, (i ≠ idx ∨ ∀ kv ∈ ats, k ≠ attrKey kv.1) → (dget cols k).bind (·[i]?) = m.cell k i) ∧
      ((dkeys ats).Nodup → ∀ kv ∈ ats, (dget cols (attrKey kv.1)).bind (·[idx]?) = some kv.2) := by
  have hc := hm.toCols
  obtain ⟨cols, hr, hcols, h1, h2⟩ := setAttr_loop idx ats
    { m with rows := m.rows.modify idx (updRow₁ c s) } m.rows.length ⟨hc.keys, hc.nodup, hc.cols⟩ hi hk
  refine ⟨cols, ?_, ?_, h1, h2⟩
  · rw [writeRow_run, hr]
    simp only [modify_modify]
    rfl
  · exact Cols.toRect (n := m.rows.length) ⟨hcols.keys, hcols.nodup, hcols.cols⟩
      (by simp) (by simpa using hm.len)

/-- `_interactions_length` and the length of every column are `n`. -/
structure ColLen (m : LModel) (n : Nat) : Prop where
  len : m.length = n
  cols : ∀ k c, dget m.attrCols k = some c → c.length = n

theorem LModel.Rect.toColLen {m : LModel} (h : m.Rect) : ColLen m m.rows.length :=
  ⟨h.len, h.toCols.cols⟩

theorem setAttrAt_len (idx : Nat) (kv : String × PyVal) (s : LModel) (n : Nat) (h : ColLen s n)
    (hi : idx < n) :
    ∃ c, (setAttrAt idx kv).run s = .ok ⟨⟩ { s with attrCols := c } ∧
      ColLen { s with attrCols := c } n ∧
      (∀ k i v, s.cell k i = some v → (i ≠ idx ∨ k ≠ attrKey kv.1) → (dget c k).bind (·[i]?) = some v) ∧
      (dget c (attrKey kv.1)).bind (·[idx]?) = some kv.2 := by
  obtain ⟨hl, hc⟩ := h
  cases ho : dget s.attrCols (attrKey kv.1) with
  | none =>
    refine ⟨dset (dset s.attrCols (attrKey kv.1) (List.replicate n PyVal.nan)) (attrKey kv.1)
      ((List.replicate n PyVal.nan).set idx kv.2), ?_, ⟨hl, ?_⟩, ?_, ?_⟩
    · unfold setAttrAt
      py_simp
      rw [if_pos (by simp [ho])]
      have hl' : s.length.toNat = n := by omega
      simp only [dget_dset_self, hl']
      rw [if_pos (by simpa using hi)]
      rfl
    · intro k c hk
      by_cases e : k = attrKey kv.1
      · subst e
        rw [dget_dset_self] at hk
        cases hk
        simp [hl]
      · rw [dget_dset_ne _ _ e, dget_dset_ne _ _ e] at hk
        exact hc k c hk
    · intro k i v hv hor
      have e : k ≠ attrKey kv.1 := by
        rintro rfl
        simp [LModel.cell, ho] at hv
      rw [dget_dset_ne _ _ e, dget_dset_ne _ _ e]
      exact hv
    · rw [dget_dset_self]
      simp [hl, hi]
  | some old =>
    have hol := hc _ _ ho
    refine ⟨dset s.attrCols (attrKey kv.1) (old.set idx kv.2), ?_, ⟨hl, ?_⟩, ?_, ?_⟩
    · unfold setAttrAt
      py_simp
      rw [if_neg (by simp [ho])]
      simp only [ho]
      rw [if_pos (by simpa [hol] using hi)]
      rfl
    · intro k c hk
      by_cases e : k = attrKey kv.1
      · subst e
        rw [dget_dset_self] at hk
        cases hk
        simp [hol]
      · rw [dget_dset_ne _ _ e] at hk
        exact hc k c hk
    · intro k i v hv hor
      by_cases e : k = attrKey kv.1
      · subst e
        have hne : i ≠ idx := by
          rcases hor with h | h
          · exact h
          · exact absurd rfl h
        rw [dget_dset_self]
        simp only [LModel.cell, ho, Option.bind_some] at hv
        simp only [Option.bind_some]
        rw [List.getElem?_set_ne hne.symm]
        exact hv
      · rw [dget_dset_ne _ _ e]
        exact hv
    · rw [dget_dset_self]
      simp [hol, hi]

/-- The attribute loop of update succeeds whenever the columns have the right length. -/
theorem setAttr_loop_len (idx : Nat) (ats : List (String × PyVal)) (s : LModel) (n : Nat)
    (h : ColLen s n) (hi : idx < n) :
    ∃ c, (ats.forM (setAttrAt idx)).run s = .ok ⟨⟩ { s with attrCols := c } ∧
      ColLen { s with attrCols := c } n ∧
      (∀ k i v, s.cell k i = some v → (i ≠ idx ∨ ∀ kv ∈ ats, k ≠ attrKey kv.1) →
        (dget c k).bind (·[i]?) = some v) ∧
      ((dkeys ats).Nodup → ∀ kv ∈ ats, (dget c (attrKey kv.1)).bind (·[idx]?) = some kv.2) := by
  induction ats generalizing s with
  | nil => exact ⟨s.attrCols, rfl, h, fun _ _ _ hv _ => hv, by simp⟩
  | cons kv ats ih =>
    obtain ⟨c₁, hr, hc, ho, hv⟩ := setAttrAt_len idx kv s n h hi
    obtain ⟨c, hr2, hc2, ho2, hv2⟩ := ih { s with attrCols := c₁ } hc
    refine ⟨c, ?_, hc2, ?_, ?_⟩
    · rw [Py.run_forM_cons, hr]; exact hr2
    · intro k i v hcell hor
      apply ho2 k i v
      · apply ho k i v hcell
        rcases hor with h | h
        · exact Or.inl h
        · exact Or.inr (h kv (by simp))
      · rcases hor with h | h
        · exact Or.inl h
        · exact Or.inr fun kv' hk' => h kv' (by simp [hk'])
    · intro hn kv' hk'
      simp only [dkeys, List.map_cons, List.nodup_cons] at hn
      rcases List.mem_cons.mp hk' with rfl | hk'
      · apply ho2 _ _ _ hv
        right
        intro kv'' hk'' e
        exact hn.1 (List.mem_map.mpr ⟨kv'', hk'', (attrKey_inj e).symm⟩)
      · exact hv2 hn.2 kv' hk'

/-- With columns of the right length, the mutations of update never raise. -/
theorem writeRow_len (idx : Nat) (c s : Option ℚ) (ats : List (String × PyVal)) (ts : Option ℚ)
    (m : LModel) (hm : ColLen m m.rows.length) (hi : idx < m.rows.length) :
    ∃ cols, (writeRow idx c s ats ts).run m =
        .ok ⟨⟩ { m with rows := m.rows.modify idx (updRow c s ts), attrCols := cols } ∧
      (∀ k i v, m.cell k i = some v → (i ≠ idx ∨ ∀ kv ∈ ats, k ≠ attrKey kv.1) →
        (dget cols k).bind (·[i]?) = some v) ∧
      ((dkeys ats).Nodup → ∀ kv ∈ ats, (dget cols (attrKey kv.1)).bind (·[idx]?) = some kv.2) := by
  obtain ⟨cols, hr, hcols, h1, h2⟩ := setAttr_loop_len idx ats
    { m with rows := m.rows.modify idx (updRow₁ c s) } m.rows.length ⟨hm.len, hm.cols⟩ hi
  refine ⟨cols, ?_, h1, h2⟩
  rw [writeRow_run, hr]
  simp only [modify_modify]
  rfl

/-! ## Names and positions -/

theorem indexOf_ok {m : LModel} {n : String} {i : Nat} (h : m.indexOf n = .ok i) :
    ∃ hi : i < m.rows.length, m.rows[i].name = n := by
  unfold LModel.indexOf at h
  cases hf : m.rows.findIdx? (·.name = n) with
  | none => rw [hf] at h; cases h
  | some j =>
    rw [hf] at h
    cases h
    rw [List.findIdx?_eq_some_iff_getElem] at hf
    obtain ⟨hi, hp, _⟩ := hf
    exact ⟨hi, by simpa using hp⟩

theorem hasName_iff (m : LModel) (n : String) : m.hasName n = true ↔ n ∈ m.rows.map (·.name) := by
  simp [LModel.hasName]

theorem indexOf_of_hasName {m : LModel} {n : String} (h : m.hasName n = true) :
    ∃ i, m.indexOf n = .ok i := by
  unfold LModel.indexOf
  cases hf : m.rows.findIdx? (·.name = n) with
  | some j => exact ⟨j, rfl⟩
  | none =>
    rw [List.findIdx?_eq_none_iff] at hf
    rw [hasName_iff, List.mem_map] at h
    obtain ⟨r, hr, rfl⟩ := h
    have := hf r hr
    simp at this

theorem indexOf_error {m : LModel} {n : String} {e : Err} (h : m.indexOf n = .error e) :
    m.hasName n = false := by
  cases hn : m.hasName n with
  | false => rfl
  | true =>
    obtain ⟨i, hi⟩ := indexOf_of_hasName hn
    rw [hi] at h; cases h

/-- Rewriting the row at the position of a unique name is rewriting the row of that name. -/
theorem modify_eq_map_of_unique {rows : List Row} {i : Nat} {n : String} (f : Row → Row)
    (hu : (rows.map (·.name)).Nodup) (hi : i < rows.length) (hn : rows[i].name = n) :
    rows.modify i f = rows.map fun r => if r.name = n then f r else r := by
  apply List.ext_getElem
  · simp
  · intro j h1 h2
    rw [List.getElem_modify, List.getElem_map]
    have hj : j < rows.length := by simpa using h1
    by_cases hij : i = j
    · subst hij; simp [hn]
    · have : rows[j].name ≠ n := by
        intro hc
        apply hij
        have := (List.Nodup.getElem_inj_iff hu (i := i) (j := j) (hi := by simpa using hi)
          (hj := by simpa using hj)).mp (by simp [hn, hc])
        exact this
      simp [hij, this]

theorem map_name_modify (rows : List Row) (i : Nat) (f : Row → Row) (hf : ∀ r, (f r).name = r.name) :
    (rows.modify i f).map (·.name) = rows.map (·.name) := by
  apply List.ext_getElem
  · simp
  · intro j h1 h2
    simp only [List.getElem_map, List.getElem_modify]
    split
    · exact hf _
    · rfl

/-! ## Remove -/

/-- The mark that remove sets. -/
def rmRow (r : Row) : Row := { r with removed := true, dirty := true }

theorem removeInteraction_run (target : PyTarget) (name : PyName) (m : LModel) :
    (removeInteraction target name).run m =
      match internalName m target name with
      | .error e => .error e m
      | .ok n => match m.indexOf n with
        | .error e => .error e m
        | .ok i => .ok ⟨⟩ { m with rows := m.rows.modify i rmRow } := by
  unfold removeInteraction
  py_simp
  cases internalName m target name with
  | error e => rfl
  | ok n =>
    simp only [Py.run_liftE_ok]
    cases m.indexOf n with
    | error e => rfl
    | ok i =>
      simp only [Py.run_liftE_ok, setRow, Py.run_modify, modify_modify]
      rfl

theorem internalName_ok {m : LModel} {target : PyTarget} {name : PyName} {n : String}
    (h : internalName m target name = .ok n) : m.hasName n = true := by
  unfold internalName at h
  simp only [bind, Except.bind, pure, Except.pure, throw, throwThe, MonadExceptOf.throw] at h
  repeat' split at h
  all_goals cases h
  all_goals assumption

theorem removeInteraction_atomic {target : PyTarget} {name : PyName} {m m' : LModel} {e : Err}
    (h : (removeInteraction target name).run m = .error e m') : m' = m := by
  rw [removeInteraction_run] at h
  split at h
  · cases h; rfl
  · split at h <;> cases h; rfl

/-- Removing by name. -/
theorem removeByName_run (n : String) (hne : n ≠ "") (m : LModel) :
    (removeInteraction .none (.str n)).run m =
      match m.indexOf n with
      | .error _ => .error .keyError m
      | .ok i => .ok ⟨⟩ { m with rows := m.rows.modify i rmRow } := by
  rw [removeInteraction_run]
  have ht : (PyName.str n).truthy = true := by simp [PyName.truthy, hne]
  have h : internalName m .none (.str n) = if m.hasName n then .ok n else .error .keyError := by
    simp only [internalName, ht, PyTarget.truthy, optInfo]
    rfl
  rw [h]
  by_cases hh : m.hasName n
  · rw [if_pos hh]
    obtain ⟨i, hi⟩ := indexOf_of_hasName hh
    simp only [hi]
  · rw [if_neg hh]
    cases hi : m.indexOf n with
    | error e => rfl
    | ok i =>
      obtain ⟨hlt, hnm⟩ := indexOf_ok hi
      exfalso
      apply hh
      rw [hasName_iff]
      exact List.mem_map.mpr ⟨_, List.getElem_mem hlt, hnm⟩

/-! ## Meaning of the checks -/

theorem getInfo_ok_iff {t : PyTarget} {i : Inter} : getInfo t = .ok i ↔ t.Denotes i := by
  constructor
  · intro h
    unfold getInfo at h
    repeat' split at h
    all_goals try cases h
    · exact .var _
    · exact .pair _ _ (by assumption)
    · rename_i v w hne hlt
      exact .swapped _ _ (lt_of_le_of_ne (not_lt.mp hlt) (Ne.symm hne))
  · intro h
    cases h with
    | var v => rfl
    | pair v w h => simp [getInfo, ne_of_lt h, h]
    | swapped v w h => simp [getInfo, (ne_of_lt h).symm, not_lt_of_gt h]

theorem getInfo_error {t : PyTarget} {e : Err} (h : getInfo t = .error e) (i : Inter) : ¬ t.Denotes i := by
  intro hd
  rw [getInfo_ok_iff.mpr hd] at h
  cases h

theorem Denotes_truthy {t : PyTarget} {i : Inter} (h : t.Denotes i) : t.truthy = true := by
  cases h <;> rfl

theorem Denotes_product {t : PyTarget} {i : Inter} (h : t.Denotes i) (σ : Assign) :
    t.product σ = i.value σ := by
  cases h with
  | var v => rfl
  | pair v w h => rfl
  | swapped v w h => simp [PyTarget.product, Inter.value, mul_comm]

theorem Stores_eval {p : PyCoef} {c : Coef} (h : p.Stores c) (ρ : PEnv) : p.value ρ = c.eval ρ := by
  cases h <;> rfl

theorem checkCoef_ok_iff {p : PyCoef} {c : Coef} : checkCoef p = .ok c ↔ p.Stores c := by
  constructor
  · intro h
    cases p <;> cases h <;> constructor
  · intro h
    cases h <;> rfl

theorem names_default (i : Inter) : PyName.Names (.str "") i i.defaultName := by
  cases i <;> constructor

theorem addName_ok_iff {name : PyName} {i : Inter} {n : String} :
    addName name i = .ok n ↔ name.Names i n := by
  unfold addName
  cases name with
  | tuple => simp [PyName.truthy]; intro h; cases h
  | other => simp [PyName.truthy]; intro h; cases h
  | str s =>
    by_cases hs : s = ""
    · subst hs
      simp only [PyName.truthy]
      constructor
      · intro h; cases h; exact names_default i
      · intro h
        cases h with
        | given n i h => exact absurd rfl h
        | lin v => rfl
        | quad v w => rfl
    · simp only [PyName.truthy, bne_iff_ne, ne_eq, hs, not_false_eq_true, if_true, Except.ok.injEq]
      constructor
      · rintro rfl; exact .given _ _ hs
      · intro h
        cases h with
        | given n i h => rfl
        | lin v => exact absurd rfl hs
        | quad v w => exact absurd rfl hs

/-- The time that add stores. -/
def PyTs.at (now : ℚ) : PyTs → ℚ
  | .num q => q
  | .none => now
  | .bad => now

theorem addChecks_ok_iff {now : ℚ} {m : LModel} {target : PyTarget} {name : PyName}
    {coefficient scale : PyCoef} {attributes : PyAttrs} {timestamp : PyTs} {row : Row}
    {ats : List (String × PyVal)} :
    addChecks now m target name coefficient scale attributes timestamp = .ok (row, ats) ↔
      target.Denotes row.inter ∧ name.Names row.inter row.name ∧ row.name ∉ m.names ∧
      coefficient.Stores row.coef ∧ scale.Stores row.scale ∧ attributes ≠ .bad ∧ timestamp ≠ .bad ∧
      row.timestamp = some (timestamp.at now) ∧ row.dirty = true ∧ row.removed = false ∧
      ats = attributes.entries := by
  constructor
  · intro h
    unfold addChecks at h
    split at h
    · cases h
    split at h
    · cases h
    rename_i c hc
    split at h
    · cases h
    rename_i s hs
    split at h
    · cases h
    rename_i as has
    split at h
    · cases h
    rename_i ts hts
    split at h
    · cases h
    rename_i info hi
    split at h
    · cases h
    rename_i n hn
    split at h
    · cases h
    rename_i hname
    cases h
    refine ⟨getInfo_ok_iff.mp hi, addName_ok_iff.mp hn, ?_, checkCoef_ok_iff.mp hc,
      checkCoef_ok_iff.mp hs, ?_, ?_, ?_, rfl, rfl, ?_⟩
    · intro hmem
      apply hname
      exact (hasName_iff m n).mpr hmem
    · rintro rfl; cases has
    · rintro rfl; cases hts
    · cases timestamp <;> cases hts <;> rfl
    · cases attributes <;> cases has <;> rfl
  · rintro ⟨ht, hn, hnew, hc, hs, ha, hts, e1, e2, e3, rfl⟩
    have hnot : m.hasName row.name = false := by
      rw [← Bool.not_eq_true, hasName_iff]; exact hnew
    unfold addChecks
    rw [Denotes_truthy ht, checkCoef_ok_iff.mpr hc, checkCoef_ok_iff.mpr hs]
    have h1 : addAttrs attributes = .ok attributes.entries := by
      cases attributes <;> first | rfl | exact absurd rfl ha
    have h2 : addTs now timestamp = .ok (timestamp.at now) := by
      cases timestamp <;> first | rfl | exact absurd rfl hts
    simp only [h1, h2, getInfo_ok_iff.mpr ht, addName_ok_iff.mpr hn, hnot]
    simp only [Bool.not_true, Bool.false_eq_true, if_false, Except.ok.injEq, Prod.mk.injEq, and_true]
    cases row
    simp only at e1 e2 e3
    simp [e1, e2, e3]

theorem names_empty {i : Inter} {n : String} (h : PyName.Names (.str "") i n) : n = i.defaultName := by
  cases h with
  | given n i h => exact absurd rfl h
  | lin v => rfl
  | quad v w => rfl

theorem updateChecks_write {importTime : ℚ} {m : LModel} {target : PyTarget} {name : PyName}
    {coefficient scale : Option PyCoef} {attributes : PyAttrs} {timestamp : Option PyTs} {idx : Nat}
    {c s : Option ℚ} {ats : List (String × PyVal)} {ts : Option ℚ}
    (h : updateChecks importTime m target name coefficient scale attributes timestamp =
      .ok (.write idx c s ats ts)) :
    (∃ n, Resolves m target name n ∧ m.indexOf n = .ok idx ∧ m.isRemoved n = .ok false) ∧
    coefficient = c.map PyCoef.num ∧ scale = s.map PyCoef.num ∧ attributes ≠ .bad ∧
    ats = attributes.entries ∧ timestamp.getD (.num importTime) ≠ .bad ∧
    ts = (timestamp.getD (.num importTime)).stored := by
  unfold updateChecks at h
  split at h
  · cases h
  rename_i hf1
  split at h
  · cases h
  rename_i hf2
  split at h
  · cases h
  rename_i c' hc
  split at h
  · cases h
  rename_i s' hs
  split at h
  · cases h
  rename_i ha
  simp only at h
  split at h
  · cases h
  rename_i ht
  split at h
  · cases h
  rename_i info hinfo
  split at h
  · cases h
  · cases h
  rename_i n hn
  split at h
  · cases h
  · cases h
  rename_i hrm
  split at h
  · cases h
  rename_i i hi
  cases h
  have hcoef : ∀ {x : Option PyCoef} {y : Option ℚ}, checkNum? x = .ok y → x = y.map PyCoef.num := by
    intro x y hxy
    cases x with
    | none => cases hxy; rfl
    | some p => cases p <;> cases hxy; rfl
  refine ⟨⟨n, ?_, hi, hrm⟩, hcoef hc, hcoef hs, ha, rfl, ht, rfl⟩
  unfold updateName at hn
  split at hn
  · rename_i htr
    cases name with
    | tuple => cases hn
    | other => cases hn
    | str k =>
      simp only at hn
      split at hn
      · rename_i hk
        cases hn
        refine .byName _ _ ?_ (by simpa [PyName.truthy] using htr) ((hasName_iff _ _).mp hk)
        by_contra hne
        simp only [optInfo, hne, if_false] at hinfo
        have htt : target.truthy = false := by simpa [htr] using hf2
        cases hg : getInfo target with
        | error e => rw [hg] at hinfo; cases hinfo
        | ok j =>
          rw [Denotes_truthy (getInfo_ok_iff.mp hg)] at htt
          cases htt
      · cases hn
  · rename_i hfalse
    split at hn
    · cases hn
    · rename_i j
      split at hn
      · rename_i hj
        cases hn
        have hd : target.Denotes j := by
          unfold optInfo at hinfo
          split at hinfo
          · cases hinfo
          · split at hinfo
            · cases hinfo; rename_i hg; exact getInfo_ok_iff.mp hg
            · cases hinfo
        cases name with
        | tuple => exact absurd rfl hfalse
        | other => exact absurd rfl hfalse
        | str k =>
          have : k = "" := by simpa [PyName.truthy] using hfalse
          subst this
          exact .byTarget _ _ _ hd (names_default j) ((hasName_iff _ _).mp hj)
      · cases hn

theorem updateChecks_add {importTime : ℚ} {m : LModel} {target : PyTarget} {name : PyName}
    {coefficient scale : Option PyCoef} {attributes : PyAttrs} {timestamp : Option PyTs}
    {c s : ℚ} {ts : PyTs}
    (h : updateChecks importTime m target name coefficient scale attributes timestamp = .ok (.add c s ts)) :
    name = .str "" ∧ (∃ i, target.Denotes i ∧ i.defaultName ∉ m.names) ∧
    ts = timestamp.getD (.num importTime) ∧ ts ≠ .bad := by
  unfold updateChecks at h
  split at h
  · cases h
  split at h
  · cases h
  split at h
  · cases h
  split at h
  · cases h
  split at h
  · cases h
  simp only at h
  split at h
  · cases h
  rename_i ht
  split at h
  · cases h
  rename_i info hinfo
  split at h
  · cases h
  · rename_i hn
    cases h
    unfold updateName at hn
    split at hn
    · cases name with
      | tuple => cases hn
      | other => cases hn
      | str k =>
        simp only at hn
        split at hn <;> cases hn
    · rename_i hfalse
      split at hn
      · cases hn
      · rename_i j
        split at hn
        · cases hn
        · rename_i hj
          have hd : target.Denotes j := by
            unfold optInfo at hinfo
            split at hinfo
            · cases hinfo
            · split at hinfo
              · cases hinfo; rename_i hg; exact getInfo_ok_iff.mp hg
              · cases hinfo
          refine ⟨?_, ⟨j, hd, fun hm => hj ((hasName_iff _ _).mpr hm)⟩, rfl, ht⟩
          cases name with
          | tuple => exact absurd rfl hfalse
          | other => exact absurd rfl hfalse
          | str k =>
            have : k = "" := by simpa [PyName.truthy] using hfalse
            rw [this]
  · split at h
    · cases h
    · cases h
    · split at h <;> cases h

end Sawatabi
