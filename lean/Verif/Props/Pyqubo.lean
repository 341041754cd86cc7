import Verif.Spec.Pyqubo
import Verif.Props.Interactions
import Verif.Props.Variables
import Verif.Lemmas.ConstraintNames
import Verif.Lemmas.VarsInv

/-!
# Import of PyQUBO models (C42)
-/

namespace Sawatabi.Props

variable {m m' : LModel} {pm pm' : PModel} {now : ℚ}

theorem flatIndex_some {sh idx : List Nat} {i : Nat} (h : flatIndex sh idx = some i) : InShape idx sh ∧ i = rowMajor sh idx := by
  induction sh generalizing idx i with
  | nil =>
    cases idx with
    | nil => cases h; exact ⟨.nil, rfl⟩
    | cons a b => cases h
  | cons d ds ih =>
    cases idx with
    | nil => cases h
    | cons a b =>
      simp only [flatIndex] at h
      split at h
      · rename_i hlt
        cases hr : flatIndex ds b with
        | none => rw [hr] at h; cases h
        | some r =>
          rw [hr] at h
          simp only [Option.map_some, Option.some.injEq] at h
          obtain ⟨h1, h2⟩ := ih hr
          refine ⟨.cons hlt h1, ?_⟩
          rw [← h, h2, foldl_mul_eq, one_mul]
          rfl
      · cases h

theorem flatIndex_of_shape {sh idx : List Nat} (h : InShape idx sh) : flatIndex sh idx = some (rowMajor sh idx) := by
  unfold InShape at h
  induction h with
  | nil => rfl
  | @cons i d is ds hd _ ih =>
    simp only [flatIndex, rowMajor]
    rw [if_pos hd, ih, foldl_mul_eq, one_mul]
    rfl

/-- The variable that is looked up for a label has that label. -/
theorem lookupVar_label (hv : VarsOk m) (hl : pm.Labelled) {k : String} {v : PVar}
    (h : lookupVar m pm.struct k = .ok v) : v = ⟨m.mtype.vtype, k⟩ := by
  unfold lookupVar at h
  split at h
  · cases h
  rename_i n idx hs
  split at h
  · cases h
  rename_i a ha
  split at h
  · cases h
  rename_i i hi
  split at h
  · cases h
  rename_i w hw
  cases h
  obtain ⟨h1, rfl⟩ := flatIndex_some hi
  have := (hv.arrays n a (dget_mem ha)).1.order idx h1
  rw [this] at hw
  cases hw
  rw [hl k n idx hs]

/-- A label that belongs to a registered array is found. -/
theorem lookupVar_found (hv : VarsOk m) {k n : String} {idx : List Nat} {a : VArray} (hs : dget pm.struct k = some (n, idx))
    (ha : dget m.vars n = some a) (hi : InShape idx a.shape) : ∃ v, lookupVar m pm.struct k = .ok v := by
  refine ⟨⟨m.mtype.vtype, arrayLabel n idx⟩, ?_⟩
  unfold lookupVar
  simp only [hs, ha, flatIndex_of_shape hi]
  rw [(hv.arrays n a (dget_mem ha)).1.order idx hi]

theorem negCoef_eval (c : Coef) (ρ : PEnv) : (negCoef c).eval ρ = - c.eval ρ := by
  cases c with
  | num q => simp [negCoef, Coef.eval_num]
  | expr e => simp [negCoef, Coef.eval, PExpr.eval]

theorem toPy_value (c : Coef) (ρ : PEnv) : c.toPy.value ρ = c.eval ρ := by cases c <;> rfl

/-- One round of the import. -/
theorem step_run (kv : (String × String) × Coef) (s : LModel × PModel) :
    (fromPyquboStep now kv).run s =
      match lookupVar s.1 s.2.struct kv.1.1 with
      | .error e => .error e s
      | .ok t0 => match lookupVar s.1 s.2.struct kv.1.2 with
        | .error e => .error e s
        | .ok t1 =>
          let pm : PModel := if kv.2.isNum then s.2 else { s.2 with qubo := dset s.2.qubo kv.1 (negCoef kv.2) }
          let target : PyTarget := if kv.1.1 = kv.1.2 then .var t0 else .tuple [some t0, some t1]
          match (addInteraction now target (.str "") (negCoef kv.2).toPy (.num 1) .none .none).run s.1 with
          | .ok _ m' => .ok ⟨⟩ (m', pm)
          | .error e m' => .error e (m', pm) := by
  obtain ⟨m, pm⟩ := s
  unfold fromPyquboStep
  py_simp
  cases lookupVar m pm.struct kv.1.1 with
  | error e => rfl
  | ok t0 =>
    simp only [Py.run_liftE_ok]
    cases lookupVar m pm.struct kv.1.2 with
    | error e => rfl
    | ok t1 =>
      simp only [Py.run_liftE_ok]
      by_cases hn : kv.2.isNum = true
      · by_cases hk : kv.1.1 = kv.1.2
        · simp only [hn, hk, onFst]
          simp
          generalize Py.run _ _ = x
          cases x <;> rfl
        · simp only [hn, hk, onFst]
          simp
          generalize Py.run _ _ = x
          cases x <;> rfl
      · have hn : kv.2.isNum = false := by simpa using hn
        by_cases hk : kv.1.1 = kv.1.2
        · simp only [hn, hk, onFst]
          simp
          generalize Py.run _ _ = x
          cases x <;> rfl
        · simp only [hn, hk, onFst]
          simp
          generalize Py.run _ _ = x
          cases x <;> rfl

/-- Effect of one successful round. -/
theorem step_ok {kv : (String × String) × Coef} (hv : VarsOk m) (hl : pm.Labelled)
    (h : (fromPyquboStep now kv).run (m, pm) = .ok ⟨⟩ (m', pm')) :
    (∀ ρ σ, Assign.IsBinary σ → m'.energy ρ σ = m.energy ρ σ + kv.2.eval ρ * (σ kv.1.1 * σ kv.1.2)) ∧
    m'.vars = m.vars ∧ m'.mtype = m.mtype ∧ m'.offset = m.offset ∧ m'.constraints = m.constraints ∧
    m'.deleted = m.deleted ∧ m'.fixed = m.fixed ∧ (∃ r, m'.rows = m.rows ++ [r]) ∧
    pm'.struct = pm.struct ∧ pm'.offset = pm.offset ∧
    pm'.qubo = if kv.2.isNum then pm.qubo else dset pm.qubo kv.1 (negCoef kv.2) := by
  rw [step_run] at h
  simp only at h
  cases h0 : lookupVar m pm.struct kv.1.1 with
  | error e => rw [h0] at h; cases h
  | ok t0 =>
    cases h1 : lookupVar m pm.struct kv.1.2 with
    | error e => rw [h0, h1] at h; cases h
    | ok t1 =>
      rw [h0, h1] at h
      have l0 := lookupVar_label hv hl h0
      have l1 := lookupVar_label hv hl h1
      simp only at h
      split at h
      · rename_i m1 hr
        obtain ⟨rfl, rfl⟩ : m1 = m' ∧ _ = pm' := by simpa using h
        obtain ⟨r, hrows, _, _, _, _, _, _, _, ht, hvs, ho, hc, hd, hf⟩ := C02_add_frame hr
        refine ⟨?_, hvs, ht, ho, hc, hd, hf, ⟨r, hrows⟩, ?_, ?_, ?_⟩
        · intro ρ σ hb
          rw [C02_add_energy hr, toPy_value, negCoef_eval]
          simp only [PyCoef.value]
          by_cases hk : kv.1.1 = kv.1.2
          · rw [if_pos hk]
            subst l0
            simp only [PyTarget.product]
            rw [← hk]
            rcases hb kv.1.1 with hx | hx <;> rw [hx] <;> ring
          · rw [if_neg hk]
            subst l0 l1
            simp only [PyTarget.product]
            ring
        · split <;> rfl
        · split <;> rfl
        · split <;> rfl
      · cases h

/-- Effect of the loop. -/
theorem loop_ok (l : List ((String × String) × Coef)) {m : LModel} {pm : PModel} (hv : VarsOk m) (hl : pm.Labelled)
    (h : (l.forM (fromPyquboStep now)).run (m, pm) = .ok ⟨⟩ (m', pm')) :
    (∀ ρ σ, Assign.IsBinary σ → m'.energy ρ σ =
      m.energy ρ σ + (l.map fun kv => kv.2.eval ρ * (σ kv.1.1 * σ kv.1.2)).sum) ∧
    m'.vars = m.vars ∧ m'.mtype = m.mtype ∧ m'.offset = m.offset ∧ m'.constraints = m.constraints ∧
    m'.deleted = m.deleted ∧ m'.fixed = m.fixed ∧
    (∃ rs, m'.rows = m.rows ++ rs ∧ rs.length = l.length) ∧ pm'.struct = pm.struct ∧ pm'.offset = pm.offset ∧
    ((∀ kv ∈ l, kv.2.isNum = true) → pm' = pm) := by
  induction l generalizing m pm with
  | nil =>
    rw [Py.run_forM_nil] at h
    cases h
    exact ⟨fun _ _ _ => by simp, rfl, rfl, rfl, rfl, rfl, rfl, ⟨[], by simp, rfl⟩, rfl, rfl, fun _ => rfl⟩
  | cons kv l ih =>
    rw [Py.run_forM_cons] at h
    cases hs : (fromPyquboStep now kv).run (m, pm) with
    | error e s => rw [hs] at h; cases h
    | ok u s =>
      rw [hs] at h
      obtain ⟨m1, pm1⟩ := s
      obtain ⟨he, a1, a2, a3, a4, a5, a6, ⟨r, hr⟩, b1, b2, b3⟩ := step_ok hv hl hs
      have hl1 : pm1.Labelled := by intro k n idx hk; rw [b1] at hk; exact hl k n idx hk
      obtain ⟨he', c1, c2, c3, c4, c5, c6, ⟨rs, hrs, hlen⟩, d1, d2, d3⟩ := ih (varsOk_congr a1 a2 hv) hl1 h
      refine ⟨?_, c1.trans a1, c2.trans a2, c3.trans a3, c4.trans a4, c5.trans a5, c6.trans a6,
        ⟨r :: rs, by rw [hrs, hr, List.append_assoc]; rfl, by simp [hlen]⟩, d1.trans b1, d2.trans b2, ?_⟩
      · intro ρ σ hb
        rw [he' ρ σ hb, he ρ σ hb, List.map_cons, List.sum_cons]
        ring
      · intro hn
        rw [d3 fun kv hkv => hn kv (List.mem_cons_of_mem _ hkv)]
        rw [if_pos (hn kv List.mem_cons_self)] at b3
        cases pm; cases pm1; simp only at b1 b2 b3; rw [b1, b2, b3]

theorem fromPyqubo_run (m : LModel) (pm : PModel) : (fromPyqubo now).run (m, pm) =
    match (pm.qubo.forM (fromPyquboStep now)).run (m, pm) with
    | .ok _ s => .ok ⟨⟩ ({ s.1 with offset := s.2.offset }, s.2)
    | .error e s => .error e s := by
  unfold fromPyqubo
  py_simp
  generalize Py.run _ _ = x
  cases x <;> rfl

/-- A successful import adds the QUBO form of the PyQUBO model to the energy, for all bits and all values of the
placeholders, and replaces the offset of the model by that of the PyQUBO model. The interactions that were in the
model stay. (Missing: with an offset set before, the result is not the sum of both energies: see
`C42_offset_refuted`.) -/
theorem C42_energy_partial (hv : VarsOk m) (hl : pm.Labelled)
    (h : (fromPyqubo now).run (m, pm) = .ok ⟨⟩ (m', pm')) :
    (∀ ρ σ, Assign.IsBinary σ → m'.energy ρ σ = m.energy ρ σ - m.offset.eval ρ + pm.energy ρ σ) ∧
    (∃ rs, m'.rows = m.rows ++ rs ∧ rs.length = pm.qubo.length) ∧ m'.offset = pm.offset ∧ m'.vars = m.vars ∧
    m'.mtype = m.mtype ∧ m'.constraints = m.constraints ∧ m'.deleted = m.deleted ∧ m'.fixed = m.fixed := by
  rw [fromPyqubo_run] at h
  split at h
  · rename_i s hs
    obtain ⟨m1, pm1⟩ := s
    obtain ⟨rfl, rfl⟩ : _ = m' ∧ pm1 = pm' := by simpa using h
    obtain ⟨he, a1, a2, a3, a4, a5, a6, hr, b1, b2, _⟩ := loop_ok pm.qubo hv hl hs
    refine ⟨?_, hr, b2, a1, a2, a4, a5, a6⟩
    intro ρ σ hb
    have := he ρ σ hb
    simp only [LModel.energy, a3] at this
    simp only [LModel.energy, PModel.energy, b2]
    linarith
  · cases h

/-- Importing into a model without interactions gives the energy of the PyQUBO model. -/
theorem C42_import_energy (hv : VarsOk m) (hl : pm.Labelled) (hm : ∀ r ∈ m.rows, r.removed = true)
    (h : (fromPyqubo now).run (m, pm) = .ok ⟨⟩ (m', pm')) (ρ : PEnv) (σ : Assign) (hb : σ.IsBinary) :
    m'.energy ρ σ = pm.energy ρ σ := by
  rw [(C42_energy_partial hv hl h).1 ρ σ hb]
  have : (m.rows.map (Row.term ρ σ)).sum = 0 := by
    apply List.sum_eq_zero
    intro x hx
    obtain ⟨r, hr, rfl⟩ := List.mem_map.mp hx
    simp [Row.term, hm r hr]
  simp only [LModel.energy, this]
  ring

/-- The import leaves a PyQUBO model without placeholders as it was. (Missing: with placeholders it does not, see
`C42_reimport_refuted`.) -/
theorem C42_unchanged_partial (hv : VarsOk m) (hl : pm.Labelled) (hn : pm.Numeric)
    (h : (fromPyqubo now).run (m, pm) = .ok ⟨⟩ (m', pm')) : pm' = pm := by
  rw [fromPyqubo_run] at h
  split at h
  · rename_i s hs
    obtain ⟨m1, pm1⟩ := s
    obtain ⟨rfl, rfl⟩ : _ = m' ∧ pm1 = pm' := by simpa using h
    exact (loop_ok pm.qubo hv hl hs).2.2.2.2.2.2.2.2.2.2 hn
  · cases h

/-! ## Success -/

/-- The two labels of a QUBO key, smaller first. -/
def unordered (k : String × String) : String × String := if k.2 < k.1 then (k.2, k.1) else k

/-- The name of the interaction for a QUBO key. -/
def keyName (k : String × String) : String :=
  if k.1 = k.2 then k.1 else (unordered k).1 ++ "*" ++ (unordered k).2

/-- The label belongs to a variable that is registered in the model. -/
def Registered (m : LModel) (pm : PModel) (k : String) : Prop :=
  ∃ n idx a, dget pm.struct k = some (n, idx) ∧ dget m.vars n = some a ∧ InShape idx a.shape

theorem names_ok (v w : VType) (k : String × String) :
    ∃ i, (if k.1 = k.2 then PyTarget.var ⟨v, k.1⟩ else .tuple [some ⟨v, k.1⟩, some ⟨w, k.2⟩]).Denotes i ∧
      PyName.Names (.str "") i (keyName k) := by
  unfold keyName unordered
  by_cases hk : k.1 = k.2
  · rw [if_pos hk, if_pos hk]
    exact ⟨_, .var _, .lin _⟩
  · rw [if_neg hk, if_neg hk]
    by_cases hlt : k.2 < k.1
    · rw [if_pos hlt]
      exact ⟨_, .swapped ⟨w, k.2⟩ ⟨v, k.1⟩ hlt, .quad _ _⟩
    · rw [if_neg hlt]
      refine ⟨_, .pair ⟨v, k.1⟩ ⟨w, k.2⟩ ?_, .quad _ _⟩
      exact lt_of_le_of_ne (not_lt.mp hlt) hk

theorem keyName_inj {a b : String × String} (ha : '*' ∉ a.1.toList ∧ '*' ∉ a.2.toList)
    (hb : '*' ∉ b.1.toList ∧ '*' ∉ b.2.toList) (h : keyName a = keyName b) : unordered a = unordered b := by
  have su : ∀ k : String × String, '*' ∉ k.1.toList ∧ '*' ∉ k.2.toList →
      '*' ∉ (unordered k).1.toList ∧ '*' ∉ (unordered k).2.toList := by
    intro k hk
    unfold unordered
    split
    · exact hk.symm
    · exact hk
  have hs : ("*" : String).toList = ['*'] := rfl
  have split2 : ∀ x y : String, (x ++ "*" ++ y).toList = x.toList ++ '*' :: y.toList := by
    intro x y
    simp [String.toList_append, hs]
  have same : ∀ k : String × String, k.1 = k.2 → unordered k = (k.1, k.1) := by
    intro k hk
    unfold unordered
    rw [hk, if_neg (lt_irrefl _)]
    exact Prod.ext hk rfl
  unfold keyName at h
  split at h
  · rename_i h1
    split at h
    · rename_i h2
      rw [same a h1, same b h2, h]
    · exfalso
      apply ha.1
      rw [h, split2]
      simp
  · split at h
    · exfalso
      apply hb.1
      rw [← h, split2]
      simp
    · have h := congrArg String.toList h
      rw [split2, split2] at h
      obtain ⟨h1, h2⟩ := star_split (su a ha).1 (su b hb).1 h
      exact Prod.ext (String.toList_inj.mp h1) (String.toList_inj.mp h2)

theorem star_notin_repr (i : Nat) : '*' ∉ (Nat.repr i).toList := by
  rw [Nat.toList_repr]
  intro h
  have := Nat.isDigit_of_mem_toDigits (b := 10) (by decide) (by decide) h
  revert this
  decide

theorem arrayLabel_star {n : String} (h : '*' ∉ n.toList) (idx : List Nat) : '*' ∉ (arrayLabel n idx).toList := by
  have hx : '*' ∉ (idxSuffix idx).toList := by
    induction idx with
    | nil => simp [idxSuffix]
    | cons i is ih =>
      have h1 : ("[" : String).toList = ['['] := rfl
      have h2 : ("]" : String).toList = [']'] := rfl
      simp only [idxSuffix, String.toList_append, h1, h2, List.mem_append, List.mem_singleton]
      have := star_notin_repr i
      rintro ((((h | h)) | h) | h)
      · cases h
      · exact this h
      · cases h
      · exact ih h
  unfold arrayLabel
  rw [← idxSuffix_eq, String.toList_append, List.mem_append]
  exact fun h' => h'.elim h hx

theorem Registered.star {k : String} (hv : VarsOk m) (hl : pm.Labelled) (h : Registered m pm k) : '*' ∉ k.toList := by
  obtain ⟨n, idx, a, hs, ha, _⟩ := h
  rw [hl k n idx hs]
  exact arrayLabel_star (hv.arrays n a (dget_mem ha)).2.2.2 idx

/-- A round succeeds for registered variables and a new name. -/
theorem step_succeeds {kv : (String × String) × Coef} (hm : m.Rect) (hv : VarsOk m) (hl : pm.Labelled)
    (h0 : Registered m pm kv.1.1) (h1 : Registered m pm kv.1.2) (hn : keyName kv.1 ∉ m.names) :
    ∃ m' pm', (fromPyquboStep now kv).run (m, pm) = .ok ⟨⟩ (m', pm') ∧ m'.Rect ∧ m'.names = m.names ++ [keyName kv.1] := by
  obtain ⟨n, idx, a, hs, ha, hi⟩ := h0
  obtain ⟨v0, hv0⟩ := lookupVar_found hv hs ha hi
  obtain ⟨n, idx, a, hs, ha, hi⟩ := h1
  obtain ⟨v1, hv1⟩ := lookupVar_found hv hs ha hi
  have e0 := lookupVar_label hv hl hv0
  have e1 := lookupVar_label hv hl hv1
  obtain ⟨i, hd, hnm⟩ := names_ok m.mtype.vtype m.mtype.vtype kv.1
  rw [← e0, ← e1] at hd
  obtain ⟨m', hr⟩ := (C02_add_succeeds_iff (now := now) (c := (negCoef kv.2).toPy) (s := .num 1) (attributes := .none)
    (ts := .none) hm).mpr ⟨⟨i, _, hd, hnm, hn⟩, by cases kv.2 <;> simp [negCoef, Coef.toPy], by simp, by simp, by simp⟩
  refine ⟨m', if kv.2.isNum then pm else { pm with qubo := dset pm.qubo kv.1 (negCoef kv.2) }, ?_, ?_, ?_⟩
  · rw [step_run]
    simp only [hv0, hv1, hr]
  · have := add_rect now (if kv.1.1 = kv.1.2 then PyTarget.var v0 else .tuple [some v0, some v1]) (.str "") (negCoef kv.2).toPy (.num 1) .none .none m hm
    rw [hr] at this
    exact this
  · obtain ⟨r, hrows, hd', hn', _⟩ := C02_add_frame hr
    have hi : r.inter = i := by
      generalize (if kv.1.1 = kv.1.2 then PyTarget.var v0 else .tuple [some v0, some v1]) = t at hd hd'
      generalize r.inter = j at hd'
      cases hd with
      | var v => cases hd'; rfl
      | pair v w h => 
        cases hd' with
        | pair _ _ h' => rfl
        | swapped _ _ h' => exact absurd (lt_trans h h') (lt_irrefl _)
      | swapped v w h => 
        cases hd' with
        | swapped _ _ h' => rfl
        | pair _ _ h' => exact absurd (lt_trans h h') (lt_irrefl _)
    have : r.name = keyName kv.1 := by
      rw [hi] at hn'
      generalize keyName kv.1 = k at hnm
      generalize r.name = k' at hn'
      cases hnm with
      | given _ _ h => exact absurd rfl h
      | lin v =>
        cases hn' with
        | given _ _ h => exact absurd rfl h
        | lin => rfl
      | quad v w =>
        cases hn' with
        | given _ _ h => exact absurd rfl h
        | quad => rfl
    unfold LModel.names
    rw [hrows, List.map_append, List.map_cons, List.map_nil, this]

theorem loop_succeeds (l : List ((String × String) × Coef)) {m : LModel} {pm : PModel} (hm : m.Rect) (hv : VarsOk m)
    (hl : pm.Labelled) (hr : ∀ kv ∈ l, Registered m pm kv.1.1 ∧ Registered m pm kv.1.2)
    (hk : (l.map fun kv => keyName kv.1).Nodup) (hn : ∀ kv ∈ l, keyName kv.1 ∉ m.names) :
    ∃ s, (l.forM (fromPyquboStep now)).run (m, pm) = .ok ⟨⟩ s := by
  induction l generalizing m pm with
  | nil => exact ⟨_, rfl⟩
  | cons kv l ih =>
    rw [List.map_cons, List.nodup_cons] at hk
    obtain ⟨m1, pm1, hs, hm1, hnm⟩ := step_succeeds (now := now) hm hv hl (hr kv List.mem_cons_self).1
      (hr kv List.mem_cons_self).2 (hn kv List.mem_cons_self)
    obtain ⟨_, a1, a2, _, _, _, _, _, b1, _⟩ := step_ok hv hl hs
    rw [Py.run_forM_cons, hs]
    apply ih hm1 (varsOk_congr a1 a2 hv)
    · intro k n idx hk; rw [b1] at hk; exact hl k n idx hk
    · intro kv' hkv'
      simp only [Registered, a1, b1]
      exact hr kv' (List.mem_cons_of_mem _ hkv')
    · exact hk.2
    · intro kv' hkv'
      rw [hnm, List.mem_append, List.mem_singleton]
      rintro (h | h)
      · exact hn kv' (List.mem_cons_of_mem _ hkv') h
      · exact hk.1 (h ▸ List.mem_map_of_mem (f := fun kv : (String × String) × Coef => keyName kv.1) hkv')

/-- The import of a PyQUBO model into a model that has its variables and no interactions succeeds, if no two keys of
the QUBO form are the same unordered pair of labels. -/
theorem C42_success (hm : m.Rect) (hv : VarsOk m) (hl : pm.Labelled) (hrows : m.rows = [])
    (hr : ∀ kv ∈ pm.qubo, Registered m pm kv.1.1 ∧ Registered m pm kv.1.2)
    (hk : (pm.qubo.map fun kv => unordered kv.1).Nodup) :
    ∃ m' pm', (fromPyqubo now).run (m, pm) = .ok ⟨⟩ (m', pm') := by
  have this : ∀ l : List ((String × String) × Coef),
      (∀ kv ∈ l, '*' ∉ kv.1.1.toList ∧ '*' ∉ kv.1.2.toList) → (l.map fun kv => unordered kv.1).Nodup →
      (l.map fun kv => keyName kv.1).Nodup := by
    intro l
    induction l with
    | nil => simp
    | cons kv l ih =>
      intro hs hk
      rw [List.map_cons, List.nodup_cons] at hk ⊢
      refine ⟨fun hmem => ?_, ih (fun kv h => hs kv (List.mem_cons_of_mem _ h)) hk.2⟩
      obtain ⟨kv', h1, h2⟩ := List.mem_map.mp hmem
      apply hk.1
      rw [← keyName_inj (hs kv' (List.mem_cons_of_mem _ h1)) (hs kv List.mem_cons_self) h2]
      exact List.mem_map_of_mem (f := fun kv : (String × String) × Coef => unordered kv.1) h1
  obtain ⟨s, hs⟩ := loop_succeeds (now := now) pm.qubo hm hv hl hr
    (this _ (fun kv h => ⟨(hr kv h).1.star hv hl, (hr kv h).2.star hv hl⟩) hk) (fun kv _ => by simp [LModel.names, hrows])
  rw [fromPyqubo_run, hs]
  exact ⟨_, _, rfl⟩

/-! ## Examples and refutations -/

/-- `2 x0 x1 - p x2 + 3 x1` with offset 4, as PyQUBO compiles it. -/
def compiled : PModel where
  qubo := [(("x[1]", "x[0]"), .num 2), (("x[2]", "x[2]"), .expr (.mul (.num (-1)) (.ph "p"))), (("x[1]", "x[1]"), .num 3)]
  struct := [("x[0]", ("x", [0])), ("x[1]", ("x", [1])), ("x[2]", ("x", [2]))]
  offset := .num 4

/-- A QUBO model with the variables only. -/
def blank : LModel := Ex.after (LModel.new .qubo "5") (do let _ ← createVars "x" [3])

theorem compiled_labelled : compiled.Labelled := by
  intro k n idx h
  simp only [compiled, dget] at h
  split at h
  · rename_i hk
    cases h; rw [← hk]; decide +kernel
  split at h
  · rename_i hk
    cases h; rw [← hk]; decide +kernel
  split at h
  · rename_i hk
    cases h; rw [← hk]; decide +kernel
  cases h

theorem blank_vars : VarsOk blank := by
  have := createVars_ok "x" [3] (LModel.new .qubo "5") ⟨by decide, by intro n a h; cases h⟩
  unfold blank Ex.after
  py_simp
  generalize Py.run _ _ = x at this ⊢
  cases x <;> exact this

example : ∃ m' pm', (fromPyqubo 7).run (blank, compiled) = .ok ⟨⟩ (m', pm') ∧
    m'.names = ["x[0]*x[1]", "x[2]", "x[1]"] ∧
    m'.energy (fun _ => 5) (fun l => if l = "x[0]" then 0 else 1) = 2 ∧
    compiled.energy (fun _ => 5) (fun l => if l = "x[0]" then 0 else 1) = 2 := by
  refine ⟨_, _, rfl, ?_⟩
  decide +kernel

example : (compiled.qubo.map fun kv => unordered kv.1).Nodup ∧ blank.rows = [] ∧ Registered blank compiled "x[2]" :=
  ⟨by decide +kernel, by decide +kernel, "x", [2], _, rfl, rfl, .cons (by decide) .nil⟩

/-- Importing the same model with placeholders into two fresh models gives two different energies: the first import
negates the coefficients in place. -/
theorem C42_reimport_refuted : ∃ m1 pm1 m2 pm2, (fromPyqubo 7).run (blank, compiled) = .ok ⟨⟩ (m1, pm1) ∧
    (fromPyqubo 7).run (blank, pm1) = .ok ⟨⟩ (m2, pm2) ∧ pm1 ≠ compiled ∧
    m1.energy (fun _ => 5) (fun _ => 1) = 4 ∧ m2.energy (fun _ => 5) (fun _ => 1) = 14 := by
  refine ⟨_, _, _, _, rfl, rfl, ?_⟩
  decide +kernel

/-- An offset that was set before is lost. -/
theorem C42_offset_refuted : ∃ m1 m2 pm2, (setOffset (.num 100)).run blank = .ok ⟨⟩ m1 ∧
    (fromPyqubo 7).run (m1, compiled) = .ok ⟨⟩ (m2, pm2) ∧ m1.energy (fun _ => 5) (fun _ => 1) = 100 ∧
    m2.energy (fun _ => 5) (fun _ => 1) = 4 := by
  refine ⟨_, _, _, rfl, rfl, ?_⟩
  decide +kernel

end Sawatabi.Props
