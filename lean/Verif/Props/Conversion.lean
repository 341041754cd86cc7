import Verif.Lemmas.Conv
import Verif.Props.Examples
import Verif.Spec.History

/-!
# Conversion between Ising and QUBO (C35, C36, C37)
-/

namespace Sawatabi.Props

variable {m m' m'' : LModel} {env : Env} {clk clk' : Nat → ℚ}

/-! ## C35: the energy after a conversion

`to_ising` and `to_qubo` add to the offset where they would have to subtract. The energy therefore
moves by twice the change of the offset. -/

/-- All active interactions have scale 1 (the default of `add_interaction`). -/
def UnitScales (m : LModel) : Prop := ∀ r ∈ m.rows, r.removed = false → r.scale = .num 1

/-- What `to_ising` adds to the contribution of one active interaction, as a function of the bits. -/
def isingShift (ρ : PEnv) (x : Assign) (r : Row) : ℚ :=
  if r.removed then 0 else
    let c := r.coef.eval ρ
    let s := r.scale.eval ρ
    match r.inter with
    | .lin _ => c * (1 + s) / 2
    | .quad v w => c * (3 - s) / 4 + c * (s - 1) / 2 * (x v.label + x w.label)

/-- What `to_qubo` adds to the contribution of one active interaction, as a function of the spins. -/
def quboShift (ρ : PEnv) (z : Assign) (r : Row) : ℚ :=
  if r.removed then 0 else
    let c := r.coef.eval ρ
    let s := r.scale.eval ρ
    match r.inter with
    | .lin _ => -(c * (1 + s))
    | .quad v w => c * (3 - s) - c * (s - 1) * (z v.label + z w.label)

/-- The energy after `to_ising`, whatever the scales. -/
theorem C35_toIsing_exact_partial (hu : m.names.Nodup) (hq : m.mtype = .qubo)
    (h : (toIsing env clk).run m = .ok ⟨⟩ m') (ρ : PEnv) (x : Assign) :
    m'.energy ρ x.toSpin = m.energy ρ x + (m.rows.map (isingShift ρ x)).sum := by
  rw [toIsing_run, if_neg (by rw [hq]; simp)] at h
  obtain ⟨news, hc⟩ := genConv_ok hu h
  unfold LModel.energy
  rw [converted_offset hc, term_eq_active, converted_sum hc, term_eq_active]
  have : isingShift ρ x = Row.active fun i c s => match i with
      | .lin _ => c.eval ρ * (1 + s.eval ρ) / 2
      | .quad v w => c.eval ρ * (3 - s.eval ρ) / 4 + c.eval ρ * (s.eval ρ - 1) / 2 * (x v.label + x w.label) := by
    funext r; rfl
  rw [this, sub_add, add_sub_assoc, sub_eq_add_neg (m.offset.eval ρ), neg_sub, sum_active_sub, sum_active_sub]
  congr 1
  apply sum_active_congr
  intro r _ _
  cases r.inter with
  | lin v => simp only [convSum, Coef.eval_mul, Coef.eval_num, Inter.value, Assign.toSpin]; ring
  | quad v w => simp only [convSum, Coef.eval_mul, Coef.eval_num, Inter.value, Assign.toSpin]; ring

/-- The energy after `to_qubo`, whatever the scales. -/
theorem C35_toQubo_exact_partial (hu : m.names.Nodup) (hq : m.mtype = .ising)
    (h : (toQubo env clk).run m = .ok ⟨⟩ m') (ρ : PEnv) (z : Assign) :
    m'.energy ρ z.toBinary = m.energy ρ z + (m.rows.map (quboShift ρ z)).sum := by
  rw [toQubo_run, if_neg (by rw [hq]; simp)] at h
  obtain ⟨news, hc⟩ := genConv_ok hu h
  unfold LModel.energy
  rw [converted_offset hc, term_eq_active, converted_sum hc, term_eq_active]
  have : quboShift ρ z = Row.active fun i c s => match i with
      | .lin _ => -(c.eval ρ * (1 + s.eval ρ))
      | .quad v w => c.eval ρ * (3 - s.eval ρ) - c.eval ρ * (s.eval ρ - 1) * (z v.label + z w.label) := by
    funext r; rfl
  rw [this, sub_add, add_sub_assoc, sub_eq_add_neg (m.offset.eval ρ), neg_sub, sum_active_sub, sum_active_sub]
  congr 1
  apply sum_active_congr
  intro r _ _
  cases r.inter with
  | lin v => simp only [convSum, Coef.eval_mul, Coef.eval_num, Inter.value, Assign.toBinary, id]; ring
  | quad v w => simp only [convSum, Coef.eval_mul, Coef.eval_num, Inter.value, Assign.toBinary, id]; ring

/-- With the default scale the energy moves by a constant: twice the change of the offset. -/
theorem C35_toIsing_shift_partial (hu : m.names.Nodup) (hq : m.mtype = .qubo) (hs : UnitScales m)
    (h : (toIsing env clk).run m = .ok ⟨⟩ m') (ρ : PEnv) (x : Assign) :
    m'.energy ρ x.toSpin = m.energy ρ x + 2 * (m'.offset.eval ρ - m.offset.eval ρ) := by
  rw [C35_toIsing_exact_partial hu hq h]
  rw [toIsing_run, if_neg (by rw [hq]; simp)] at h
  obtain ⟨news, hc⟩ := genConv_ok hu h
  rw [converted_offset hc]
  have : isingShift ρ x = Row.active fun i c s => match i with
      | .lin _ => c.eval ρ * (1 + s.eval ρ) / 2
      | .quad v w => c.eval ρ * (3 - s.eval ρ) / 4 + c.eval ρ * (s.eval ρ - 1) / 2 * (x v.label + x w.label) := by
    funext r; rfl
  rw [this, add_sub_cancel_left, two_mul, sum_active_add]
  congr 1
  apply sum_active_congr
  intro r hr hrm
  rw [hs r hr hrm]
  cases r.inter with
  | lin v => simp only [Coef.eval_mul, Coef.eval_num]; ring
  | quad v w => simp only [Coef.eval_mul, Coef.eval_num]; ring

/-- With the default scale the energy moves by a constant: twice the change of the offset. -/
theorem C35_toQubo_shift_partial (hu : m.names.Nodup) (hq : m.mtype = .ising) (hs : UnitScales m)
    (h : (toQubo env clk).run m = .ok ⟨⟩ m') (ρ : PEnv) (z : Assign) :
    m'.energy ρ z.toBinary = m.energy ρ z + 2 * (m'.offset.eval ρ - m.offset.eval ρ) := by
  rw [C35_toQubo_exact_partial hu hq h]
  rw [toQubo_run, if_neg (by rw [hq]; simp)] at h
  obtain ⟨news, hc⟩ := genConv_ok hu h
  rw [converted_offset hc]
  have : quboShift ρ z = Row.active fun i c s => match i with
      | .lin _ => -(c.eval ρ * (1 + s.eval ρ))
      | .quad v w => c.eval ρ * (3 - s.eval ρ) - c.eval ρ * (s.eval ρ - 1) * (z v.label + z w.label) := by
    funext r; rfl
  rw [this, add_sub_cancel_left, two_mul, sum_active_add]
  congr 1
  apply sum_active_congr
  intro r hr hrm
  rw [hs r hr hrm]
  cases r.inter with
  | lin v => simp only [Coef.eval_mul, Coef.eval_num]; ring
  | quad v w => simp only [Coef.eval_mul, Coef.eval_num, id]; ring

/-- With the default scale energy differences, and so the ground states, are preserved by `to_ising`. -/
theorem C35_toIsing_gap_partial (hu : m.names.Nodup) (hq : m.mtype = .qubo) (hs : UnitScales m)
    (h : (toIsing env clk).run m = .ok ⟨⟩ m') (ρ : PEnv) (x y : Assign) :
    m'.energy ρ x.toSpin - m'.energy ρ y.toSpin = m.energy ρ x - m.energy ρ y := by
  rw [C35_toIsing_shift_partial hu hq hs h, C35_toIsing_shift_partial hu hq hs h]
  ring

/-- With the default scale energy differences are preserved by `to_qubo`. -/
theorem C35_toQubo_gap_partial (hu : m.names.Nodup) (hq : m.mtype = .ising) (hs : UnitScales m)
    (h : (toQubo env clk).run m = .ok ⟨⟩ m') (ρ : PEnv) (x y : Assign) :
    m'.energy ρ x.toBinary - m'.energy ρ y.toBinary = m.energy ρ x - m.energy ρ y := by
  rw [C35_toQubo_shift_partial hu hq hs h, C35_toQubo_shift_partial hu hq hs h]
  ring

/-- A conversion to the type that the model has does nothing. -/
theorem C35_same_type : (m.mtype = .ising → (toIsing env clk).run m = .ok ⟨⟩ m) ∧
    (m.mtype = .qubo → (toQubo env clk).run m = .ok ⟨⟩ m) :=
  ⟨fun h => by rw [toIsing_run, if_pos h], fun h => by rw [toQubo_run, if_pos h]⟩


/-! ## C36: there and back -/

/-- `to_ising` followed by `to_qubo` gives back every energy exactly. -/
theorem C36_qubo_roundtrip_partial (hu : m.names.Nodup) (hq : m.mtype = .qubo)
    (h : (toIsing env clk).run m = .ok ⟨⟩ m') (h' : (toQubo env clk').run m' = .ok ⟨⟩ m'') (ρ : PEnv) (σ : Assign) :
    m''.energy ρ σ = m.energy ρ σ := by
  rw [toIsing_run, if_neg (by rw [hq]; simp)] at h
  obtain ⟨news, hc⟩ := genConv_ok hu h
  rw [toQubo_run, if_neg (by rw [hc.mtype]; simp)] at h'
  obtain ⟨news', hc'⟩ := genConv_ok (converted_names hc) h'
  unfold LModel.energy
  rw [converted_offset hc', converted_offset hc, term_eq_active, converted_sum hc', converted_sum hc,
    converted_sum hc, add_assoc, add_sub_assoc, sum_active_add, sum_active_sub,
    sub_eq_add_neg (m.offset.eval ρ), ← sum_active_neg]
  congr 1
  apply sum_active_congr
  intro r _ _
  cases r.inter with
  | lin v => simp only [convSum, Coef.eval_mul, Coef.eval_num, Inter.value]; ring
  | quad v w => simp only [convSum, Coef.eval_mul, Coef.eval_num, Inter.value, id]; ring

/-- `to_qubo` followed by `to_ising` gives back every energy exactly. -/
theorem C36_ising_roundtrip_partial (hu : m.names.Nodup) (hq : m.mtype = .ising)
    (h : (toQubo env clk).run m = .ok ⟨⟩ m') (h' : (toIsing env clk').run m' = .ok ⟨⟩ m'') (ρ : PEnv) (σ : Assign) :
    m''.energy ρ σ = m.energy ρ σ := by
  rw [toQubo_run, if_neg (by rw [hq]; simp)] at h
  obtain ⟨news, hc⟩ := genConv_ok hu h
  rw [toIsing_run, if_neg (by rw [hc.mtype]; simp)] at h'
  obtain ⟨news', hc'⟩ := genConv_ok (converted_names hc) h'
  unfold LModel.energy
  rw [converted_offset hc', converted_offset hc, term_eq_active, converted_sum hc', converted_sum hc,
    converted_sum hc, add_assoc, add_sub_assoc, sum_active_add, sum_active_sub,
    sub_eq_add_neg (m.offset.eval ρ), ← sum_active_neg]
  congr 1
  apply sum_active_congr
  intro r _ _
  cases r.inter with
  | lin v => simp only [convSum, Coef.eval_mul, Coef.eval_num, Inter.value]; ring
  | quad v w => simp only [convSum, Coef.eval_mul, Coef.eval_num, Inter.value, id]; ring


/-! ## C37: conversions that raise -/

/-- An array with this name and shape can be created: at least one dimension, no empty dimension, no
`*` in the name. -/
def Creatable (n : String) (sh : List Nat) : Prop := sh ≠ [] ∧ (∀ d ∈ sh, 0 < d) ∧ '*' ∉ n.toList

/-- The names of the interactions that a conversion adds: two for each active quadratic interaction. -/
def conversionNames (env : Env) (clk : Nat → ℚ) (m : LModel) : List String :=
  ((m.rows.filter fun r => r.inter.key1.isSome && !r.removed).zipIdx).flatMap fun p =>
    (p.1.inter.key0 :: p.1.inter.key1.toList).zipIdx.map fun k =>
      k.1 ++ " from " ++ p.1.name ++ " (mtype additional " ++ env.render (clk (4 * p.2 + 2 * k.2)) ++ ")"

theorem conversionNames_eq (env : Env) (clk : Nat → ℚ) (m : LModel) :
    conversionNames env clk m = addedNames env clk (activeBody 2 m.rows) 0 := by
  have hf : (m.rows.filter fun r => r.inter.key1.isSome && !r.removed) = activeBody 2 m.rows := by
    unfold activeBody
    congr 1
    funext r
    cases r.inter <;> simp [Inter.key1, Inter.body]
  have hb : ∀ p ∈ (activeBody 2 m.rows).zipIdx, ∃ v w, p.1.inter = .quad v w := by
    intro p hp
    have := List.of_mem_filter (List.fst_mem_of_mem_zipIdx hp)
    cases hi : p.1.inter with
    | lin v => rw [hi] at this; simp [Inter.body] at this
    | quad v w => exact ⟨v, w, rfl⟩
  unfold conversionNames addedNames
  rw [hf]
  generalize (activeBody 2 m.rows).zipIdx = l at hb
  induction l with
  | nil => rfl
  | cons p l ih =>
    rw [List.flatMap_cons, List.flatMap_cons, ih fun q hq => hb q (by simp [hq])]
    obtain ⟨v, w, hi⟩ := hb p (by simp)
    simp [hi, Inter.key0, Inter.key1, addedName]

theorem arrayCreate_of_creatable {n : String} {sh : List Nat} (vt : VType) (h : Creatable n sh) :
    ∃ a, arrayCreate n (sh.map Int.ofNat) vt = .ok a := by
  obtain ⟨h1, h2, h3⟩ := h
  unfold arrayCreate
  rw [if_neg (by simpa using h1), if_neg, if_neg h3]
  · exact ⟨_, rfl⟩
  · simp only [List.any_map, List.any_eq_true, Function.comp, decide_eq_true_eq, not_exists, not_and]
    intro d hd
    have := h2 d hd
    simp
    omega

/-- Sufficient conditions for a conversion to complete: numeric coefficients and non-empty names on the
active interactions, and no clash of the generated names. -/
theorem C37_succeeds_partial (hm : m.Rect) (hu : m.names.Nodup)
    (harr : ∀ n a, dget m.vars n = some a → Creatable n a.shape)
    (hact : ∀ r ∈ m.rows, r.removed = false → r.name ≠ "" ∧ ∃ q, r.coef = .num q)
    (hfresh : (m.names ++ conversionNames env clk m).Nodup) :
    (∃ m', (toIsing env clk).run m = .ok ⟨⟩ m') ∧ ∃ m', (toQubo env clk).run m = .ok ⟨⟩ m' := by
  rw [conversionNames_eq] at hfresh
  have hnum : ∀ (b : Nat) (q : ℚ), ∀ h ∈ activeBody b m.rows, h.name ≠ "" ∧ (h.coef.mul (.num q)).isNum = true := by
    intro b q h hh
    obtain ⟨h1, h2⟩ := List.mem_filter.mp hh
    simp only [Bool.and_eq_true, Bool.not_eq_true'] at h2
    obtain ⟨hne, c, hc⟩ := hact h h1 h2.2
    exact ⟨hne, by rw [hc]; rfl⟩
  constructor
  · rw [toIsing_run]
    split
    · exact ⟨m, rfl⟩
    · exact genConv_succeeds hm hu (fun n a ha => arrayCreate_of_creatable _ (harr n a ha)) (hnum 1 _) (hnum 2 _) hfresh
  · rw [toQubo_run]
    split
    · exact ⟨m, rfl⟩
    · exact genConv_succeeds hm hu (fun n a ha => arrayCreate_of_creatable _ (harr n a ha)) (hnum 1 _) (hnum 2 _) hfresh

theorem creatable_of_arrayCreate {n : String} {sh : List Nat} {vt : VType} {a : VArray}
    (h : arrayCreate n (sh.map Int.ofNat) vt = .ok a) : Creatable n sh := by
  unfold arrayCreate at h
  split at h
  · cases h
  rename_i h1
  split at h
  · cases h
  rename_i h2
  split at h
  · cases h
  rename_i h3
  refine ⟨by simpa using h1, fun d hd => ?_, h3⟩
  simp only [List.any_map, List.any_eq_true, Function.comp, decide_eq_true_eq, not_exists, not_and] at h2
  have := h2 d hd
  simp at this
  omega

/-- What a conversion to the other type needs: every array can be created again, the active interactions have
non-empty names and numeric coefficients, and the generated names are new and different from each other. -/
def Convertible (env : Env) (clk : Nat → ℚ) (m : LModel) : Prop :=
  (∀ n a, dget m.vars n = some a → Creatable n a.shape) ∧
  (∀ r ∈ m.rows, r.removed = false → r.name ≠ "" ∧ ∃ q, r.coef = .num q) ∧
  (m.names ++ conversionNames env clk m).Nodup

/-- A conversion to the other type succeeds exactly on convertible models. -/
theorem C37_success_iff (hm : m.Rect) (hu : m.names.Nodup) :
    (m.mtype = .qubo → ((∃ m', (toIsing env clk).run m = .ok ⟨⟩ m') ↔ Convertible env clk m)) ∧
    (m.mtype = .ising → ((∃ m', (toQubo env clk).run m = .ok ⟨⟩ m') ↔ Convertible env clk m)) := by
  have back : ∀ {mt : MType} {f o f₂ g₂ o₂ : Coef → Coef} {m' : LModel}
      (_ : ∀ c, (f c).isNum = true → c.isNum = true) (_ : ∀ c, (f₂ c).isNum = true → c.isNum = true),
      (genConv env mt f o f₂ g₂ o₂ clk).run m = .ok ⟨⟩ m' → Convertible env clk m := by
    intro mt f o f₂ g₂ o₂ m' hf hf₂ h
    obtain ⟨news, hcv, hn⟩ := genConv_ok_names hu h
    refine ⟨fun n a ha => ?_, fun r hr hrm => ?_, ?_⟩
    · obtain ⟨a', _, hc⟩ := hcv.arrays n a ha
      exact creatable_of_arrayCreate hc
    · have hbody : r.inter.body = 1 ∨ r.inter.body = 2 := by cases r.inter <;> simp [Inter.body]
      rcases hbody with hb | hb
      · obtain ⟨h1, h2⟩ := hcv.lin r (List.mem_filter.mpr ⟨hr, by simp [hb, hrm]⟩)
        exact ⟨h1, Coef.isNum_iff.mp (hf _ h2)⟩
      · obtain ⟨h1, h2⟩ := hcv.quad r (List.mem_filter.mpr ⟨hr, by simp [hb, hrm]⟩)
        exact ⟨h1, Coef.isNum_iff.mp (hf₂ _ h2)⟩
    · rw [conversionNames_eq, ← hn]
      exact hcv.names
  have hmul : ∀ (q : ℚ) (c : Coef), (c.mul (.num q)).isNum = true → c.isNum = true := by
    intro q c h
    cases c with
    | num a => rfl
    | expr e => exact h
  constructor
  · intro hq
    refine ⟨fun ⟨m', h⟩ => ?_, fun h => (C37_succeeds_partial hm hu h.1 h.2.1 h.2.2).1⟩
    rw [toIsing_run, if_neg (by rw [hq]; simp)] at h
    exact back (hmul _) (hmul _) h
  · intro hq
    refine ⟨fun ⟨m', h⟩ => ?_, fun h => (C37_succeeds_partial hm hu h.1 h.2.1 h.2.2).2⟩
    rw [toQubo_run, if_neg (by rw [hq]; simp)] at h
    exact back (hmul _) (hmul _) h

/-- A conversion to the other type raises if an active interaction has a placeholder coefficient. -/
theorem C37_placeholder_raises_partial (hu : m.names.Nodup) {r : Row} (hr : r ∈ m.rows) (hrm : r.removed = false)
    (hc : r.coef.isNum = false) :
    (m.mtype = .qubo → ∃ e m', (toIsing env clk).run m = .error e m') ∧
    (m.mtype = .ising → ∃ e m', (toQubo env clk).run m = .error e m') := by
  have hmul : ∀ q : ℚ, (r.coef.mul (.num q)).isNum = false := by
    intro q
    cases hcc : r.coef with
    | num c => rw [hcc] at hc; cases hc
    | expr e => rfl
  have hbody : r.inter.body = 1 ∨ r.inter.body = 2 := by cases r.inter <;> simp [Inter.body]
  have hmem : r ∈ activeBody 1 m.rows ∨ r ∈ activeBody 2 m.rows := by
    rcases hbody with h | h
    · exact .inl (List.mem_filter.mpr ⟨hr, by simp [h, hrm]⟩)
    · exact .inr (List.mem_filter.mpr ⟨hr, by simp [h, hrm]⟩)
  constructor
  · intro hq
    cases h : (toIsing env clk).run m with
    | error e m' => exact ⟨e, m', rfl⟩
    | ok u m' =>
      rw [toIsing_run, if_neg (by rw [hq]; simp)] at h
      obtain ⟨news, hcv⟩ := genConv_ok hu h
      rcases hmem with hm | hm
      · have := (hcv.lin r hm).2
        rw [hmul] at this; cases this
      · have := (hcv.quad r hm).2
        rw [hmul] at this; cases this
  · intro hq
    cases h : (toQubo env clk).run m with
    | error e m' => exact ⟨e, m', rfl⟩
    | ok u m' =>
      rw [toQubo_run, if_neg (by rw [hq]; simp)] at h
      obtain ⟨news, hcv⟩ := genConv_ok hu h
      rcases hmem with hm | hm
      · have := (hcv.lin r hm).2
        rw [hmul] at this; cases this
      · have := (hcv.quad r hm).2
        rw [hmul] at this; cases this

/-! ## Examples and refutations -/

/-- A model that converts. -/
def convEx : LModel := Ex.after (LModel.new .qubo "202") do
  let _ ← createVars "x" [3]
  addInteraction 10 (.var Ex.b0) (.str "") (.num 3) (.num 1) .none .none
  addInteraction 11 (.tuple [some Ex.b0, some Ex.b1]) (.str "") (.num 8) (.num 1) .none .none
  addInteraction 12 (.var Ex.b2) (.str "") (.num (-4)) (.num 1) .none .none
  removeInteraction .none (.str "x[2]")
  setOffset (.num 9)

def convEnv : Env := ⟨0, fun _ => "t"⟩

/-- `to_ising` on a one-variable model: the energies of `x = 0` and `x = 1` are 0 and -2 before, but 2
and 0 after. -/
theorem C35_energy_refuted :
    let m := Ex.after (LModel.new .qubo "202") do
      let _ ← createVars "x" [1]
      addInteraction 10 (.var Ex.b0) (.str "") (.num 2) (.num 1) .none .none
    ∃ m', (toIsing convEnv fun _ => 0).run m = .ok ⟨⟩ m' ∧
      ∀ ρ, m.energy ρ (fun _ => 1) = -2 ∧ m'.energy ρ (Assign.toSpin fun _ => 1) = 0 := by
  refine ⟨_, rfl, fun ρ => ⟨?_, ?_⟩⟩
  · change (0 : ℚ) - ((2 : ℚ) * 1 * 1 + 0) = -2
    norm_num
  · change ((0 : ℚ) + 2 * (1 / 2)) - (2 * (1 / 2) * 1 * (2 * 1 - 1) + 0) = 0
    norm_num

/-- A scale other than 1 changes energy differences: the model `-2*3*x[0]*x[1]`, where the energies of
`(1, 0)` and `(0, 0)` agree, becomes one where they differ. -/
theorem C35_scale_refuted :
    let m := Ex.after (LModel.new .qubo "202") do
      let _ ← createVars "x" [2]
      addInteraction 10 (.tuple [some Ex.b0, some Ex.b1]) (.str "") (.num 2) (.num 3) .none .none
    let x : Assign := fun l => if l = "x[0]" then 1 else 0
    let y : Assign := fun _ => 0
    ∃ m', (toIsing convEnv fun _ => 0).run m = .ok ⟨⟩ m' ∧
      m.energy (fun _ => 0) x = m.energy (fun _ => 0) y ∧
      m'.energy (fun _ => 0) x.toSpin ≠ m'.energy (fun _ => 0) y.toSpin := by
  refine ⟨_, rfl, ?_, ?_⟩
  · decide +kernel
  · decide +kernel

/-- With two interactions of the same name, which a merge can produce, the round trip changes the
energy. -/
theorem C36_duplicate_refuted :
    let a := Ex.after (LModel.new .ising "101") (addInteraction 1 (.var Ex.x0) (.str "") (.num 1) (.num 1)
      .none .none)
    let b := Ex.after (LModel.new .ising "102") (do
      addInteraction 1 (.var Ex.x0) (.str "") (.num 1) (.num 1) .none .none
      addInteraction 1 (.var Ex.x1) (.str "x[0] (101)") (.num 5) (.num 1) .none .none)
    let m := Op.step convEnv a (.merge (fun _ => 0) b)
    ∃ m', (toQubo convEnv fun _ => 0).run m = .ok ⟨⟩ m' ∧ ∃ m'', (toIsing convEnv fun _ => 0).run m' = .ok ⟨⟩ m'' ∧
      m''.energy (fun _ => 0) (fun _ => -1) ≠ m.energy (fun _ => 0) fun _ => -1 := by
  refine ⟨_, rfl, _, rfl, ?_⟩
  decide +kernel

/-- A placeholder coefficient: `to_ising` raises after the type, the variables and an interaction have
changed. -/
theorem C37_atomic_refuted :
    ∃ e m', (toIsing convEnv fun _ => 0).run Ex.qubo = .error e m' ∧ m'.mtype ≠ Ex.qubo.mtype ∧
      m'.vars ≠ Ex.qubo.vars ∧ m'.rows ≠ Ex.qubo.rows ∧ m'.offset ≠ Ex.qubo.offset := by
  refine ⟨_, _, rfl, ?_, ?_, ?_, ?_⟩
  all_goals decide +kernel

/-- The same without placeholders: the generated name is taken. -/
theorem C37_clash_refuted :
    let m := Ex.after (LModel.new .qubo "202") do
      let _ ← createVars "x" [2]
      addInteraction 10 (.tuple [some Ex.b0, some Ex.b1]) (.str "J") (.num 2) (.num 1) .none .none
      addInteraction 10 (.var Ex.b0) (.str "x[0] from J (mtype additional t)") (.num 2) (.num 1) .none .none
    ∃ m', (toIsing convEnv fun _ => 0).run m = .error .valueError m' ∧ m'.mtype ≠ m.mtype ∧ m'.rows ≠ m.rows := by
  refine ⟨_, rfl, ?_, ?_⟩
  all_goals decide +kernel

/-- The hypotheses of the theorems on C35 and C36 hold for `convEx`. -/
example : convEx.names.Nodup ∧ convEx.mtype = .qubo ∧ UnitScales convEx ∧
    (∃ m', (toIsing convEnv fun _ => 0).run convEx = .ok ⟨⟩ m' ∧ m'.rows.length = 5 ∧
      ∃ m'', (toQubo convEnv fun _ => 1).run m' = .error .valueError m'') := by
  refine ⟨by decide, by decide, ?_, _, rfl, by decide +kernel, _, rfl⟩
  unfold UnitScales; decide +kernel

/-- With a rendering that tells times apart the way back succeeds as well. -/
example : ∃ m', (toIsing ⟨0, fun q => toString q⟩ fun _ => 0).run convEx = .ok ⟨⟩ m' ∧
    ∃ m'', (toQubo ⟨0, fun q => toString q⟩ fun _ => 1).run m' = .ok ⟨⟩ m'' := ⟨_, rfl, _, rfl⟩

example : convEx.Rect ∧ (∀ n a, dget convEx.vars n = some a → Creatable n a.shape) ∧
    (∀ r ∈ convEx.rows, r.removed = false → r.name ≠ "" ∧ ∃ q, r.coef = .num q) ∧
    (convEx.names ++ conversionNames convEnv (fun _ => 0) convEx).Nodup := by
  refine ⟨⟨by decide, by decide, by decide, by decide⟩, ?_, ?_, by decide⟩
  · intro n a h
    have := dget_mem h
    simp only [show convEx.vars = [("x", ⟨[3], [⟨.binary, "x[0]"⟩, ⟨.binary, "x[1]"⟩, ⟨.binary, "x[2]"⟩]⟩)] by decide,
      List.mem_singleton, Prod.mk.injEq] at this
    obtain ⟨rfl, rfl⟩ := this
    exact ⟨by decide, by decide, by decide⟩
  · intro r hr _
    have : ∀ r ∈ convEx.rows, r.name ≠ "" ∧ r.coef.isNum = true := by decide
    obtain ⟨h1, h2⟩ := this r hr
    exact ⟨h1, Coef.isNum_iff.mp h2⟩

/-- `convEx` is convertible, and the model with the placeholder is not. -/
example : convEx.Rect ∧ convEx.names.Nodup ∧ convEx.mtype = .qubo ∧ Convertible convEnv (fun _ => 0) convEx ∧
    Ex.qubo.Rect ∧ Ex.qubo.names.Nodup ∧ Ex.qubo.mtype = .qubo ∧ ¬ Convertible convEnv (fun _ => 0) Ex.qubo := by
  have h1 : convEx.Rect := ⟨by decide, by decide, by decide, by decide⟩
  have h2 : Ex.qubo.Rect := ⟨by decide, by decide, by decide, by decide⟩
  refine ⟨h1, by decide, by decide, ((C37_success_iff h1 (by decide)).1 (by decide)).mp ⟨_, rfl⟩, h2, by decide, by decide,
    fun hc => ?_⟩
  obtain ⟨m', hm'⟩ := ((C37_success_iff h2 (by decide)).1 (by decide)).mpr hc
  obtain ⟨e, m'', he, _⟩ := C37_atomic_refuted
  rw [he] at hm'
  cases hm'

end Sawatabi.Props
