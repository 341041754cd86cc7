import Verif.Lemmas.IsingNames
import Verif.Props.PhysicalTerms

/-!
# When `to_physical` succeeds on models with constraints, and the constant of Ising constraints (C20, C21, C22, C27)
-/

namespace Sawatabi.Props

variable {m m' : LModel} {env : Env} {clks : Nat → Nat → ℚ} {ids : Nat → String} {ph : List (String × ℚ)} {p : Physical}

/-! ## The models of constraints -/

/-- A constraint has a model exactly if the sets of an equality have no common label. -/
theorem good_iff {c : Constraint} (h : c.Regular) : c.Good ↔ c.Apart := by
  cases c with
  | nHot l s vs n =>
    obtain ⟨h1, h2⟩ := h vs (by simp [Constraint.sets])
    exact ⟨fun _ => trivial, fun _ => nHot_good h1 h2⟩
  | zeroOrOneHot l s vs =>
    obtain ⟨h1, h2⟩ := h vs (by simp [Constraint.sets])
    exact ⟨fun _ => trivial, fun _ => zeroOrOneHot_good h1 h2⟩
  | equality l s v1 v2 =>
    obtain ⟨h1, h2⟩ := h v1 (by simp [Constraint.sets])
    obtain ⟨h3, h4⟩ := h v2 (by simp [Constraint.sets])
    constructor
    · intro hg v hv w hw
      exact hg.2 (.pair v w (2 * s)) (List.mem_append.mpr (.inr
        (List.mem_flatMap.mpr ⟨v, hv, List.mem_map.mpr ⟨w, hw, rfl⟩⟩)))
    · intro ha
      apply equality_good
      · rw [List.map_append, List.nodup_append]
        refine ⟨h1, h3, ?_⟩
        rintro x hx y hy
        obtain ⟨v, hv, rfl⟩ := List.mem_map.mp hx
        obtain ⟨w, hw, rfl⟩ := List.mem_map.mp hy
        exact ha v hv w hw
      · intro v hv
        rcases List.mem_append.mp hv with hv | hv
        · exact h2 v hv
        · exact h4 v hv

theorem items_spaceFree {c : Constraint} (h : c.SpaceFree) : ∀ it ∈ c.items, it.SpaceFree := by
  have hp : ∀ (q : ℚ) (vs : List PVar), vs ∈ c.sets → ∀ v ∈ vs, ∀ it ∈ pairItems q vs v, it.SpaceFree := by
    intro q vs hvs v hv it hit
    obtain ⟨w, hw, _, rfl⟩ := pairItems_mem hit
    exact ⟨h vs hvs v hv, h vs hvs w hw⟩
  cases c with
  | nHot l s vs n =>
    intro it hit
    obtain ⟨v, hv, hit⟩ := List.mem_flatMap.mp hit
    rcases List.mem_cons.mp hit with rfl | hit
    · exact h vs (by simp [Constraint.sets]) v hv
    · exact hp _ vs (by simp [Constraint.sets]) v hv it hit
  | zeroOrOneHot l s vs =>
    intro it hit
    obtain ⟨v, hv, hit⟩ := List.mem_flatMap.mp hit
    exact hp _ vs (by simp [Constraint.sets]) v hv it hit
  | equality l s v1 v2 =>
    intro it hit
    simp only [Constraint.items, List.mem_append] at hit
    rcases hit with ((hit | hit) | hit) | hit
    · obtain ⟨v, hv, rfl⟩ := List.mem_map.mp hit
      rcases mem_sunion.mp hv with hv | hv
      · exact h v1 (by simp [Constraint.sets]) v hv
      · exact h v2 (by simp [Constraint.sets]) v hv
    · obtain ⟨v, hv, hit⟩ := List.mem_flatMap.mp hit
      exact hp _ v1 (by simp [Constraint.sets]) v hv it hit
    · obtain ⟨v, hv, hit⟩ := List.mem_flatMap.mp hit
      exact hp _ v2 (by simp [Constraint.sets]) v hv it hit
    · obtain ⟨v, hv, hit⟩ := List.mem_flatMap.mp hit
      obtain ⟨w, hw, rfl⟩ := List.mem_map.mp hit
      exact ⟨h v1 (by simp [Constraint.sets]) v hv, h v2 (by simp [Constraint.sets]) w hw⟩

/-- The model of a constraint can be converted to Ising. -/
theorem isingModel_succeeds (env : Env) (clk : Nat → ℚ) (now : ℚ) (id : String) {c : Constraint} (hg : c.Good)
    (hs : c.SpaceFree) :
    ∃ b, (toIsing env clk).run (plain .qubo id (c.items.map (Item.row now c.label))) = .ok ⟨⟩ b := by
  rw [toIsing_run, if_neg (by simp [plain, LModel.new])]
  have hitem : ∀ b, ∀ h ∈ activeBody b (plain .qubo id (c.items.map (Item.row now c.label))).rows, ∀ q : ℚ,
      h.name ≠ "" ∧ (h.coef.mul (.num q)).isNum = true := by
    intro b h hh q
    obtain ⟨it, _, rfl⟩ := List.mem_map.mp (List.mem_filter.mp hh).1
    refine ⟨Item.name_ne _ it, ?_⟩
    cases it <;> rfl
  refine genConv_succeeds (plain_rect _ _ _) (plain_names _ _ hg) (fun n a ha => by cases ha)
    (fun h hh => hitem 1 h hh _) (fun h hh => hitem 2 h hh _) ?_
  exact item_converted_names hg.1 hg.2 (items_spaceFree hs)

/-- The constraint loop succeeds. -/
theorem constraintLoop_succeeds {cs : List ((String × Constraint) × Nat)} (hg : ∀ p ∈ cs, p.1.2.Good) {a : LModel}
    (ha : a.Rect) (hs : a.mtype = .ising → ∀ p ∈ cs, p.1.2.SpaceFree) :
    ∃ a₁, (cs.forM (mergeConstraint env clks ids)).run a = .ok ⟨⟩ a₁ := by
  induction cs generalizing a with
  | nil => exact ⟨a, rfl⟩
  | cons p cs ih =>
    have hcm := (Constraint.toModel_run (clks p.2 0) (ids p.2) p.1.2).1 (hg p (by simp))
    have hb := toModel_bare hcm
    have hstep : ∃ t, (mergeConstraint env clks ids p).run a = .ok ⟨⟩ t ∧ t.mtype = a.mtype := by
      rw [mergeConstraint_run, hcm]
      simp only
      rw [merge_run]
      cases ht : a.mtype with
      | qubo =>
        obtain ⟨cols, hcols⟩ := mergedCols_ok ha
          (plain_rect .qubo (ids p.2) (p.1.2.items.map (Item.row (clks p.2 0) p.1.2.label)))
        rw [if_pos (by rfl), mergeSame_bare_run hb, hcols]
        exact ⟨_, rfl, ht⟩
      | ising =>
        obtain ⟨b, hconv⟩ := isingModel_succeeds env (clks p.2) (clks p.2 0) (ids p.2) (hg p (by simp))
          (hs ht p (by simp))
        have hbb := convertMtype_bare hb env (clks p.2)
        have hbr := toIsing_rect env (clks p.2) _
          (plain_rect .qubo (ids p.2) (p.1.2.items.map (Item.row (clks p.2 0) p.1.2.label)))
        rw [convertMtype_run] at hbb
        simp only [plain, LModel.new] at hbb hconv hbr
        rw [hconv] at hbb hbr
        obtain ⟨cols, hcols⟩ := mergedCols_ok (b := b) ha hbr
        rw [if_neg (by simp [plain, LModel.new]), convertMtype_run]
        simp only [plain, LModel.new]
        rw [hconv]
        simp only
        rw [mergeSame_bare_run (b := b) hbb, hcols]
        exact ⟨_, rfl, ht⟩
    obtain ⟨t, ht, htq⟩ := hstep
    have htr := mergeConstraint_rect env clks ids p a ha
    rw [ht] at htr
    rw [Py.run_forM_cons, ht]
    exact ih (fun p' hp' => hg p' (by simp [hp'])) htr fun hi p' hp' => hs (htq ▸ hi) p' (by simp [hp'])

/-- The models of constraints have no placeholders. -/
theorem constraintModel_numeric {clk : Nat → ℚ} {id : String} {c : Constraint} {mt : MType} {b : LModel}
    (h : ConstraintModel env clk id c mt b) :
    (∀ r ∈ b.rows, r.coef.placeholders = [] ∧ r.scale.placeholders = []) ∧ b.offset.placeholders = [] := by
  cases mt with
  | qubo => exact quboModel_numeric h
  | ising =>
    obtain ⟨h1, h2⟩ := h.contents
    have hnum : ∀ {x : Coef}, x.isNum = true → x.placeholders = [] := by
      intro x hx
      obtain ⟨q, rfl⟩ := Coef.isNum_iff.mp hx
      rfl
    have hcores : ∀ r ∈ c.cores .ising, r.coef.isNum = true ∧ r.scale.isNum = true := by
      intro r hr
      rcases List.mem_append.mp hr with hr | hr
      · obtain ⟨it, _, rfl⟩ := List.mem_map.mp hr
        cases it with
        | lin v q => exact ⟨rfl, rfl⟩
        | pair v w q =>
          by_cases hlt : v.label < w.label
          · simp [Item.row, Row.core, convRow, withCoef, hlt, Coef.mul, Coef.isNum]
          · simp [Item.row, Row.core, convRow, withCoef, hlt, Coef.mul, Coef.isNum]
      · obtain ⟨q, hq, rfl⟩ := List.mem_map.mp hr
        refine ⟨?_, rfl⟩
        obtain ⟨r', hr', hq⟩ := List.mem_flatMap.mp hq
        obtain ⟨it, _, rfl⟩ := List.mem_map.mp hr'
        cases it with
        | lin v x => simp [Item.row, Row.core] at hq
        | pair v w x =>
          by_cases hlt : v.label < w.label
          · simp only [Item.row, Row.core, hlt, Bool.false_eq_true, if_false, if_true, List.mem_cons, List.not_mem_nil,
              or_false] at hq
            rcases hq with rfl | rfl <;> rfl
          · simp only [Item.row, Row.core, hlt, Bool.false_eq_true, if_false, List.mem_cons, List.not_mem_nil,
              or_false] at hq
            rcases hq with rfl | rfl <;> rfl
    refine ⟨fun r hr => ?_, ?_⟩
    · have : r.core ∈ c.cores .ising := by rw [← h1]; exact List.mem_map_of_mem hr
      obtain ⟨h3, h4⟩ := hcores _ this
      exact ⟨hnum h3, hnum h4⟩
    · rw [h2]
      exact hnum (shift_isNum c)

/-- `to_physical` succeeds only if the placeholders are there. -/
theorem filled_of_ok (hm : m.Rect) (h : (toPhysical env clks ids ph).run m = .ok p m') : m.Filled ph := by
  obtain ⟨bs, m₁, g, off, m₂, h⟩ := toPhysical_ok h
  constructor
  · intro r hr hrm
    have hg := h.group
    rw [group_ok (g := g) (h.rect hm).len] at hg
    have hall := (groupFold_total ph m₁.rows ⟨[], [], []⟩).mp ⟨g, hg⟩
    have hmem : r.anon ∈ m₁.rows.map Row.anon := by
      rw [h.absorbed.rows]
      exact List.mem_map_of_mem (List.mem_append.mpr (.inl hr))
    obtain ⟨r', hr', he⟩ := List.mem_map.mp hmem
    have e1 : r'.coef = r.coef := by rw [show r'.coef = r'.anon.coef from rfl, he]; rfl
    have e2 : r'.scale = r.scale := by rw [show r'.scale = r'.anon.scale from rfl, he]; rfl
    have e3 : r'.removed = r.removed := by rw [show r'.removed = r'.anon.removed from rfl, he]; rfl
    have := hall r' hr' (by rw [e3]; exact hrm)
    rw [e1, e2, resolve_row] at this
    exact this
  · intro n hn
    apply (Coef.resolve_ok_iff (c := m₁.offset) (ph := ph)).mp ⟨_, h.offset⟩
    rw [h.absorbed.offset, placeholders_foldl]
    exact .inl hn

/-- All constraints have models if `to_physical` succeeds. -/
theorem good_of_ok (h : (toPhysical env clks ids ph).run m = .ok p m') : ∀ c ∈ m.constraints, c.2.Good := by
  obtain ⟨bs, m₁, g, off, m₂, h⟩ := toPhysical_ok h
  intro c hc
  obtain ⟨i, hi, rfl⟩ := List.getElem_of_mem hc
  have hl := h.models.length_eq
  have := h.models.get (i := i) (by simpa using hi) (by simp at hl; omega)
  have hx := this.1
  simp only [List.get_eq_getElem, List.getElem_zipIdx] at hx
  generalize bs[i]'_ = b at hx
  generalize m.mtype = t at hx
  cases hx with
  | qubo hx => exact (Constraint.toModel_ok hx).1
  | ising hx _ => exact (Constraint.toModel_ok hx).1

/-- Success of the conversion: when the placeholders are given and the constraints have models (of the type of the
model). -/
theorem succeeds_of_good (hm : m.Rect) (hu : m.names.Nodup) (hc : m.NoClash) (hg : ∀ c ∈ m.constraints, c.2.Good)
    (hs : m.mtype = .ising → ∀ c ∈ m.constraints, c.2.SpaceFree) (hf : m.Filled ph) :
    ∃ p, (toPhysical env clks ids ph).run m = .ok p m.cleaned := by
  obtain ⟨m₁, hloop⟩ := constraintLoop_succeeds (env := env) (clks := clks) (ids := ids) (cs := m.constraints.zipIdx) (by
    rintro ⟨c, i⟩ hp
    exact hg c (List.fst_mem_of_mem_zipIdx hp)) hm (by
    rintro hi ⟨c, i⟩ hp
    exact hs hi c (List.fst_mem_of_mem_zipIdx hp))
  obtain ⟨bs, hbs, habs⟩ := constraintLoop_absorbed _ hloop
  have hget : ∀ b ∈ bs, ∃ clk id c, ConstraintModel env clk id c m.mtype b := by
    intro b hb
    obtain ⟨i, hi, rfl⟩ := List.getElem_of_mem hb
    have := hbs.get (i := i) (by have := hbs.length_eq; omega) hi
    exact ⟨_, _, _, this.1⟩
  refine succeeds_of_loop hm hu hloop habs ?_ ?_ ?_ hf
  · intro b hb
    obtain ⟨_, _, _, h⟩ := hget b hb
    exact h.active
  · intro r hr hrm b hb hmem
    obtain ⟨_, _, _, h⟩ := hget b hb
    exact hc r hr hrm (h.names _ hmem)
  · intro b hb
    obtain ⟨_, _, _, h⟩ := hget b hb
    exact constraintModel_numeric h

/-! ## C20, C21: success -/

/-- Conversion of a QUBO model succeeds exactly if the sets of each equality constraint are disjoint and all
placeholders of the active interactions and the offset are given. -/
theorem C20_success_iff (hm : m.Rect) (hu : m.names.Nodup) (hc : m.NoClash) (hq : m.mtype = .qubo)
    (hr : ∀ c ∈ m.constraints, c.2.Regular) :
    (∃ p m', (toPhysical env clks ids ph).run m = .ok p m') ↔ (∀ c ∈ m.constraints, c.2.Apart) ∧ m.Filled ph := by
  constructor
  · rintro ⟨p, m', h⟩
    exact ⟨fun c hcm => (good_iff (hr c hcm)).mp (good_of_ok h c hcm), filled_of_ok hm h⟩
  · rintro ⟨ha, hf⟩
    obtain ⟨p, h⟩ := succeeds_of_good (env := env) (clks := clks) (ids := ids) hm hu hc
      (fun c hcm => (good_iff (hr c hcm)).mpr (ha c hcm)) (fun hi => by rw [hq] at hi; cases hi) hf
    exact ⟨p, _, h⟩

/-- The same for Ising models, if no label of a constraint has a space: then the generated names are distinct, whatever
the clock shows and however it is printed. -/
theorem C21_success_iff (hm : m.Rect) (hu : m.names.Nodup) (hc : m.NoClash) (hr : ∀ c ∈ m.constraints, c.2.Regular)
    (hs : ∀ c ∈ m.constraints, c.2.SpaceFree) :
    (∃ p m', (toPhysical env clks ids ph).run m = .ok p m') ↔ (∀ c ∈ m.constraints, c.2.Apart) ∧ m.Filled ph := by
  constructor
  · rintro ⟨p, m', h⟩
    exact ⟨fun c hcm => (good_iff (hr c hcm)).mp (good_of_ok h c hcm), filled_of_ok hm h⟩
  · rintro ⟨ha, hf⟩
    obtain ⟨p, h⟩ := succeeds_of_good (env := env) (clks := clks) (ids := ids) hm hu hc
      (fun c hcm => (good_iff (hr c hcm)).mpr (ha c hcm)) (fun _ => hs) hf
    exact ⟨p, _, h⟩

/-! ## C22: the second call -/

/-- After a success the second call succeeds as well, with the same result, also for Ising models. -/
theorem C22_again_succeeds_partial (hm : m.Rect) (hu : m.names.Nodup) (hc : m.NoClash)
    (hs : m.mtype = .ising → ∀ c ∈ m.constraints, c.2.SpaceFree)
    (h : (toPhysical env clks ids ph).run m = .ok p m') {env' : Env} {clks' : Nat → Nat → ℚ} {ids' : Nat → String} :
    (toPhysical env' clks' ids' ph).run m' = .ok p m' := by
  have hm' := C22_only_prunes_partial hm hu hc h
  subst hm'
  have hu' : m.cleaned.names.Nodup := by
    simp only [LModel.names, LModel.cleaned, List.map_map]
    exact (List.filter_sublist.map _).nodup hu
  have hc' : m.cleaned.NoClash := by
    intro r hr hrm
    rw [cleaned_active m r hr] at hrm
    cases hrm
  have hf := filled_of_ok hm h
  have hf' : m.cleaned.Filled ph := by
    refine ⟨fun r hr _ => ?_, hf.2⟩
    obtain ⟨r', hr', rfl⟩ := List.mem_map.mp hr
    obtain ⟨h1, h2⟩ := List.mem_filter.mp hr'
    exact hf.1 r' h1 (by simpa using h2)
  obtain ⟨p', hp'⟩ := succeeds_of_good (env := env') (clks := clks') (ids := ids') (cleaned_rect hm) hu' hc'
    (fun c hc => good_of_ok h c hc) hs hf'
  rw [cleaned_cleaned hm] at hp'
  obtain ⟨rfl, _⟩ := C22_again_partial hm hu hc h hp'
  exact hp'

/-! ## C27: the order of the interactions and success -/

/-- The order of the interactions does not matter for success, with constraints as well. -/
theorem C27_success_constraints_partial {n : LModel} {env' : Env} {clks' : Nat → Nat → ℚ} {ids' : Nat → String}
    (hm : m.Rect) (hn : n.Rect) (hu : m.names.Nodup) (hc : m.NoClash) (hperm : m.rows.Perm n.rows)
    (hcons : m.constraints = n.constraints) (hoff : m.offset = n.offset) (ht : m.mtype = n.mtype)
    (hs : m.mtype = .ising → ∀ c ∈ m.constraints, c.2.SpaceFree) :
    (∃ p m', (toPhysical env clks ids ph).run m = .ok p m') ↔ ∃ q n', (toPhysical env' clks' ids' ph).run n = .ok q n' := by
  have hu' : n.names.Nodup := (hperm.map _).nodup_iff.mp hu
  have hc' : n.NoClash := fun r hr => hc r (hperm.mem_iff.mpr hr)
  have hff : m.Filled ph ↔ n.Filled ph := by simp only [LModel.Filled, hperm.mem_iff, hoff]
  constructor
  · rintro ⟨p, m', h⟩
    obtain ⟨q, hq⟩ := succeeds_of_good (env := env') (clks := clks') (ids := ids') hn hu' hc'
      (by rw [← hcons]; exact good_of_ok h) (by rw [← hcons, ← ht]; exact hs) (hff.mp (filled_of_ok hm h))
    exact ⟨q, _, hq⟩
  · rintro ⟨p, m', h⟩
    obtain ⟨q, hq⟩ := succeeds_of_good (env := env) (clks := clks) (ids := ids) hm hu hc
      (by rw [hcons]; exact good_of_ok h) hs (hff.mpr (filled_of_ok hn h))
    exact ⟨q, _, hq⟩

/-! ## C21: the constant -/

theorem foldl_add_eval (F : Coef → Coef) (rs : List Row) (o : Coef) (ρ : PEnv) :
    (rs.foldl (fun a h => a.add (F h.coef)) o).eval ρ = o.eval ρ + (rs.map fun r => (F r.coef).eval ρ).sum := by
  induction rs generalizing o with
  | nil => simp
  | cons r rs ih => rw [List.foldl_cons, ih, Coef.eval_add, List.map_cons, List.sum_cons]; ring

/-- The offset that the conversion adds: the items where every bit is one half. -/
theorem shift_half (c : Constraint) (ρ : PEnv) :
    (c.shift .ising).eval ρ = (c.items.map (Item.term fun _ => 1/2)).sum := by
  simp only [Constraint.shift]
  rw [foldl_add_eval (·.mul (.num (1/4))), foldl_add_eval (·.mul (.num (1/2))), Coef.eval_num, zero_add]
  induction c.items with
  | nil => simp [activeBody]
  | cons it its ih =>
    cases it with
    | lin v q =>
      have h1 : ((Item.lin v q).row 0 "").core.inter.body = 1 := rfl
      have h2 : ((Item.lin v q).row 0 "").core.removed = false := rfl
      simp only [activeBody, List.map_cons, List.filter_cons, h1, h2, List.sum_cons] at ih ⊢
      simp only [beq_self_eq_true, Bool.not_false, Bool.and_true, if_true, List.map_cons, List.sum_cons,
        show ((1 : Nat) == 2) = false from rfl, Bool.false_eq_true, if_false]
      rw [← ih]
      simp only [Item.row, Row.core, Item.term, Coef.eval_mul, Coef.eval_num]
      ring
    | pair v w q =>
      have h1 : ((Item.pair v w q).row 0 "").core.inter.body = 2 := by
        by_cases hlt : v.label < w.label <;> simp [Item.row, Row.core, hlt, Inter.body]
      have h2 : ((Item.pair v w q).row 0 "").core.removed = false := rfl
      simp only [activeBody, List.map_cons, List.filter_cons, h1, h2, List.sum_cons] at ih ⊢
      simp only [beq_self_eq_true, Bool.not_false, Bool.and_true, if_true, List.map_cons, List.sum_cons,
        show ((2 : Nat) == 1) = false from rfl, Bool.false_eq_true, if_false]
      rw [← ih]
      simp only [Item.row, Row.core, Item.term, Coef.eval_mul, Coef.eval_num]
      ring

theorem total_half (vs : List PVar) : total (fun _ => 1/2) vs = vs.length / 2 := by
  unfold total
  induction vs with
  | nil => simp
  | cons v vs ih => rw [List.map_cons, List.sum_cons, ih, List.length_cons]; push_cast; ring

theorem pairSum_half {vs : List PVar} (hn : (vs.map (·.label)).Nodup) :
    2 * pairSum (fun _ => 1/2) vs = vs.length * vs.length / 4 - vs.length / 4 := by
  have h := pairs_square (fun _ => 1/2) vs hn
  have h2 : ∀ l : List PVar, (l.map fun _ => (1/2 : ℚ) * (1/2)).sum = l.length / 4 := by
    intro l
    induction l with
    | nil => simp
    | cons v vs ih => rw [List.map_cons, List.sum_cons, ih, List.length_cons]; push_cast; ring
  rw [total_half, h2] at h
  unfold pairSum
  linarith

theorem shift_drift {c : Constraint} (hd : c.Distinct) (hg : c.Good) (ρ : PEnv) :
    2 * (c.shift .ising).eval ρ = c.drift := by
  rw [shift_half]
  cases c with
  | nHot l s vs n =>
    have hp := pairSum_half hd
    rw [nHot_terms, total_half, Constraint.drift]
    linear_combination (-2 * s) * hp
  | zeroOrOneHot l s vs =>
    have hp := pairSum_half hd
    simp only [Constraint.items, Constraint.drift]
    rw [sum_pairs]
    linear_combination (-2 * s) * hp
  | equality l s v1 v2 =>
    have ha : ∀ v ∈ v1, ∀ w ∈ v2, v.label ≠ w.label := fun v hv w hw =>
      hg.2 (.pair v w (2 * s)) (List.mem_append.mpr (.inr
        (List.mem_flatMap.mpr ⟨v, hv, List.mem_map.mpr ⟨w, hw, rfl⟩⟩)))
    have hp1 := pairSum_half hd.1
    have hp2 := pairSum_half hd.2
    rw [equality_terms (by
      rw [List.map_append, List.nodup_append]
      refine ⟨hd.1, hd.2, ?_⟩
      rintro x hx y hy
      obtain ⟨v, hv, rfl⟩ := List.mem_map.mp hx
      obtain ⟨w, hw, rfl⟩ := List.mem_map.mp hy
      exact ha v hv w hw), total_half, total_half, Constraint.drift]
    linear_combination (-2 * s) * hp1 + (-2 * s) * hp2

/-- For Ising models: the logical energy plus, for each constraint, the penalty at `x = (s + 1) / 2` plus a constant
which is minus twice the average penalty. (It ought to be zero: `C21_exact_refuted`.) -/
theorem C21_drift_partial (hm : m.Rect) (hq : m.mtype = .ising) (hd : ∀ c ∈ m.constraints, c.2.Distinct)
    (h : (toPhysical env clks ids ph).run m = .ok p m') {ρ : PEnv} (hρ : ρ.Extends ph) {s : Assign} (hs : s.IsSpin) :
    p.energy s = m.energy ρ s + (m.constraints.map fun c => c.2.penalty s.toBinary + c.2.drift).sum := by
  have hg := good_of_ok h
  obtain ⟨bs, m₁, g, off, m₂, h⟩ := toPhysical_ok h
  rw [h.energy hm hρ]
  congr 1
  apply forall₂_zipIdx_sum h.models
  rintro ⟨c, i⟩ b ⟨hcm, _⟩ hc
  rw [hq] at hcm
  rw [isingModel_penalty hcm (hd c hc) ρ hs, shift_drift (hd c hc) (hg c hc)]

/-! ## Examples -/

/-- An Ising model with two constraints; the second one is an equality. -/
def isingTwo (v w : PVar) : LModel := Ex.after (LModel.new .ising "101") do
  let _ ← createVars "x" [2]
  addInteraction 1 (.var Ex.x0) (.str "") (.num 3) (.num 1) .none .none
  addConstraint (.nHot "c" 2 [Ex.x0, Ex.x1] 1)
  addConstraint (.equality "d" 1 [v] [w])

theorem isingTwo_meets (v w : PVar) (hv : v = Ex.x0 ∨ v = Ex.x1) (hw : w = Ex.x0 ∨ w = Ex.x1) :
    (isingTwo v w).Rect ∧ (isingTwo v w).names.Nodup ∧ (isingTwo v w).NoClash ∧ (isingTwo v w).mtype = .ising ∧
    (∀ c ∈ (isingTwo v w).constraints, c.2.Regular ∧ c.2.SpaceFree ∧ c.2.Distinct) ∧ (isingTwo v w).Filled [] := by
  have hc : (isingTwo v w).constraints = [("c", .nHot "c" 2 [Ex.x0, Ex.x1] 1), ("d", .equality "d" 1 [v] [w])] := by
    rcases hv with rfl | rfl <;> rcases hw with rfl | rfl <;> decide
  have h1 : (isingTwo v w).rows = [⟨"x[0]", .lin Ex.x0, .num 3, .num 1, some 1, true, false⟩] := by
    rcases hv with rfl | rfl <;> rcases hw with rfl | rfl <;> decide
  refine ⟨?_, ?_, ?_, ?_, ?_, ?_⟩
  · rcases hv with rfl | rfl <;> rcases hw with rfl | rfl <;> exact ⟨by decide, by decide, by decide, by decide⟩
  · unfold LModel.names; rw [h1]; decide
  · intro r hr; rw [h1] at hr; revert r; decide
  · rcases hv with rfl | rfl <;> rcases hw with rfl | rfl <;> decide
  · intro c hcm
    rw [hc] at hcm
    simp only [List.mem_cons, List.not_mem_nil, or_false] at hcm
    rcases hcm with rfl | rfl
    · unfold Constraint.Regular Constraint.SpaceFree Constraint.Distinct Constraint.sets; decide
    · unfold Constraint.Regular Constraint.SpaceFree Constraint.Distinct Constraint.sets
      rcases hv with rfl | rfl <;> rcases hw with rfl | rfl <;> decide
  · refine ⟨fun r hr => ?_, ?_⟩
    · rw [h1] at hr; revert r; decide
    · rcases hv with rfl | rfl <;> rcases hw with rfl | rfl <;> decide

/-- The conversion succeeds for disjoint sets and fails for sets with a common variable. -/
example : (∃ p m', (toPhysical env clks ids []).run (isingTwo Ex.x0 Ex.x1) = .ok p m') ∧
    ¬ ∃ p m', (toPhysical env clks ids []).run (isingTwo Ex.x1 Ex.x1) = .ok p m' := by
  obtain ⟨a1, a2, a3, a4, a5, a6⟩ := isingTwo_meets Ex.x0 Ex.x1 (.inl rfl) (.inr rfl)
  obtain ⟨b1, b2, b3, b4, b5, b6⟩ := isingTwo_meets Ex.x1 Ex.x1 (.inr rfl) (.inr rfl)
  rw [C21_success_iff a1 a2 a3 (fun c hc => (a5 c hc).1) (fun c hc => (a5 c hc).2.1),
    C21_success_iff b1 b2 b3 (fun c hc => (b5 c hc).1) (fun c hc => (b5 c hc).2.1)]
  refine ⟨⟨fun c hc => ?_, a6⟩, fun h => ?_⟩
  · rw [show (isingTwo Ex.x0 Ex.x1).constraints = [("c", .nHot "c" 2 [Ex.x0, Ex.x1] 1), ("d", .equality "d" 1 [Ex.x0] [Ex.x1])]
      by decide] at hc
    simp only [List.mem_cons, List.not_mem_nil, or_false] at hc
    rcases hc with rfl | rfl
    · trivial
    · unfold Constraint.Apart; decide
  · exact h.1 ("d", .equality "d" 1 [Ex.x1] [Ex.x1]) (by decide) Ex.x1 (by simp) Ex.x1 (by simp) rfl

/-- The constant for this model: `-2` times the average of the two penalties, `2 * (0 - 1/2)` and `1/2`. -/
example : ((isingTwo Ex.x0 Ex.x1).constraints.map fun c => c.2.drift).sum = 1 := by decide +kernel

/-- The conversion of the QUBO model succeeds, and the second one as well. -/
example : quboOneHot.Rect ∧ quboOneHot.names.Nodup ∧ quboOneHot.NoClash ∧ quboOneHot.mtype = .qubo ∧
    (∀ c ∈ quboOneHot.constraints, c.2.Regular) ∧ (∀ c ∈ quboOneHot.constraints, c.2.Apart) ∧ quboOneHot.Filled [] := by
  have hc : quboOneHot.constraints = [("c", .nHot "c" 1 [Ex.b0, Ex.b1] 1)] := by decide
  refine ⟨⟨by decide, by decide, by decide, by decide⟩, by decide, ?_, by decide, fun c hcm => ?_, fun c hcm => ?_, ?_, ?_⟩
  · unfold LModel.NoClash; decide
  · rw [hc] at hcm; simp only [List.mem_singleton] at hcm; subst hcm
    unfold Constraint.Regular Constraint.sets; decide
  · rw [hc] at hcm; simp only [List.mem_singleton] at hcm; subst hcm
    trivial
  · decide
  · decide

end Sawatabi.Props
