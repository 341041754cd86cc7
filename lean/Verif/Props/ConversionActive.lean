import Verif.Props.Conversion

/-!
# Conversions read the active interactions only (C35, C36)

A conversion that succeeds does the same to a model without its removed interactions. So the theorems on C35 and C36 need distinct
names for the active interactions only.
-/

namespace Sawatabi

/-- The model with its active interactions only, and without attributes. -/
def LModel.thin (m : LModel) : LModel :=
  { m with rows := m.rows.filter (fun r => !r.removed), attrCols := [], attrs := []
           length := (m.rows.filter fun r => !r.removed).length }

/-- What succeeds does the same without the removed interactions. -/
def Thins {α : Type} (x : Py LModel α) : Prop := ∀ m a m', x.run m = .ok a m' → x.run m.thin = .ok a m'.thin

theorem Thins.bind {α β : Type} {x : Py LModel α} {f : α → Py LModel β} (hx : Thins x) (hf : ∀ a, Thins (f a)) :
    Thins (x >>= f) := by
  intro m b m' h
  rw [Py.run_bind] at h ⊢
  cases hr : x.run m with
  | error e t => rw [hr] at h; cases h
  | ok a t =>
    rw [hr] at h
    rw [hx _ _ _ hr]
    exact hf a _ _ _ h

theorem Thins.forM {α : Type} {f : α → Py LModel Unit} (l : List α) (hf : ∀ a ∈ l, Thins (f a)) : Thins (l.forM f) := by
  induction l with
  | nil =>
    intro m a m' h
    rw [Py.run_forM_nil] at h ⊢
    cases h
    rfl
  | cons a l ih =>
    intro m u m' h
    rw [Py.run_forM_cons] at h ⊢
    cases hr : (f a).run m with
    | error e t => rw [hr] at h; cases h
    | ok b t =>
      rw [hr] at h
      rw [hf a (by simp) _ _ _ hr]
      exact ih (fun a ha => hf a (by simp [ha])) _ _ _ h

theorem Thins.modify {f : LModel → LModel} (h : ∀ m, f m.thin = (f m).thin) : Thins (modify f) := by
  intro m a m' hr
  rw [Py.run_modify] at hr ⊢
  cases hr
  rw [h]

theorem retypeVar_thins (n : String) : Thins (retypeVar n) := by
  intro m a m' h
  unfold retypeVar at h ⊢
  simp only [Py.run_bind, Py.run_get] at h ⊢
  change (match dget m.vars n with | none => _ | some a => _ : Py LModel Unit).run m = _ at h
  change (match dget m.vars n with | none => _ | some a => _ : Py LModel Unit).run m.thin = _
  cases hd : dget m.vars n with
  | none => rw [hd] at h; cases h
  | some b =>
    rw [hd] at h
    simp only [Py.run_bind] at h ⊢
    cases ha : arrayCreate n (b.shape.map Int.ofNat) m.mtype.vtype with
    | error e => rw [ha] at h; cases h
    | ok c =>
      rw [ha] at h
      change Res.ok _ _ = _ at h
      cases h
      have ha' : arrayCreate n (b.shape.map Int.ofNat) m.thin.mtype.vtype = .ok c := ha
      rw [ha']
      rfl

theorem makeFrame_thin (m : LModel) : makeFrame.run m.thin = .ok () m.thin := by
  unfold makeFrame
  simp only [Py.run_bind, Py.run_get]
  rw [if_neg (by simp [LModel.thin])]
  rfl

theorem makeFrame_ok {m m' : LModel} {a : Unit} (h : makeFrame.run m = .ok a m') : m' = m := by
  unfold makeFrame at h
  simp only [Py.run_bind, Py.run_get] at h
  split at h <;> cases h
  rfl

theorem makeFrame_thins : Thins makeFrame := by
  intro m a m' h
  rw [makeFrame_ok h, makeFrame_thin]

theorem selectBody_thins (b : Nat) : Thins (selectBody b) := by
  intro m l m' h
  unfold selectBody at h ⊢
  rw [Py.run_bind] at h ⊢
  cases hf : makeFrame.run m with
  | error e t => rw [hf] at h; cases h
  | ok a t =>
    obtain rfl := makeFrame_ok hf
    rw [hf] at h
    rw [makeFrame_thin]
    simp only [Py.run_bind, Py.run_get, Py.run_pure] at h ⊢
    cases h
    congr 1
    simp only [LModel.thin, List.filter_filter]
    apply List.filter_congr
    intro r _
    cases r.removed <;> simp

theorem updateVariablesType_thins : Thins updateVariablesType := by
  intro m a m' h
  unfold updateVariablesType at h ⊢
  rw [Py.run_bind, Py.run_get] at h ⊢
  refine Thins.bind (x := (dkeys m.vars).forM retypeVar) (.forM _ fun n _ => retypeVar_thins n) (fun _ => .bind makeFrame_thins
    fun _ => .modify fun m => ?_) m a m' h
  have e : (m.rows.filter fun r => !r.removed).map (fun r =>
        if r.removed then r else { r with inter := r.inter.retype m.mtype.vtype }) =
      (m.rows.map fun r => if r.removed then r else { r with inter := r.inter.retype m.mtype.vtype }).filter fun r => !r.removed := by
    rw [List.filter_map]
    congr 1
    apply List.filter_congr
    intro r _
    simp only [Function.comp]
    cases hr : r.removed <;> simp [hr]
  unfold LModel.thin
  simp only [e]
  congr 1
  rw [← e, List.length_map]

/-- Updating by any name. -/
theorem updateCoef_any (env : Env) (n : String) (c : Coef) (m : LModel) : (updateCoef env n c).run m =
    if n = "" then .error .valueError m else
    match c with
    | .expr _ => .error .typeError m
    | .num q => match m.rows.findIdx? (·.name = n) with
      | none => .error .keyError m
      | some i => match m.rows[i]? with
        | none => .error .indexError m
        | some r => if r.removed then .error .valueError m else .ok ⟨⟩ { m with rows := m.rows.modify i (setCoef env q) } := by
  unfold updateCoef
  rw [updateInteraction_run]
  by_cases hne : n = ""
  · rw [if_pos hne]
    have : updateChecks env.importTime m .none (.str n) (some c.toPy) none .none none = .error .valueError := by
      simp [updateChecks, hne, PyName.truthy, PyTarget.truthy]
    rw [this]
  rw [if_neg hne]
  have ht : (PyName.str n).truthy = true := by simp [PyName.truthy, hne]
  cases c with
  | expr e =>
    have : updateChecks env.importTime m .none (.str n) (some (Coef.expr e).toPy) none .none none = .error .typeError := by
      simp [updateChecks, ht, checkNum?_toPy, PyTarget.truthy]
    rw [this]
  | num q =>
    simp only
    cases hf : m.rows.findIdx? (·.name = n) with
    | none =>
      have hh : m.hasName n = false := by
        rw [Bool.eq_false_iff]
        intro h
        obtain ⟨i, hi⟩ := indexOf_of_hasName h
        unfold LModel.indexOf at hi
        rw [hf] at hi
        cases hi
      have : updateChecks env.importTime m .none (.str n) (some (Coef.num q).toPy) none .none none = .error .keyError := by
        simp [updateChecks, ht, Coef.toPy, PyTarget.truthy, optInfo, updateName, hh, checkNum?]
      rw [this]
    | some i =>
      have hi : m.indexOf n = .ok i := by unfold LModel.indexOf; rw [hf]
      obtain ⟨hlt, hnm⟩ := indexOf_ok hi
      have hh : m.hasName n = true := (hasName_iff _ _).mpr (List.mem_map.mpr ⟨_, List.getElem_mem hlt, hnm⟩)
      simp only [List.getElem?_eq_getElem hlt]
      by_cases hrm : m.rows[i].removed = true
      · rw [if_pos hrm]
        have : updateChecks env.importTime m .none (.str n) (some (Coef.num q).toPy) none .none none = .error .valueError := by
          simp [updateChecks, ht, Coef.toPy, PyTarget.truthy, optInfo, updateName, hh, isRemoved_of hi hlt, hrm, checkNum?]
        rw [this]
      · rw [if_neg hrm]
        have : updateChecks env.importTime m .none (.str n) (some (Coef.num q).toPy) none .none none =
            .ok (.write i (some q) none [] (some env.importTime)) := by
          simp [updateChecks, ht, Coef.toPy, PyTarget.truthy, optInfo, updateName, hh, isRemoved_of hi hlt, hrm, checkNum?, hi,
            PyAttrs.entries, PyTs.stored]
        rw [this]
        simp only
        rw [writeRow_run]
        simp only [Py.run_forM_nil, modify_modify]
        rfl

/-- Changing the first row with a name, if it is active, changes the same row among the active ones. -/
theorem filter_modify_first {n : String} {f : Row → Row} (hf : ∀ r, (f r).removed = r.removed) (rows : List Row) {i : Nat} {r : Row}
    (hi : rows.findIdx? (·.name = n) = some i) (hr : rows[i]? = some r) (ha : r.removed = false) :
    ∃ j, (rows.filter fun r => !r.removed).findIdx? (·.name = n) = some j ∧ (rows.filter fun r => !r.removed)[j]? = some r ∧
      (rows.modify i f).filter (fun r => !r.removed) = (rows.filter fun r => !r.removed).modify j f := by
  induction rows generalizing i with
  | nil => simp at hi
  | cons x rows ih =>
    rw [List.findIdx?_cons] at hi
    by_cases hx : x.name = n
    · rw [if_pos (by simpa using hx)] at hi
      cases hi
      rw [List.getElem?_cons_zero] at hr
      cases hr
      refine ⟨0, ?_, ?_, ?_⟩
      · rw [List.filter_cons_of_pos (by simp [ha]), List.findIdx?_cons, if_pos (by simpa using hx)]
      · rw [List.filter_cons_of_pos (by simp [ha]), List.getElem?_cons_zero]
      · rw [List.modify_zero_cons, List.filter_cons_of_pos (by simp [hf, ha]), List.filter_cons_of_pos (by simp [ha]),
          List.modify_zero_cons]
    · rw [if_neg (by simpa using hx)] at hi
      obtain ⟨i', hi', rfl⟩ := Option.map_eq_some_iff.mp hi
      rw [List.getElem?_cons_succ] at hr
      obtain ⟨j, h1, h2, h3⟩ := ih hi' hr
      rw [List.modify_succ_cons]
      cases hxr : x.removed with
      | true =>
        refine ⟨j, ?_⟩
        rw [List.filter_cons_of_neg (by simp [hxr]), List.filter_cons_of_neg (by simp [hxr])]
        exact ⟨h1, h2, h3⟩
      | false =>
        refine ⟨j + 1, ?_⟩
        rw [List.filter_cons_of_pos (by simp [hxr]), List.filter_cons_of_pos (by simp [hxr]), List.findIdx?_cons,
          if_neg (by simpa using hx), h1, List.getElem?_cons_succ, List.modify_succ_cons, h3]
        exact ⟨rfl, h2, rfl⟩

theorem setCoef_removed (env : Env) (q : ℚ) (r : Row) : (setCoef env q r).removed = r.removed := rfl

theorem updateCoef_thins (env : Env) (n : String) (c : Coef) : Thins (updateCoef env n c) := by
  intro m a m' h
  rw [updateCoef_any] at h ⊢
  by_cases hne : n = ""
  · rw [if_pos hne] at h; cases h
  rw [if_neg hne] at h ⊢
  cases c with
  | expr e => cases h
  | num q =>
    simp only at h ⊢
    cases hf : m.rows.findIdx? (·.name = n) with
    | none => rw [hf] at h; cases h
    | some i =>
      rw [hf] at h
      simp only at h
      cases hr : m.rows[i]? with
      | none => rw [hr] at h; cases h
      | some r =>
        rw [hr] at h
        simp only at h
        cases hrm : r.removed with
        | true => rw [hrm] at h; cases h
        | false =>
          rw [hrm] at h
          cases h
          obtain ⟨j, h1, h2, h3⟩ := filter_modify_first (setCoef_removed env q) m.rows hf hr hrm
          change (match (m.rows.filter fun r => !r.removed).findIdx? (·.name = n) with | none => _ | some i => _) = _
          rw [h1]
          change (match (m.rows.filter fun r => !r.removed)[j]? with | none => _ | some r => _) = _
          rw [h2]
          simp only [hrm, Bool.false_eq_true, if_false]
          unfold LModel.thin
          simp only [h3, List.length_modify]

theorem addLin_thins (now : ℚ) (target : PyTarget) (name : PyName) (c s : PyCoef) :
    Thins (addInteraction now target name c s .none .none) := by
  intro m a m' h
  rw [addInteraction_run] at h ⊢
  split at h
  · cases h
  rename_i p hp
  obtain ⟨row, ats⟩ := p
  obtain ⟨h1, h2, h3, h4, h5, h6, h7, h8, h9, h10, h11⟩ := addChecks_ok_iff.mp hp
  obtain ⟨cols, cats, rfl⟩ := addTail_ok h
  have : addChecks now m.thin target name c s .none .none = .ok (row, ats) := by
    refine addChecks_ok_iff.mpr ⟨h1, h2, fun hx => h3 ?_, h4, h5, h6, h7, h8, h9, h10, h11⟩
    obtain ⟨r, hr, e⟩ := List.mem_map.mp hx
    exact List.mem_map.mpr ⟨r, (List.mem_filter.mp hr).1, e⟩
  rw [this]
  subst h11
  unfold addTail
  simp only [Py.run_bind, Py.run_modify, Py.run_get, LModel.thin, PyAttrs.entries, Py.run_forM_nil]
  rw [List.filter_append, List.filter_cons_of_pos (by simp [h10]), List.filter_nil]
  simp

theorem genLin_thins (env : Env) (f o : Coef → Coef) (r : Row) : Thins (genLin env f o r) :=
  .bind (updateCoef_thins _ _ _) fun _ => .modify fun _ => rfl

theorem genQuad_thins (env : Env) (f g o : Coef → Coef) (clk : Nat → ℚ) (r : Row) : Thins (genQuad env f g o clk r) := by
  unfold genQuad
  cases r.inter with
  | lin v => intro m a m' h; cases h
  | quad v w =>
    exact .bind (updateCoef_thins _ _ _) fun _ => .bind (addLin_thins _ _ _ _ _) fun _ => .bind (addLin_thins _ _ _ _ _) fun _ =>
      .modify fun _ => rfl

theorem genConv_thins (env : Env) (mt : MType) (f o f₂ g₂ o₂ : Coef → Coef) (clk : Nat → ℚ) :
    Thins (genConv env mt f o f₂ g₂ o₂ clk) :=
  .bind (.modify fun _ => rfl) fun _ => .bind updateVariablesType_thins fun _ => .bind (selectBody_thins _) fun hs =>
    .bind (.forM _ fun _ _ => genLin_thins _ _ _ _) fun _ => .bind (selectBody_thins _) fun _ =>
    .forM _ fun _ _ => genQuad_thins _ _ _ _ _ _

theorem toIsing_thins (env : Env) (clk : Nat → ℚ) : Thins (toIsing env clk) := by
  intro m a m' h
  rw [toIsing_run] at h ⊢
  by_cases ht : m.mtype = .ising
  · rw [if_pos ht] at h
    cases h
    exact if_pos ht
  · rw [if_neg ht] at h
    exact (if_neg (c := m.thin.mtype = .ising) ht).trans (genConv_thins _ _ _ _ _ _ _ _ _ _ _ h)

theorem toQubo_thins (env : Env) (clk : Nat → ℚ) : Thins (toQubo env clk) := by
  intro m a m' h
  rw [toQubo_run] at h ⊢
  by_cases ht : m.mtype = .qubo
  · rw [if_pos ht] at h
    cases h
    exact if_pos ht
  · rw [if_neg ht] at h
    exact (if_neg (c := m.thin.mtype = .qubo) ht).trans (genConv_thins _ _ _ _ _ _ _ _ _ _ _ h)

theorem sum_thin (m : LModel) {g : Row → ℚ} (hg : ∀ r, r.removed = true → g r = 0) : (m.thin.rows.map g).sum = (m.rows.map g).sum := by
  unfold LModel.thin
  simp only
  induction m.rows with
  | nil => rfl
  | cons r l ih =>
    cases hr : r.removed with
    | true => rw [List.filter_cons_of_neg (by simp [hr]), ih, List.map_cons, List.sum_cons, hg r hr, zero_add]
    | false => rw [List.filter_cons_of_pos (by simp [hr]), List.map_cons, List.sum_cons, ih, List.map_cons, List.sum_cons]

theorem energy_thin (m : LModel) (ρ : PEnv) (σ : Assign) : m.thin.energy ρ σ = m.energy ρ σ := by
  unfold LModel.energy
  rw [sum_thin m fun r hr => by simp [Row.term, hr]]
  rfl

end Sawatabi

namespace Sawatabi.Props

variable {m m' m'' : LModel} {env env' : Env} {clk clk' : Nat → ℚ}

/-- **C36** from QUBO, if the active interactions have distinct names; removed ones may have any names. -/
theorem C36_qubo_active_partial (hu : ((m.rows.filter fun r => !r.removed).map (·.name)).Nodup) (hq : m.mtype = .qubo)
    (h : (toIsing env clk).run m = .ok ⟨⟩ m') (h' : (toQubo env clk').run m' = .ok ⟨⟩ m'') (ρ : PEnv) (σ : Assign) :
    m''.energy ρ σ = m.energy ρ σ := by
  rw [← energy_thin, ← energy_thin m]
  exact C36_qubo_roundtrip_partial (m := m.thin) hu hq (toIsing_thins _ _ _ _ _ h) (toQubo_thins _ _ _ _ _ h') ρ σ

/-- **C36** from Ising, if the active interactions have distinct names. -/
theorem C36_ising_active_partial (hu : ((m.rows.filter fun r => !r.removed).map (·.name)).Nodup) (hq : m.mtype = .ising)
    (h : (toQubo env clk).run m = .ok ⟨⟩ m') (h' : (toIsing env clk').run m' = .ok ⟨⟩ m'') (ρ : PEnv) (σ : Assign) :
    m''.energy ρ σ = m.energy ρ σ := by
  rw [← energy_thin, ← energy_thin m]
  exact C36_ising_roundtrip_partial (m := m.thin) hu hq (toQubo_thins _ _ _ _ _ h) (toIsing_thins _ _ _ _ _ h') ρ σ

/-- **C35**: the energy after `to_ising`, if the active interactions have distinct names. -/
theorem C35_toIsing_active_partial (hu : ((m.rows.filter fun r => !r.removed).map (·.name)).Nodup) (hq : m.mtype = .qubo)
    (h : (toIsing env clk).run m = .ok ⟨⟩ m') (ρ : PEnv) (x : Assign) :
    m'.energy ρ x.toSpin = m.energy ρ x + (m.rows.map (isingShift ρ x)).sum := by
  rw [← energy_thin, ← energy_thin m, ← sum_thin m fun r hr => by simp [isingShift, hr]]
  exact C35_toIsing_exact_partial (m := m.thin) hu hq (toIsing_thins _ _ _ _ _ h) ρ x

/-- **C35**: the energy after `to_qubo`, if the active interactions have distinct names. -/
theorem C35_toQubo_active_partial (hu : ((m.rows.filter fun r => !r.removed).map (·.name)).Nodup) (hq : m.mtype = .ising)
    (h : (toQubo env clk).run m = .ok ⟨⟩ m') (ρ : PEnv) (z : Assign) :
    m'.energy ρ z.toBinary = m.energy ρ z + (m.rows.map (quboShift ρ z)).sum := by
  rw [← energy_thin, ← energy_thin m, ← sum_thin m fun r hr => by simp [quboShift, hr]]
  exact C35_toQubo_exact_partial (m := m.thin) hu hq (toQubo_thins _ _ _ _ _ h) ρ z

/-- A merged model in which a removed interaction has the name of an active one, there and back. -/
example :
    let a := Ex.after (LModel.new .ising "101") (addInteraction 1 (.var Ex.x0) (.str "") (.num 1) (.num 1) .none .none)
    let b := Ex.after (LModel.new .ising "102") (do
      addInteraction 1 (.var Ex.x0) (.str "") (.num 1) (.num 1) .none .none
      addInteraction 1 (.var Ex.x1) (.str "x[0] (101)") (.num 5) (.num 1) .none .none
      removeInteraction .none (.str "x[0] (101)"))
    let m := Op.step convEnv a (.merge (fun _ => 0) b)
    ¬ m.names.Nodup ∧ ((m.rows.filter fun r => !r.removed).map (·.name)).Nodup ∧
    ∃ m', (toQubo convEnv fun _ => 0).run m = .ok ⟨⟩ m' ∧ ∃ m'', (toIsing convEnv fun _ => 0).run m' = .ok ⟨⟩ m'' ∧
      m''.energy (fun _ => 0) (fun _ => -1) = m.energy (fun _ => 0) fun _ => -1 := by
  refine ⟨by decide +kernel, by decide +kernel, _, rfl, _, rfl, ?_⟩
  exact C36_ising_active_partial (env := convEnv) (clk := fun _ => 0) (clk' := fun _ => 0) (by decide +kernel) (by decide +kernel)
    rfl rfl _ _

end Sawatabi.Props
