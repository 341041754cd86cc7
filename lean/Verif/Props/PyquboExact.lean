import Verif.Props.Pyqubo
import Verif.Props.Acceptance
import Verif.Lemmas.DeleteFix

/-!
# Import of PyQUBO models: exactly when it works and what it leaves (C42)
-/

namespace Sawatabi.Props

variable {m m' : LModel} {pm pm' : PModel} {now : ℚ}

/-! ## Specification -/

/-- These terms of a QUBO form can be added to the model: the variables are registered, and all default names are new and distinct. -/
def Importable (m : LModel) (pm : PModel) (l : List ((String × String) × Coef)) : Prop :=
  (∀ kv ∈ l, Registered m pm kv.1.1 ∧ Registered m pm kv.1.2) ∧ (l.map fun kv => keyName kv.1).Nodup ∧
    ∀ kv ∈ l, keyName kv.1 ∉ m.names

/-- A term of the PyQUBO model after it was imported: numbers stay, expressions are negated. -/
def negated (kv : (String × String) × Coef) : (String × String) × Coef := (kv.1, if kv.2.isNum then kv.2 else negCoef kv.2)

/-! ## Lemmas -/

theorem lookupVar_iff (hv : VarsOk m) (k : String) : (∃ v, lookupVar m pm.struct k = .ok v) ↔ Registered m pm k := by
  constructor
  · rintro ⟨v, h⟩
    unfold lookupVar at h
    split at h
    · cases h
    rename_i n idx hs
    split at h
    · cases h
    rename_i a ha
    split at h
    · cases h
    rename_i i hi
    exact ⟨n, idx, a, hs, ha, (flatIndex_some hi).1⟩
  · rintro ⟨n, idx, a, hs, ha, hi⟩
    exact lookupVar_found hv hs ha hi

theorem lookupVar_error {k : String} {e : Err} (h : lookupVar m pm.struct k = .error e) : e = .keyError ∨ e = .indexError := by
  unfold lookupVar at h
  split at h
  · cases h; exact .inl rfl
  split at h
  · cases h; exact .inl rfl
  split at h
  · cases h; exact .inr rfl
  split at h
  · cases h; exact .inr rfl
  · cases h

/-- A round with a variable that is not registered. -/
theorem step_unregistered {kv : (String × String) × Coef} (hv : VarsOk m)
    (h : ¬ (Registered m pm kv.1.1 ∧ Registered m pm kv.1.2)) :
    ∃ e, (fromPyquboStep now kv).run (m, pm) = .error e (m, pm) ∧ (e = .keyError ∨ e = .indexError) := by
  rw [step_run]
  simp only
  cases h0 : lookupVar m pm.struct kv.1.1 with
  | error e => exact ⟨e, rfl, lookupVar_error h0⟩
  | ok t0 =>
    cases h1 : lookupVar m pm.struct kv.1.2 with
    | error e => exact ⟨e, rfl, lookupVar_error h1⟩
    | ok t1 => exact absurd ⟨(lookupVar_iff hv _).mp ⟨t0, h0⟩, (lookupVar_iff hv _).mp ⟨t1, h1⟩⟩ h

/-- A round whose name is taken: the coefficient is negated all the same. -/
theorem step_taken {kv : (String × String) × Coef} (hv : VarsOk m) (hl : pm.Labelled)
    (h0 : Registered m pm kv.1.1) (h1 : Registered m pm kv.1.2) (hn : keyName kv.1 ∈ m.names) :
    (fromPyquboStep now kv).run (m, pm) =
      .error .valueError (m, if kv.2.isNum then pm else { pm with qubo := dset pm.qubo kv.1 (negCoef kv.2) }) := by
  obtain ⟨t0, e0⟩ := (lookupVar_iff hv _).mpr h0
  obtain ⟨t1, e1⟩ := (lookupVar_iff hv _).mpr h1
  have l0 := lookupVar_label hv hl e0
  have l1 := lookupVar_label hv hl e1
  obtain ⟨i, hd, hnm⟩ := names_ok m.mtype.vtype m.mtype.vtype kv.1
  rw [← l0, ← l1] at hd
  have hdec : Decides (addReasons m (if kv.1.1 = kv.1.2 then PyTarget.var t0 else .tuple [some t0, some t1]) (.str "")
      (negCoef kv.2).toPy (.num 1) .none .none) (some .valueError) := by
    unfold addReasons
    refine .skip ?_ (.skip ?_ (.skip ?_ (.skip ?_ (.skip ?_ (.skip ?_ (.skip ?_ (.skip ?_ (.hit ⟨i, _, hd, hnm, hn⟩))))))))
    · split <;> simp [PyTarget.Given]
    · cases kv.2 <;> simp [negCoef, Coef.toPy]
    · simp
    · simp
    · simp
    · split <;> simp [PyTarget.WellTyped]
    · by_cases hk : kv.1.1 = kv.1.2
      · simp [PyTarget.SameLabel, hk]
      · rw [if_neg hk]
        rintro ⟨v, w, hx, hvw⟩
        cases hx
        rw [l0, l1] at hvw
        exact hk hvw
    · simp
  rw [step_run]
  simp only [e0, e1, (C85_add_partial (now := now) hdec).1 _ rfl]

theorem dset_middle {κ ν : Type} [DecidableEq κ] (pre d : List (κ × ν)) (k : κ) (v w : ν) (h : k ∉ dkeys pre) :
    dset (pre ++ (k, v) :: d) k w = pre ++ (k, w) :: d := by
  rw [dset_append_right w h]
  simp [dset]

/-- The PyQUBO model after a round. -/
theorem negated_middle (pre d : List ((String × String) × Coef)) (kv : (String × String) × Coef) (h : kv.1 ∉ dkeys pre) :
    (if kv.2.isNum then pre ++ kv :: d else dset (pre ++ kv :: d) kv.1 (negCoef kv.2)) = pre ++ negated kv :: d := by
  obtain ⟨k, c⟩ := kv
  unfold negated
  by_cases hc : c.isNum = true
  · simp [hc]
  · simp only [hc]
    rw [if_neg (by simp), dset_middle _ _ _ _ _ h]
    simp

theorem dkeys_negated (l : List ((String × String) × Coef)) : dkeys (l.map negated) = dkeys l := by
  unfold dkeys negated
  simp [List.map_map, Function.comp_def]

/-- The loop, from a state where a part of the terms is done. -/
theorem loop_exact (l pre : List ((String × String) × Coef)) {m : LModel} {pm : PModel} (hm : m.Rect) (hv : VarsOk m) (hl : pm.Labelled)
    (hq : pm.qubo = pre ++ l) (hk : (dkeys pm.qubo).Nodup) :
    (Importable m pm l ∧ ∃ m₁, (l.forM (fromPyquboStep now)).run (m, pm) = .ok ⟨⟩ (m₁, { pm with qubo := pre ++ l.map negated })) ∨
    ∃ done kv rest m₁ pm₁ e, l = done ++ kv :: rest ∧ Importable m pm done ∧
      (done.forM (fromPyquboStep now)).run (m, pm) = .ok ⟨⟩ (m₁, { pm with qubo := pre ++ done.map negated ++ kv :: rest }) ∧
      (l.forM (fromPyquboStep now)).run (m, pm) = .error e (m₁, pm₁) ∧
      ((¬ (Registered m pm kv.1.1 ∧ Registered m pm kv.1.2) ∧ (e = .keyError ∨ e = .indexError) ∧
          pm₁ = { pm with qubo := pre ++ done.map negated ++ kv :: rest }) ∨
        (Registered m pm kv.1.1 ∧ Registered m pm kv.1.2 ∧ (keyName kv.1 ∈ m.names ∨ keyName kv.1 ∈ done.map fun kv => keyName kv.1) ∧
          e = .valueError ∧ pm₁ = { pm with qubo := pre ++ done.map negated ++ negated kv :: rest })) := by
  induction l generalizing m pm pre with
  | nil =>
    refine .inl ⟨⟨by simp, by simp, by simp⟩, m, ?_⟩
    rw [Py.run_forM_nil]
    cases pm
    simp only at hq
    simp [hq]
  | cons kv l ih =>
    have hkpre : kv.1 ∉ dkeys pre := by
      rw [hq] at hk
      unfold dkeys at hk ⊢
      rw [List.map_append, List.map_cons, List.nodup_append] at hk
      exact fun hx => hk.2.2 _ hx _ (List.mem_cons_self) rfl
    by_cases hreg : Registered m pm kv.1.1 ∧ Registered m pm kv.1.2
    · by_cases hn : keyName kv.1 ∈ m.names
      · refine .inr ⟨[], kv, l, m, _, .valueError, rfl, ⟨by simp, by simp, by simp⟩, ?_, ?_, .inr ⟨hreg.1, hreg.2, .inl hn, rfl, rfl⟩⟩
        · rw [Py.run_forM_nil]
          cases pm
          simp only at hq
          simp [hq]
        · rw [Py.run_forM_cons, step_taken hv hl hreg.1 hreg.2 hn]
          simp only
          congr 2
          have := negated_middle pre l kv hkpre
          rw [← hq] at this
          simp only [List.map_nil, List.append_nil, ← this]
          split <;> rfl
      · obtain ⟨m1, pm1, hs, hm1, hnm⟩ := step_succeeds (now := now) hm hv hl hreg.1 hreg.2 hn
        obtain ⟨_, a1, a2, _, _, _, _, _, b1, b2, b3⟩ := step_ok hv hl hs
        have hq1 : pm1.qubo = pre ++ negated kv :: l := by rw [b3, hq]; exact negated_middle pre l kv hkpre
        have hpm1 : pm1 = { pm with qubo := pre ++ [negated kv] ++ l } := by
          cases pm; cases pm1
          simp only at hq1 b1 b2
          simp [hq1, b1, b2]
        have hreg1 : ∀ k, Registered m1 pm1 k ↔ Registered m pm k := by
          intro k; unfold Registered; rw [a1, b1]
        have hl1 : pm1.Labelled := by intro k n idx hk; rw [b1] at hk; exact hl k n idx hk
        have hk1 : (dkeys pm1.qubo).Nodup := by
          have : dkeys (pre ++ negated kv :: l) = dkeys (pre ++ kv :: l) := by simp [dkeys, negated]
          rw [hq1, this, ← hq]; exact hk
        have himp : ∀ d : List ((String × String) × Coef), Importable m1 pm1 d → Importable m pm (kv :: d) := by
          rintro d ⟨i1, i2, i3⟩
          refine ⟨?_, ?_, ?_⟩
          · intro x hx
            rcases List.mem_cons.mp hx with rfl | hx
            · exact hreg
            · exact ⟨(hreg1 _).mp (i1 x hx).1, (hreg1 _).mp (i1 x hx).2⟩
          · rw [List.map_cons, List.nodup_cons]
            refine ⟨fun hx => ?_, i2⟩
            obtain ⟨y, hy, hyk⟩ := List.mem_map.mp hx
            have := i3 y hy
            rw [hnm, hyk] at this
            simp at this
          · intro x hx
            rcases List.mem_cons.mp hx with rfl | hx
            · exact hn
            · have := i3 x hx
              rw [hnm] at this
              exact fun hx' => this (List.mem_append_left _ hx')
        rcases ih (pre ++ [negated kv]) hm1 (varsOk_congr a1 a2 hv) hl1 (by rw [hq1]; simp) hk1 with
          ⟨hi, m₁, hr⟩ | ⟨done, kv', rest, m₁, pm₁, e, h1, h2, h3, h4, h5⟩
        · refine .inl ⟨himp l hi, m₁, ?_⟩
          rw [Py.run_forM_cons, hs]
          simp only
          rw [hr, hpm1]
          simp
        · refine .inr ⟨kv :: done, kv', rest, m₁, pm₁, e, by rw [h1]; rfl, himp done h2, ?_, ?_, ?_⟩
          · rw [Py.run_forM_cons, hs]
            simp only
            rw [h3, hpm1]
            simp
          · rw [Py.run_forM_cons, hs]
            exact h4
          · rw [hreg1, hreg1] at h5
            rcases h5 with ⟨g1, g2, g3⟩ | ⟨g1, g2, g3, g4, g5⟩
            · exact .inl ⟨g1, g2, by rw [g3, hpm1]; simp⟩
            · refine .inr ⟨g1, g2, ?_, g4, by rw [g5, hpm1]; simp⟩
              rw [hnm, List.mem_append, List.mem_singleton] at g3
              rcases g3 with (g3 | g3) | g3
              · exact .inl g3
              · exact .inr (by rw [g3]; exact List.mem_cons_self)
              · exact .inr (List.mem_cons_of_mem _ g3)
    · obtain ⟨e, hs, he⟩ := step_unregistered (now := now) hv hreg
      refine .inr ⟨[], kv, l, m, _, e, rfl, ⟨by simp, by simp, by simp⟩, ?_, ?_, .inl ⟨hreg, he, rfl⟩⟩
      · rw [Py.run_forM_nil]
        cases pm
        simp only at hq
        simp [hq]
      · rw [Py.run_forM_cons, hs]
        cases pm
        simp only at hq
        simp [hq]

/-! ## Claims -/

/-- **C42**, exactly when an import returns: all variables are registered, and the default names of the terms are new and distinct. -/
theorem C42_success_iff (hm : m.Rect) (hv : VarsOk m) (hl : pm.Labelled) (hk : (dkeys pm.qubo).Nodup) :
    (∃ s, (fromPyqubo now).run (m, pm) = .ok ⟨⟩ s) ↔ Importable m pm pm.qubo := by
  rw [fromPyqubo_run]
  constructor
  · rintro ⟨s, h⟩
    rcases loop_exact (now := now) pm.qubo [] hm hv hl rfl hk with ⟨hi, _⟩ | ⟨_, _, _, _, _, _, _, _, _, hr, _⟩
    · exact hi
    · rw [hr] at h; cases h
  · intro hi
    obtain ⟨s, hs⟩ := loop_succeeds (now := now) pm.qubo hm hv hl hi.1 hi.2.1 hi.2.2
    rw [hs]
    exact ⟨_, rfl⟩

/-- **C42**, the argument after an import that returns: the expressions among the coefficients are negated, nothing else has changed. -/
theorem C42_argument_exact_partial (hm : m.Rect) (hv : VarsOk m) (hl : pm.Labelled) (hk : (dkeys pm.qubo).Nodup)
    (h : (fromPyqubo now).run (m, pm) = .ok ⟨⟩ (m', pm')) : pm' = { pm with qubo := pm.qubo.map negated } := by
  rw [fromPyqubo_run] at h
  rcases loop_exact (now := now) pm.qubo [] hm hv hl rfl hk with ⟨_, m₁, hr⟩ | ⟨_, _, _, _, _, _, _, _, _, hr, _⟩
  · rw [hr] at h
    have := congrArg (fun r : Res (LModel × PModel) Unit => r.state.2) h
    simpa [Res.state] using this.symm
  · rw [hr] at h; cases h

/-- **C42**, the argument stays exactly if all coefficients are numbers. -/
theorem C42_argument_iff (hm : m.Rect) (hv : VarsOk m) (hl : pm.Labelled) (hk : (dkeys pm.qubo).Nodup)
    (h : (fromPyqubo now).run (m, pm) = .ok ⟨⟩ (m', pm')) : pm' = pm ↔ pm.Numeric := by
  rw [C42_argument_exact_partial hm hv hl hk h]
  constructor
  · intro he kv hkv
    have hq := congrArg PModel.qubo he
    simp only at hq
    by_contra hc
    have : negated kv = kv := by
      have : pm.qubo.map negated = pm.qubo.map id := by rw [hq, List.map_id]
      exact List.map_inj_left.mp this kv hkv
    obtain ⟨k, c⟩ := kv
    cases c with
    | num q => exact hc rfl
    | expr e =>
      have h2 := congrArg (fun x : (String × String) × Coef => x.2) this
      simp only [negated, Coef.isNum, negCoef, Bool.false_eq_true, if_false, Coef.expr.injEq] at h2
      have := congrArg sizeOf h2
      simp at this
  · intro hn
    have : pm.qubo.map negated = pm.qubo := by
      conv_rhs => rw [← List.map_id pm.qubo]
      apply List.map_congr_left
      intro kv hkv
      simp [negated, hn kv hkv]
    rw [this]

/-- **C42**, an import that raises: the terms before the one it stops at have been added, everything else in the model is as before,
also its offset. It stops at the first term with an unknown variable (KeyError, IndexError) or with a name that is taken (ValueError); in
the second case the expression of this term has been negated as well. -/
theorem C42_raises_exact (hm : m.Rect) (hv : VarsOk m) (hl : pm.Labelled) (hk : (dkeys pm.qubo).Nodup) {e : Err}
    (h : (fromPyqubo now).run (m, pm) = .error e (m', pm')) :
    ∃ done kv rest, pm.qubo = done ++ kv :: rest ∧ Importable m pm done ∧
      (∀ ρ σ, Assign.IsBinary σ → m'.energy ρ σ = m.energy ρ σ + (done.map fun kv => kv.2.eval ρ * (σ kv.1.1 * σ kv.1.2)).sum) ∧
      (∃ rs, m'.rows = m.rows ++ rs ∧ rs.length = done.length) ∧ m'.offset = m.offset ∧ m'.vars = m.vars ∧ m'.mtype = m.mtype ∧
      m'.constraints = m.constraints ∧ m'.deleted = m.deleted ∧ m'.fixed = m.fixed ∧
      ((¬ (Registered m pm kv.1.1 ∧ Registered m pm kv.1.2) ∧ (e = .keyError ∨ e = .indexError) ∧
          pm' = { pm with qubo := done.map negated ++ kv :: rest }) ∨
        (Registered m pm kv.1.1 ∧ Registered m pm kv.1.2 ∧ (keyName kv.1 ∈ m.names ∨ keyName kv.1 ∈ done.map fun kv => keyName kv.1) ∧
          e = .valueError ∧ pm' = { pm with qubo := done.map negated ++ negated kv :: rest })) := by
  rw [fromPyqubo_run] at h
  rcases loop_exact (now := now) pm.qubo [] hm hv hl rfl hk with ⟨_, m₁, hr⟩ | ⟨done, kv, rest, m₁, pm₁, e₁, h1, h2, h3, h4, h5⟩
  · rw [hr] at h; cases h
  · rw [h4] at h
    cases h
    obtain ⟨he, a1, a2, a3, a4, a5, a6, ar, _⟩ := loop_ok done hv hl h3
    exact ⟨done, kv, rest, h1, h2, he, ar, a3, a1, a2, a4, a5, a6, by simpa using h5⟩

/-- **C42**, the second import of one PyQUBO model, into any other model: numbers count with their sign, expressions with the opposite
one. -/
theorem C42_reimport_exact_partial {m₂ m₂' : LModel} {pm'' : PModel} {now₂ : ℚ} (hm : m.Rect) (hv : VarsOk m) (hl : pm.Labelled)
    (hk : (dkeys pm.qubo).Nodup) (h : (fromPyqubo now).run (m, pm) = .ok ⟨⟩ (m', pm')) (hv₂ : VarsOk m₂)
    (h₂ : (fromPyqubo now₂).run (m₂, pm') = .ok ⟨⟩ (m₂', pm'')) (ρ : PEnv) (σ : Assign) (hb : σ.IsBinary) :
    m₂'.energy ρ σ = m₂.energy ρ σ - m₂.offset.eval ρ + pm.offset.eval ρ +
      (pm.qubo.map fun kv => (if kv.2.isNum then 1 else -1) * (kv.2.eval ρ * (σ kv.1.1 * σ kv.1.2))).sum := by
  have hp := C42_argument_exact_partial hm hv hl hk h
  have hl' : pm'.Labelled := by rw [hp]; exact hl
  rw [(C42_energy_partial hv₂ hl' h₂).1 ρ σ hb, hp]
  simp only [PModel.energy, List.map_map]
  rw [← add_assoc]
  congr 2
  apply List.map_congr_left
  intro kv _
  simp only [Function.comp_apply, negated]
  split
  · ring
  · rw [negCoef_eval]; ring

/-- A model with two variables only. -/
def smaller : LModel := Ex.after (LModel.new .qubo "7") do let _ ← createVars "x" [2]

/-- A model where the name of the second term is taken. -/
def taken : LModel := Ex.after blank (addInteraction 1 (.var ⟨.binary, "x[2]"⟩) (.str "") (.num 1) (.num 1) .none .none)

/-- The import stops at the second term: its variable is missing. -/
example : ∃ m', (fromPyqubo 7).run (smaller, compiled) = .error .indexError (m', compiled) ∧ m'.names = ["x[0]*x[1]"] := by
  refine ⟨_, rfl, ?_⟩
  decide +kernel

/-- The import stops at the second term, after negating its coefficient: its name is taken. -/
example : ∃ m' pm', (fromPyqubo 7).run (taken, compiled) = .error .valueError (m', pm') ∧ m'.names = ["x[2]", "x[0]*x[1]"] ∧
    pm' ≠ compiled ∧ pm'.qubo.map (fun kv => kv.2.eval fun _ => 5) = [2, 5, 3] := by
  refine ⟨_, _, rfl, ?_⟩
  decide +kernel

example : (dkeys compiled.qubo).Nodup ∧ (compiled.qubo.map fun kv => keyName kv.1).Nodup ∧ ¬ compiled.Numeric := by
  refine ⟨by decide +kernel, by decide +kernel, ?_⟩
  unfold PModel.Numeric
  decide +kernel

end Sawatabi.Props
