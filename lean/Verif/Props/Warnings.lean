import Verif.Spec.Warnings
import Verif.Props.Acceptance

/-!
# C133: when the methods of a model warn
-/

namespace Sawatabi.Props

open Sawatabi.Warnings

variable {α β : Type}

theorem quiet_run (x : Py LModel α) (m : LModel) (ws : List Warning) :
    (quiet x).run ⟨m, ws⟩ = withLog ws (x.run m) := by
  unfold quiet
  dsimp only
  cases x.run m <;> rfl

theorem quiet_bind (x : Py LModel α) (f : α → Py LModel β) :
    quiet (x >>= f) = quiet x >>= fun a => quiet (f a) := by
  show Py.mk _ = Py.mk _
  congr 1
  funext ⟨m, ws⟩
  rw [Py.run_bind]
  simp only [quiet]
  cases x.run m <;> rfl

theorem quiet_forM (f : α → Py LModel PUnit) (l : List α) :
    quiet (l.forM f) = l.forM fun a => quiet (f a) := by
  induction l with
  | nil => rfl
  | cons a l ih =>
    simp only [List.forM_eq_forM, List.forM_cons] at ih ⊢
    rw [quiet_bind, ih]

theorem warn_false (w : Warning) (m : LModel) (ws : List Warning) : (warn false w).run ⟨m, ws⟩ = .ok ⟨⟩ ⟨m, ws ++ [w]⟩ := rfl
theorem warn_true (w : Warning) (s : WState) : (warn true w).run s = .error .userError s := rfl

/-- **C133** for `append`: it warns exactly if it creates variables, because the model has none of that name. -/
theorem C133_append (name : String) (shape : List Int) :
    Announces (fun strict => Warnings.appendVars strict name shape) (_root_.Sawatabi.appendVars name shape)
      (fun m => shape ≠ [] ∧ name ∉ dkeys m.vars) (.created name) id := by
  constructor
  · rintro m ws ⟨h1, h2⟩
    have h3 := (dget_eq_none_iff m.vars name).mpr h2
    simp only [Warnings.appendVars, _root_.Sawatabi.appendVars, if_neg h1, Py.run_bind, Py.run_get, Py.run_pure, h3, warn_false, quiet_run]
  · rintro m ws ⟨h1, h2⟩
    have h3 := (dget_eq_none_iff m.vars name).mpr h2
    simp only [Warnings.appendVars, if_neg h1, Py.run_bind, Py.run_get, Py.run_pure, h3, warn_true, id]
  · intro strict m ws h
    by_cases h1 : shape = []
    · subst h1; rfl
    · have h2 : name ∈ dkeys m.vars := by
        by_contra h2; exact h ⟨h1, h2⟩
      obtain ⟨a, h3⟩ := (dget_isSome_iff m.vars name).mpr h2
      simp only [Warnings.appendVars, _root_.Sawatabi.appendVars, if_neg h1, Py.run_bind, Py.run_get, Py.run_pure, h3, Py.run_liftE]
      cases arrayCreate name (elementwiseAdd (a.shape.map Int.ofNat) shape) m.mtype.vtype <;> rfl

/-- What `update_interaction` does, by the checks. -/
theorem updateW_run (strict : Bool) (importTime now : ℚ) (m : LModel) (ws : List Warning) (target : PyTarget) (name : PyName)
    (coefficient scale : Option PyCoef) (attributes : PyAttrs) (timestamp : Option PyTs) :
    (Warnings.updateInteraction strict importTime now target name coefficient scale attributes timestamp).run ⟨m, ws⟩ =
      match updateChecks importTime m target name coefficient scale attributes timestamp with
      | .error e => .error e ⟨m, ws⟩
      | .ok (.add c s ts) =>
        ((warn strict (.added (match optInfo target with | .ok (some i) => i.defaultName | _ => ""))) >>= fun _ =>
          quiet (addInteraction now target (.str "") (.num c) (.num s) .none ts)).run ⟨m, ws⟩
      | .ok (.write idx c s ats ts) => (quiet (writeRow idx c s ats ts)).run ⟨m, ws⟩ := by
  unfold Warnings.updateInteraction updateChecks
  cases h1 : (!target.truthy && !name.truthy) with
  | true => rfl
  | false =>
  cases h2 : (target.truthy && name.truthy) with
  | true => rfl
  | false =>
  cases hc : checkNum? coefficient with
  | error e => rfl
  | ok c =>
  cases hs : checkNum? scale with
  | error e => rfl
  | ok s =>
  by_cases ha : attributes = .bad
  · subst ha; rfl
  by_cases ht : timestamp.getD (.num importTime) = .bad
  · simp only [ht, ha, if_false, if_true, Py.run_bind, Py.run_liftE_ok, Bool.false_eq_true, Py.run_throw, Py.run_pure]
  cases hi : optInfo target with
  | error e => simp only [ht, ha, if_false, Py.run_bind, Py.run_liftE_ok, Bool.false_eq_true, Py.run_liftE_error, Py.run_pure]
  | ok info? =>
  cases hn : updateName m info? name with
  | error e =>
    simp only [ht, ha, if_false, Py.run_bind, Py.run_liftE_ok, Bool.false_eq_true, Py.run_liftE_error, Py.run_pure, Py.run_get, hn]
  | ok n? =>
  cases n? with
  | none =>
    simp only [ht, ha, if_false, Py.run_bind, Py.run_liftE_ok, Bool.false_eq_true, Py.run_pure, Py.run_get, hn]
    cases info? <;> rfl
  | some n =>
  cases hr : m.isRemoved n with
  | error e =>
    simp only [ht, ha, if_false, Py.run_bind, Py.run_liftE_ok, Bool.false_eq_true, Py.run_pure, Py.run_get, hn, hr, Py.run_liftE_error]
  | ok b =>
  cases b with
  | true =>
    simp only [ht, ha, if_false, Py.run_bind, Py.run_liftE_ok, Bool.false_eq_true, Py.run_pure, Py.run_get, hn, hr, if_true, Py.run_throw]
  | false =>
  cases hx : m.indexOf n with
  | error e =>
    simp only [ht, ha, if_false, Py.run_bind, Py.run_liftE_ok, Bool.false_eq_true, Py.run_pure, Py.run_get, hn, hr, hx, Py.run_liftE_error]
  | ok i =>
    simp only [ht, ha, if_false, Py.run_bind, Py.run_liftE_ok, Bool.false_eq_true, Py.run_pure, Py.run_get, hn, hr, hx]

theorem updateChecks_add_iff {importTime : ℚ} {m : LModel} {target : PyTarget} {name : PyName} {c s : Option PyCoef}
    {attributes : PyAttrs} {ts : Option PyTs} :
    (∃ c' s' ts', updateChecks importTime m target name c s attributes ts = .ok (.add c' s' ts')) ↔
      Decides (updateReasons m target name c s attributes ts) none ∧ ¬ name.Given ∧ ¬ ∃ n, Resolves m target name n := by
  obtain ⟨r, hr⟩ := decides_total (updateReasons m target name c s attributes ts)
  constructor
  · rintro ⟨c', s', ts', h⟩
    rcases updateChecks_prefix (importTime := importTime) hr with ⟨e, rfl, he⟩ | ⟨hform, hts, hd, info?, hi, c₁, s₁, heq⟩
    · rw [he] at h; cases h
    · rw [heq] at h
      have hnr : ¬ ∃ n, Resolves m target name n := by
        rintro ⟨n, hn⟩
        rw [updateName_resolves hi hn] at h
        simp only at h
        cases h1 : m.isRemoved n with
        | error e => rw [h1] at h; cases h
        | ok b =>
          cases b
          · rw [h1] at h
            cases h2 : m.indexOf n with
            | error e => rw [h2] at h; cases h
            | ok i => rw [h2] at h; cases h
          · rw [h1] at h; cases h
      have hng : ¬ name.Given := by
        intro hg
        have ht := (name_truthy_iff name).mpr hg
        unfold updateName at h
        rw [if_pos ht] at h
        cases name with
        | tuple => cases h
        | other => cases h
        | str n =>
          simp only at h
          have hne : n ≠ "" := by simpa [PyName.truthy] using ht
          by_cases hh : m.hasName n = true
          · have htn : target = .none := by
              rcases hform with ⟨ht, _⟩ | ⟨hs, _⟩
              · exact ht
              · exact absurd (by simpa using hs) hne
            exact hnr ⟨n, .byName n _ htn hne ((hasName_iff m n).mp hh)⟩
          · rw [if_neg hh] at h; cases h
      refine ⟨?_, hng, hnr⟩
      have : r = none := by
        rcases hd with _ | ⟨h1, _⟩ | ⟨_, hd⟩
        · exact absurd h1 hng
        · rcases hd with _ | ⟨n, hn, _⟩ | ⟨_, hd⟩
          · exact absurd ⟨n, hn⟩ hnr
          · cases hd; rfl
      exact this ▸ hr
  · rintro ⟨h, hng, hnr⟩
    rcases updateChecks_prefix (importTime := importTime) h with ⟨e, he, _⟩ | ⟨hform, hts, hd, info?, hi, c₁, s₁, heq⟩
    · cases he
    · rcases hform with ⟨_, hg⟩ | ⟨rfl, i, hd'⟩
      · exact absurd hg hng
      · have h3 : target ≠ .none := by rintro rfl; cases hd'
        rw [optInfo, if_neg h3, getInfo_ok_iff.mpr hd'] at hi
        cases hi
        have hnew : i.defaultName ∉ m.names := fun hmem => hnr ⟨_, .byTarget _ i _ hd' (names_default i) hmem⟩
        have hun : updateName m (some i) (.str "") = .ok none := by
          unfold updateName
          rw [if_neg (by decide)]
          have : m.hasName i.defaultName = false := by
            by_contra hh
            exact hnew ((hasName_iff m _).mp (by simpa using hh))
          simp [this]
        rw [heq, hun]
        exact ⟨_, _, _, rfl⟩

/-- **C133** for `update_interaction`: it warns exactly if it adds an interaction, because nothing is wrong with the arguments
and the model has no interaction of the default name of the target. -/
theorem C133_update (importTime now : ℚ) {target : PyTarget} {i : Inter} {n : String} (hd : target.Denotes i)
    (hn : PyName.Names (.str "") i n) (name : PyName) (c s : Option PyCoef) (attributes : PyAttrs) (ts : Option PyTs) :
    Announces (fun strict => Warnings.updateInteraction strict importTime now target name c s attributes ts)
      (_root_.Sawatabi.updateInteraction importTime now target name c s attributes ts)
      (fun m => Decides (updateReasons m target name c s attributes ts) none ∧ ¬ name.Given ∧ n ∉ m.names) (.added n) id := by
  have h3 : target ≠ .none := by rintro rfl; cases hd
  have hi : optInfo target = .ok (some i) := by rw [optInfo, if_neg h3, getInfo_ok_iff.mpr hd]
  have hn' : i.defaultName = n := by
    cases hn with
    | given _ _ h => exact absurd rfl h
    | lin v => rfl
    | quad v w => rfl
  have key : ∀ m : LModel, (Decides (updateReasons m target name c s attributes ts) none ∧ ¬ name.Given ∧ n ∉ m.names) ↔
      ∃ c' s' ts', updateChecks importTime m target name c s attributes ts = .ok (.add c' s' ts') := by
    intro m
    rw [updateChecks_add_iff]
    refine and_congr_right fun _ => and_congr_right fun hg => not_congr ?_
    have hg' : name = .str "" := not_not.mp hg
    subst hg'
    constructor
    · intro h; exact ⟨n, .byTarget _ i n hd hn h⟩
    · rintro ⟨n', h⟩
      cases h with
      | byName _ _ ht hne => exact absurd rfl hne
      | byTarget _ i' _ h1 h2 h4 =>
        have : i' = i := by
          have := getInfo_ok_iff.mpr h1
          rw [getInfo_ok_iff.mpr hd] at this
          exact (Except.ok.inj this).symm
        subst this
        have : i'.defaultName = n' := by
          cases h2 with
          | given _ _ h => exact absurd rfl h
          | lin v => rfl
          | quad v w => rfl
        rw [← hn', this]; exact h4
  constructor
  · intro m ws h
    obtain ⟨c', s', ts', h⟩ := (key m).mp h
    simp only [updateW_run, updateInteraction_run, h, hi, hn', Py.run_bind, warn_false, quiet_run]
  · intro m ws h
    obtain ⟨c', s', ts', h⟩ := (key m).mp h
    simp only [updateW_run, h, hi, hn', Py.run_bind, warn_true, id]
  · intro strict m ws h
    have h := mt (key m).mpr h
    rw [updateW_run, updateInteraction_run]
    split
    · rename_i e he; simp only [he]; rfl
    · rename_i c' s' ts' he; exact absurd ⟨c', s', ts', he⟩ h
    · rename_i idx c' s' ats ts' he; simp only [he]; exact quiet_run _ _ _

/-- **C133**: if the target is no variable and no pair of different variables, `update_interaction` never warns. -/
theorem C133_update_other (importTime now : ℚ) {target : PyTarget} (hd : ∀ i, ¬ target.Denotes i)
    (name : PyName) (c s : Option PyCoef) (attributes : PyAttrs) (ts : Option PyTs) (strict : Bool) (m : LModel) (ws : List Warning) :
    (Warnings.updateInteraction strict importTime now target name c s attributes ts).run ⟨m, ws⟩ =
      withLog ws ((_root_.Sawatabi.updateInteraction importTime now target name c s attributes ts).run m) := by
  rw [updateW_run, updateInteraction_run]
  split
  · rename_i e he; simp only [he]; rfl
  · rename_i c' s' ts' he
    exfalso
    obtain ⟨h, hg, _⟩ := updateChecks_add_iff.mp ⟨c', s', ts', he⟩
    rcases updateChecks_prefix (importTime := importTime) h with ⟨e, he, _⟩ | ⟨hform, _⟩
    · cases he
    · rcases hform with ⟨_, hg'⟩ | ⟨_, i, hd'⟩
      · exact hg hg'
      · exact hd i hd'
  · rename_i idx c' s' ats ts' he; simp only [he]; exact quiet_run _ _ _

theorem touches_iff (r : Row) (l : String) : r.touches l = true ↔ Mentions r.inter l := by
  unfold Row.touches
  cases h : r.inter with
  | lin v =>
    constructor
    · intro h; have h : v.label = l := by
        rcases (Bool.or_eq_true _ _).mp h with h | h
        · exact of_decide_eq_true h
        · exact absurd (of_decide_eq_true h) (by simp [Inter.key1])
      subst h; exact .lin v
    · rintro ⟨⟩; simp [Inter.key0]
  | quad v w =>
    constructor
    · intro h
      have h : v.label = l ∨ w.label = l := by
        rcases (Bool.or_eq_true _ _).mp h with h | h
        · exact .inl (of_decide_eq_true h)
        · exact .inr (Option.some.inj (of_decide_eq_true h))
      rcases h with h | h
      · subst h; exact .fst v w
      · subst h; exact .snd v w
    · intro h; cases h <;> simp [Inter.key0, Inter.key1]

/-- **C133** for `fix_variable`: it warns exactly if it changes no interaction, because the value is right and no
interaction has the variable. If the warning becomes an exception, the variable is already among the fixed ones. -/
theorem C133_fix_exact (clk : Nat → ℚ) (v : PVar) (q : ℚ) :
    Announces (fun strict => Warnings.fixVariable strict clk v (.num q)) (_root_.Sawatabi.fixVariable clk v (.num q))
      (fun m => Value m q ∧ EvenColumns m ∧ ∀ r ∈ m.rows, ¬ Mentions r.inter v.label) .nothing
      (fun m => { m with fixed := sadd m.fixed v.label }) := by
  have hval : ∀ m : LModel, (Value m q → checkFixValue m.mtype (.num q) = .ok q) ∧
      (¬ Value m q → checkFixValue m.mtype (.num q) = .error .valueError) := by
    intro m
    unfold Value checkFixValue
    cases m.mtype <;> simp only <;> constructor <;> intro h
    · rw [if_pos h]
    · rw [if_neg h]
    · rw [if_pos h.symm]
    · rw [if_neg (fun h' => h h'.symm)]
  have hframe : ∀ m : LModel, m.attrCols.any (fun c => c.2.length ≠ m.rows.length) = true ↔ ¬ EvenColumns m := by
    intro m
    simp only [List.any_eq_true, EvenColumns, not_forall, decide_eq_true_eq]
    constructor
    · rintro ⟨c, h1, h2⟩; exact ⟨c, h1, h2⟩
    · rintro ⟨c, h1, h2⟩; exact ⟨c, h1, h2⟩
  have hsel : ∀ m : LModel, EvenColumns m → (selectByVariable v).run m =
      .ok ((m.rows.filter (·.touches v.label)).map (·.name)) m := by
    intro m h
    unfold selectByVariable
    rw [Py.run_bind, makeFrame_run, if_neg (fun h' => (hframe m).mp h' h)]; rfl
  have hsel' : ∀ m : LModel, ¬ EvenColumns m → (selectByVariable v).run m = .error .valueError m := by
    intro m h
    unfold selectByVariable
    rw [Py.run_bind, makeFrame_run, if_pos ((hframe m).mpr h)]
  have hemp : ∀ m : LModel, ((m.rows.filter (·.touches v.label)).map (·.name)).isEmpty = true ↔
      ∀ r ∈ m.rows, ¬ Mentions r.inter v.label := by
    intro m
    simp only [List.isEmpty_iff, List.map_eq_nil_iff, List.filter_eq_nil_iff, ← touches_iff]
  constructor
  · rintro m ws ⟨h1, h2, h3⟩
    simp only [Warnings.fixVariable, _root_.Sawatabi.fixVariable, Py.run_bind, Py.run_get, Py.run_pure, (hval m).1 h1,
      Py.run_liftE_ok, Py.run_modify, quiet_run, hsel { m with fixed := sadd m.fixed v.label } h2, withLog, (hemp m).mpr h3, if_true, warn_false]
  · rintro m ws ⟨h1, h2, h3⟩
    simp only [Warnings.fixVariable, Py.run_bind, Py.run_get, Py.run_pure, (hval m).1 h1,
      Py.run_liftE_ok, Py.run_modify, quiet_run, hsel { m with fixed := sadd m.fixed v.label } h2, withLog, (hemp m).mpr h3, if_true, warn_true]
  · intro strict m ws h
    by_cases h1 : Value m q
    · by_cases h2 : EvenColumns m
      · have h3 := fun h3 => h ⟨h1, h2, (hemp m).mp h3⟩
        simp only [Warnings.fixVariable, _root_.Sawatabi.fixVariable, Py.run_bind, Py.run_get, Py.run_pure, (hval m).1 h1,
          Py.run_liftE_ok, Py.run_modify, quiet_run, hsel { m with fixed := sadd m.fixed v.label } h2, withLog, if_neg h3]
        split
        · exact quiet_run _ _ _
        · exact quiet_run _ _ _
      · simp only [Warnings.fixVariable, _root_.Sawatabi.fixVariable, Py.run_bind, Py.run_get, Py.run_pure, (hval m).1 h1,
          Py.run_liftE_ok, Py.run_modify, quiet_run, hsel' { m with fixed := sadd m.fixed v.label } h2, withLog]
    · simp only [Warnings.fixVariable, _root_.Sawatabi.fixVariable, Py.run_bind, Py.run_get, Py.run_pure, (hval m).2 h1,
        Py.run_liftE_error, withLog]

/-- A value that is no number is rejected without a warning. -/
theorem C133_fix_other (clk : Nat → ℚ) (v : PVar) (strict : Bool) (m : LModel) (ws : List Warning) :
    (Warnings.fixVariable strict clk v .other).run ⟨m, ws⟩ = .error .valueError ⟨m, ws⟩ := rfl

theorem updateCoefW (strict : Bool) (env : Env) (name : String) (c : Coef) :
    Warnings.updateCoef strict env name c = quiet (_root_.Sawatabi.updateCoef env name c) := by
  show Py.mk _ = Py.mk _
  congr 1
  funext ⟨m, ws⟩
  have h := C133_update_other env.importTime 0 (target := .none) (fun i h => by cases h) (.str name) (some c.toPy) none .none none
    strict m ws
  rw [← quiet_run] at h
  exact h

theorem quiet_throw (e : Err) : quiet (throw e : Py LModel α) = throw e := rfl

theorem toIsingLinW (strict : Bool) (env : Env) (h : Row) :
    Warnings.toIsingLin strict env h = quiet (_root_.Sawatabi.toIsingLin env h) := by
  simp only [Warnings.toIsingLin, _root_.Sawatabi.toIsingLin, updateCoefW, quiet_bind]

theorem toQuboLinW (strict : Bool) (env : Env) (h : Row) :
    Warnings.toQuboLin strict env h = quiet (_root_.Sawatabi.toQuboLin env h) := by
  simp only [Warnings.toQuboLin, _root_.Sawatabi.toQuboLin, updateCoefW, quiet_bind]

theorem toIsingQuadW (strict : Bool) (env : Env) (clk : Nat → ℚ) (J : Row) :
    Warnings.toIsingQuad strict env clk J = quiet (_root_.Sawatabi.toIsingQuad env clk J) := by
  unfold Warnings.toIsingQuad _root_.Sawatabi.toIsingQuad
  cases J.inter with
  | lin v => rfl
  | quad v w => simp only [updateCoefW, quiet_bind]

theorem toQuboQuadW (strict : Bool) (env : Env) (clk : Nat → ℚ) (J : Row) :
    Warnings.toQuboQuad strict env clk J = quiet (_root_.Sawatabi.toQuboQuad env clk J) := by
  unfold Warnings.toQuboQuad _root_.Sawatabi.toQuboQuad
  cases J.inter with
  | lin v => rfl
  | quad v w => simp only [updateCoefW, quiet_bind]

/-- **C133** for `to_ising`: it warns exactly if the model is an Ising model already; a conversion never warns. -/
theorem C133_to_ising (env : Env) (clk : Nat → ℚ) :
    Announces (fun strict => Warnings.toIsing strict env clk) (_root_.Sawatabi.toIsing env clk)
      (fun m => m.mtype = .ising) (.already .ising) id := by
  constructor
  · intro m ws h
    simp only [Warnings.toIsing, _root_.Sawatabi.toIsing, Py.run_bind, Py.run_get, Py.run_ite, h, ne_eq, not_true_eq_false, if_false,
      warn_false, Py.run_pure, withLog]
  · intro m ws h
    simp only [Warnings.toIsing, Py.run_bind, Py.run_get, Py.run_ite, h, ne_eq, not_true_eq_false, if_false, warn_true, id]
  · intro strict m ws h
    rw [← quiet_run]
    have hl : Warnings.toIsingLin strict env = fun h => quiet (_root_.Sawatabi.toIsingLin env h) := funext (toIsingLinW strict env)
    simp only [Warnings.toIsing, _root_.Sawatabi.toIsing, hl, toIsingQuadW, quiet_bind, ← quiet_forM]
    rw [Py.run_bind, Py.run_get, Py.run_bind, quiet_run, Py.run_get]
    simp only [withLog, ne_eq, h, not_false_eq_true, if_true, quiet_bind]

/-- **C133** for `to_qubo`: likewise. -/
theorem C133_to_qubo (env : Env) (clk : Nat → ℚ) :
    Announces (fun strict => Warnings.toQubo strict env clk) (_root_.Sawatabi.toQubo env clk)
      (fun m => m.mtype = .qubo) (.already .qubo) id := by
  constructor
  · intro m ws h
    simp only [Warnings.toQubo, _root_.Sawatabi.toQubo, Py.run_bind, Py.run_get, Py.run_ite, h, ne_eq, not_true_eq_false, if_false,
      warn_false, Py.run_pure, withLog]
  · intro m ws h
    simp only [Warnings.toQubo, Py.run_bind, Py.run_get, Py.run_ite, h, ne_eq, not_true_eq_false, if_false, warn_true, id]
  · intro strict m ws h
    rw [← quiet_run]
    have hl : Warnings.toQuboLin strict env = fun h => quiet (_root_.Sawatabi.toQuboLin env h) := funext (toQuboLinW strict env)
    simp only [Warnings.toQubo, _root_.Sawatabi.toQubo, hl, toQuboQuadW, quiet_bind, ← quiet_forM]
    rw [Py.run_bind, Py.run_get, Py.run_bind, quiet_run, Py.run_get]
    simp only [withLog, ne_eq, h, not_false_eq_true, if_true, quiet_bind]

/-- A conversion to the other type never warns. -/
theorem convertMtypeW (strict : Bool) (env : Env) (clk : Nat → ℚ) (m : LModel) (ws : List Warning) :
    (Warnings.convertMtype strict env clk).run ⟨m, ws⟩ = withLog ws ((_root_.Sawatabi.convertMtype env clk).run m) := by
  unfold Warnings.convertMtype _root_.Sawatabi.convertMtype
  rw [Py.run_bind, Py.run_bind, Py.run_get, Py.run_get]
  simp only
  cases h : m.mtype with
  | qubo => exact (C133_to_ising env clk).quiet strict m ws (by rw [h]; decide)
  | ising => exact (C133_to_qubo env clk).quiet strict m ws (by rw [h]; decide)

theorem mergeVarW (strict : Bool) (p : String × VArray) :
    Warnings.mergeVar strict p = quiet (_root_.Sawatabi.mergeVar p) := by
  show Py.mk _ = Py.mk _
  congr 1
  funext ⟨m, ws⟩
  show (Warnings.mergeVar strict p).run ⟨m, ws⟩ = (quiet (_root_.Sawatabi.mergeVar p)).run ⟨m, ws⟩
  rw [quiet_run]
  unfold Warnings.mergeVar _root_.Sawatabi.mergeVar
  rw [Py.run_bind, Py.run_bind, Py.run_get, Py.run_get]
  simp only
  cases h : dget m.vars p.1 with
  | none => rfl
  | some cur =>
    simp only
    rw [Py.run_bind, Py.run_bind, (C133_append p.1 _).quiet strict m ws (fun h' => h'.2 ((dget_isSome_iff m.vars p.1).mp ⟨_, h⟩))]
    cases (_root_.Sawatabi.appendVars p.1
      (elementwiseSub (elementwiseMax (p.2.shape.map Int.ofNat) (cur.shape.map Int.ofNat)) (cur.shape.map Int.ofNat))).run m <;> rfl

/-- **C133**: `merge` never warns, so it does the same whether warnings are exceptions or not. -/
theorem C133_merge (strict : Bool) (env : Env) (clk : Nat → ℚ) (a b : LModel) (ws : List Warning) :
    (Warnings.merge strict env clk).run ⟨a, b, ws⟩ = withLog2 ws ((_root_.Sawatabi.merge env clk).run (a, b)) := by
  have same : ∀ a b : LModel, (Warnings.mergeSame strict).run ⟨a, b, ws⟩ = withLog2 ws (_root_.Sawatabi.mergeSame.run (a, b)) := by
    intro a b
    have hv : Warnings.mergeVar strict = fun p => quiet (_root_.Sawatabi.mergeVar p) := funext (mergeVarW strict)
    unfold Warnings.mergeSame _root_.Sawatabi.mergeSame
    simp only [hv, ← quiet_forM, Py.run_bind, Py.run_get]
    cases hr : rankClash a b with
    | true => rfl
    | false =>
      simp only [Bool.false_eq_true, if_false, Py.run_pure, Py.run_bind, onSelf, onFst, quiet_run]
      cases (b.vars.forM _root_.Sawatabi.mergeVar).run a with
      | error e t => rfl
      | ok u t =>
        simp only [withLog, quietBoth]
        cases mergeTables.run (t, b) with
        | error e t => rfl
        | ok u t =>
          simp only
          cases mergeRest.run t <;> rfl
  unfold Warnings.merge _root_.Sawatabi.merge
  simp only [Py.run_bind, Py.run_get]
  by_cases h : a.mtype = b.mtype
  · simp only [h, ne_eq, not_true_eq_false, if_false, Py.run_pure]
    exact same a b
  · simp only [h, ne_eq, not_false_eq_true, if_true, onOther, onSnd, convertMtypeW, Py.run_bind]
    cases (_root_.Sawatabi.convertMtype env clk).run b with
    | error e t => rfl
    | ok u t => exact same a t

theorem mergeConstraintW (strict : Bool) (env : Env) (clks : Nat → Nat → ℚ) (ids : Nat → String) (p : (String × Constraint) × Nat) :
    Warnings.mergeConstraint strict env clks ids p = quiet (_root_.Sawatabi.mergeConstraint env clks ids p) := by
  show Py.mk _ = Py.mk _
  congr 1
  funext ⟨m, ws⟩
  show (Warnings.mergeConstraint strict env clks ids p).run ⟨m, ws⟩ = (quiet (_root_.Sawatabi.mergeConstraint env clks ids p)).run ⟨m, ws⟩
  rw [quiet_run]
  unfold Warnings.mergeConstraint _root_.Sawatabi.mergeConstraint
  rw [Py.run_bind, Py.run_bind]
  cases p.1.2.toModel (clks p.2 0) (ids p.2) with
  | error e => rfl
  | ok cm =>
    simp only [Py.run_liftE_ok, C133_merge]
    cases (_root_.Sawatabi.merge env (clks p.2)).run (m, cm) <;> rfl

/-- **C133**: `to_physical` never warns. -/
theorem C133_to_physical (strict : Bool) (env : Env) (clks : Nat → Nat → ℚ) (ids : Nat → String) (ph : List (String × ℚ))
    (m : LModel) (ws : List Warning) :
    (Warnings.toPhysical strict env clks ids ph).run ⟨m, ws⟩ = withLog ws ((_root_.Sawatabi.toPhysical env clks ids ph).run m) := by
  have hc : Warnings.mergeConstraint strict env clks ids = fun p => quiet (_root_.Sawatabi.mergeConstraint env clks ids p) :=
    funext (mergeConstraintW strict env clks ids)
  unfold Warnings.toPhysical _root_.Sawatabi.toPhysical
  simp only [hc, ← quiet_forM, Py.run_bind, Py.run_get, quiet_run, Py.run_pure]
  cases (m.constraints.zipIdx.forM (_root_.Sawatabi.mergeConstraint env clks ids)).run m with
  | error e t => rfl
  | ok u t =>
    simp only [withLog, Py.run_liftE]
    cases group ph t with
    | error e => rfl
    | ok g =>
      simp only
      cases t.offset.resolve ph with
      | error e => rfl
      | ok off =>
        simp only [quiet_run, Py.run_modify, withLog]
        split <;> rename_i h
        · split at h
          · cases h; rename_i h'; simp only [h', Py.run_modify, Py.run_pure, quiet_run, withLog]
          · cases h
        · split at h
          · cases h
          · cases h; rename_i h'; simp only [h', withLog]

/-! ### Counterexample and cases -/

/-- A model without interactions. -/
def silent : LModel := LModel.new .ising "w"

/-- A variable. -/
def silentVar : PVar := ⟨.spin, "x[0]"⟩

theorem silent_meets : Value silent 1 ∧ EvenColumns silent ∧ ∀ r ∈ silent.rows, ¬ Mentions r.inter silentVar.label :=
  ⟨Or.inl rfl, fun _ hc => (by cases hc), fun _ hr => (by cases hr)⟩

/-- **C133** fails for `fix_variable`: if warnings are turned into exceptions, the call raises and the variable counts as fixed. -/
theorem C133_fix_refuted : ∃ (m : LModel) (v : PVar) (q : ℚ), ∀ (clk : Nat → ℚ) (ws : List Warning),
    ∃ m', (Warnings.fixVariable true clk v (.num q)).run ⟨m, ws⟩ = .error .userError ⟨m', ws⟩ ∧ m' ≠ m ∧ v.label ∈ m'.fixed ∧
      v.label ∉ m.fixed := by
  refine ⟨silent, silentVar, 1, fun clk ws => ⟨_, (C133_fix_exact clk silentVar 1).raises silent ws silent_meets, ?_, ?_, ?_⟩⟩
  · intro h
    have := congrArg LModel.fixed h
    revert this
    decide
  · decide
  · decide

/-- `C133_append`: a name that the model has not. -/
example : ([2] : List Int) ≠ [] ∧ "x" ∉ dkeys silent.vars := by decide

/-- `C133_update`: the model has no interaction `x[0]`. -/
example : Decides (updateReasons silent (.var silentVar) (.str "") (some (.num 2)) none .none none) none ∧
    ¬ (PyName.str "").Given ∧ silentVar.label ∉ silent.names := by
  have h := updateChecks_add_iff (importTime := 0) (m := silent) (target := .var silentVar) (name := .str "")
    (c := some (.num 2)) (s := none) (attributes := .none) (ts := none)
  exact ⟨(h.mp ⟨2, 1, .num 0, rfl⟩).1, by simp [PyName.Given], by decide⟩

/-- `C133_update_other`: no target, as in `update_interaction(name=...)`. -/
example : ∀ i, ¬ PyTarget.none.Denotes i := fun i h => by cases h

/-- `C133_to_ising`, `C133_to_qubo`: one is a conversion, the other warns. -/
example : silent.mtype = .ising ∧ ¬ silent.mtype = .qubo := by decide

end Sawatabi.Props
