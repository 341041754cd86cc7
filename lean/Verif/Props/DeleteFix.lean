import Verif.Lemmas.DeleteFix
import Verif.Lemmas.Ordered

/-!
# Deleting and fixing variables (C11, C12, C13, C15)
-/

namespace Sawatabi.Props

variable {m m' : LModel} {v : PVar}

/-! ## C11: delete_variable -/

/-- A successful `delete_variable(v)` leaves the Hamiltonian with `v := 0`. -/
theorem C11_delete_energy_partial (hu : m.names.Nodup) (h : (deleteVariable v).run m = .ok ⟨⟩ m') (ρ : PEnv)
    (σ : Assign) : m'.energy ρ σ = m.energy ρ (σ.subst v.label 0) := by
  obtain ⟨cs, rfl⟩ := deleteVariable_ok hu h
  simp only [LModel.energy, List.map_map]
  congr 2
  apply List.map_congr_left
  intro r _
  simp only [Function.comp, term_subst_zero]
  split
  · simp [Row.term, rmRow]
  · rfl

/-- Afterwards the energy does not depend on `v`. -/
theorem C11_delete_independent_partial (hu : m.names.Nodup) (h : (deleteVariable v).run m = .ok ⟨⟩ m')
    (ρ : PEnv) (σ : Assign) (a : ℚ) : m'.energy ρ (σ.subst v.label a) = m'.energy ρ σ := by
  rw [C11_delete_energy_partial hu h, C11_delete_energy_partial hu h]
  congr 1
  funext x
  simp only [Assign.subst]
  split <;> rfl

/-- Every interaction on `v` is marked removed, every other one is untouched, and the offset and the
variables are kept. -/
theorem C11_delete_rows_partial (hu : m.names.Nodup) (h : (deleteVariable v).run m = .ok ⟨⟩ m') :
    m'.offset = m.offset ∧ m'.vars = m.vars ∧ v.label ∈ m'.deleted ∧
    List.Forall₂ (fun r r' : Row => r'.name = r.name ∧ r'.inter = r.inter ∧
      (r.inter.key0 = v.label ∨ r.inter.key1 = some v.label → r'.removed = true) ∧
      (¬(r.inter.key0 = v.label ∨ r.inter.key1 = some v.label) → r' = r)) m.rows m'.rows := by
  obtain ⟨cs, rfl⟩ := deleteVariable_ok hu h
  refine ⟨rfl, rfl, by simp [mem_sadd], ?_⟩
  simp only
  rw [List.forall₂_map_right_iff]
  apply List.forall₂_same.mpr
  intro r _
  have ht : r.touches v.label = true ↔ (r.inter.key0 = v.label ∨ r.inter.key1 = some v.label) := by
    simp [Row.touches]
  by_cases hc : r.touches v.label = true
  · rw [if_pos hc]
    exact ⟨rfl, rfl, fun _ => rfl, fun hn => absurd (ht.mp hc) hn⟩
  · rw [if_neg hc]
    exact ⟨rfl, rfl, fun hh => absurd (ht.mpr hh) hc, fun _ => rfl⟩

/-- With two interactions of the same name, which a merge can produce, an interaction on the deleted
variable stays active. -/
theorem C11_delete_duplicate_refuted :
    let a := Ex.after (LModel.new .ising "101") (addInteraction 1 (.var Ex.x0) (.str "") (.num 1) (.num 1)
      .none .none)
    let b := Ex.after (LModel.new .ising "102") (do
      addInteraction 1 (.var Ex.x0) (.str "") (.num 1) (.num 1) .none .none
      addInteraction 1 (.var Ex.x1) (.str "x[0] (101)") (.num 1) (.num 1) .none .none)
    let m := Op.step ⟨0, fun _ => ""⟩ a (.merge (fun _ => 0) b)
    ((deleteVariable Ex.x1).run m).isOk = true ∧
      ((deleteVariable Ex.x1).run m).state.rows.map (fun r => (r.inter.key0, r.removed)) =
        [("x[0]", true), ("x[0]", false), ("x[1]", false)] := by
  decide

example : Ex.ising.names.Nodup ∧ ((deleteVariable Ex.x1).run Ex.ising).isOk = true := by decide

/-! ## C12: delete_variable and constraints -/

/-- A constraint from which `remove_variable(v)` succeeds: an N-hot or zero-or-one-hot constraint that
contains `v`. -/
inductive Constraint.Holds (v : PVar) : Constraint → Prop
  | nHot (l : String) (s : ℚ) (vs : List PVar) (n : Nat) (h : v ∈ vs) : Holds v (.nHot l s vs n)
  | zeroOrOneHot (l : String) (s : ℚ) (vs : List PVar) (h : v ∈ vs) : Holds v (.zeroOrOneHot l s vs)

theorem removeVariable_ok_iff {c : Sawatabi.Constraint} :
    (∃ c', c.removeVariable v = .ok c') ↔ Constraint.Holds v c := by
  constructor
  · rintro ⟨c', h⟩
    cases c with
    | nHot l s vs n =>
      simp only [Sawatabi.Constraint.removeVariable] at h
      split at h
      · exact .nHot _ _ _ _ (by assumption)
      · cases h
    | zeroOrOneHot l s vs =>
      simp only [Sawatabi.Constraint.removeVariable] at h
      split at h
      · exact .zeroOrOneHot _ _ _ (by assumption)
      · cases h
    | equality l s a b => cases h
  · intro h
    cases h with
    | nHot l s vs n h => exact ⟨_, if_pos h⟩
    | zeroOrOneHot l s vs h => exact ⟨_, if_pos h⟩

theorem constraintsWithout_ok_iff {d : List (String × Sawatabi.Constraint)} :
    (∃ d', constraintsWithout v d = .ok d') ↔ ∀ p ∈ d, Constraint.Holds v p.2 := by
  induction d with
  | nil => simp [constraintsWithout]
  | cons p d ih =>
    obtain ⟨l, c⟩ := p
    rw [List.forall_mem_cons, ← ih, ← removeVariable_ok_iff]
    simp only [constraintsWithout]
    cases c.removeVariable v with
    | error e => simp
    | ok c' =>
      cases constraintsWithout v d with
      | error e => simp
      | ok d' => simp

/-- Exactly when `delete_variable(v)` succeeds, on a model with a rectangular table, distinct
interaction names and distinct constraint labels: every constraint of the model is N-hot or
zero-or-one-hot and contains `v` (and no interaction on `v` has the empty name). So the property
fails for every model that carries an equality constraint or a constraint without `v`. -/
theorem C12_delete_iff (hm : m.Rect) (hu : m.names.Nodup) (hc : (dkeys m.constraints).Nodup) :
    (∃ m', (deleteVariable v).run m = .ok ⟨⟩ m') ↔
      (∀ p ∈ m.constraints, Constraint.Holds v p.2) ∧
      (∀ r ∈ m.rows, r.inter.key0 = v.label ∨ r.inter.key1 = some v.label → r.name ≠ "") := by
  have h := deleteVariable_run v m hm hc
  have hrows : (∀ r ∈ m.rows, r.inter.key0 = v.label ∨ r.inter.key1 = some v.label → r.name ≠ "") ↔
      ∀ n ∈ touching v.label m.rows, n ≠ "" := by
    simp only [touching, List.mem_map, List.mem_filter]
    constructor
    · rintro h n ⟨r, ⟨hr, ht⟩, rfl⟩
      exact h r hr (by simpa [Row.touches] using ht)
    · intro h r hr ht
      exact h _ ⟨r, ⟨hr, by simpa [Row.touches] using ht⟩, rfl⟩
  rw [hrows, ← constraintsWithout_ok_iff]
  cases hcw : constraintsWithout v m.constraints with
  | error e =>
    rw [hcw] at h
    obtain ⟨m', h⟩ := h
    rw [h]
    simp
  | ok cs =>
    rw [hcw] at h
    rw [h]
    constructor
    · rintro ⟨m', h⟩
      exact ⟨⟨cs, rfl⟩, removeLoop_ne h⟩
    · rintro ⟨_, hne⟩
      exact ⟨_, removeLoop_run _ _ hne (fun n hn => touching_sub n hn) hu⟩

/-- Without constraints, or when every constraint contains the variable, the deletion succeeds.
(`_partial`: the property claims it for all constraints.) -/
theorem C12_delete_succeeds_partial (hm : m.Rect) (hu : m.names.Nodup) (hne : "" ∉ m.names)
    (hc : (dkeys m.constraints).Nodup) (hall : ∀ p ∈ m.constraints, Constraint.Holds v p.2) :
    ∃ m', (deleteVariable v).run m = .ok ⟨⟩ m' :=
  (C12_delete_iff hm hu hc).mpr ⟨hall, fun r hr _ he => hne (he ▸ List.mem_map.mpr ⟨r, hr, rfl⟩)⟩

/-- A constraint that does not contain the variable makes `delete_variable` raise, after the variable
was recorded as deleted. -/
theorem C12_delete_refuted :
    let m := Ex.after Ex.qubo (addConstraint (.nHot "c" 1 [Ex.b1, Ex.b2] 1))
    (deleteVariable Ex.b0).run m = .error .valueError { m with deleted := ["x[0]"] } := by
  decide

/-- An equality constraint makes `delete_variable` raise AttributeError, even if it contains the
variable, after the variable was recorded as deleted and taken out of other constraints. -/
theorem C12_delete_equality_refuted :
    let m := Ex.after Ex.qubo (do
      addConstraint (.nHot "c" 1 [Ex.b0, Ex.b1, Ex.b2] 1)
      addConstraint (.equality "d" 1 [Ex.b0] [Ex.b1]))
    (deleteVariable Ex.b0).run m = .error .attributeError { m with
      deleted := ["x[0]"]
      constraints := [("c", .nHot "c" 1 [Ex.b1, Ex.b2] 1), ("d", .equality "d" 1 [Ex.b0] [Ex.b1])] } := by
  decide

example : let m := Ex.after Ex.qubo (addConstraint (.nHot "c" 1 [Ex.b0, Ex.b2] 1))
    m.Rect ∧ m.names.Nodup ∧ "" ∉ m.names ∧ (dkeys m.constraints).Nodup ∧
      ∀ p ∈ m.constraints, Constraint.Holds Ex.b0 p.2 := by
  refine ⟨⟨by decide, by decide, by decide, by decide⟩, by decide, by decide, by decide, ?_⟩
  intro p hp
  have : p = ("c", .nHot "c" 1 [Ex.b0, Ex.b2] 1) := List.mem_singleton.mp hp
  subst this
  exact .nHot _ _ _ _ (by decide)

/-! ## C13: fix_variable -/

/-- The values that may be fixed. -/
def Admissible (mt : MType) (a : ℚ) : Prop :=
  match mt with
  | .ising => a = 1 ∨ a = -1
  | .qubo => a = 1 ∨ a = 0

theorem checkFixValue_iff {mt : MType} {a q : ℚ} : checkFixValue mt (.num a) = .ok q ↔ Admissible mt a ∧ q = a := by
  cases mt <;> simp only [checkFixValue, Admissible] <;> split <;> simp_all [eq_comm]

/-- No logically removed interaction touches the variable. -/
def NoRemovedOn (m : LModel) (v : PVar) : Prop :=
  ∀ r ∈ m.rows, r.inter.key0 = v.label ∨ r.inter.key1 = some v.label → r.removed = false

/-- The selected part of the sum carries the whole effect of the substitution. -/
theorem energy_subst_touching (ρ : PEnv) (σ : Assign) (m : LModel) (l : String) (a : ℚ) :
    m.energy ρ (σ.subst l a) = m.energy ρ σ + ((m.rows.filter (·.touches l)).map (Row.term ρ σ)).sum
      - ((m.rows.filter (·.touches l)).map (Row.term ρ (σ.subst l a))).sum := by
  simp only [LModel.energy]
  induction m.rows with
  | nil => simp
  | cons r rows ih =>
    simp only [List.map_cons, List.sum_cons, List.filter_cons]
    by_cases h : r.touches l = true
    · simp only [h, if_true, List.map_cons, List.sum_cons]
      linarith
    · rw [term_subst_of_not_touches (by simpa using h)]
      simp only [h]
      simp only [Bool.false_eq_true, if_false]
      linarith

/-- What the removed interactions on the variable would contribute if they were active. -/
def revived (m : LModel) (v : PVar) (ρ : PEnv) (τ : Assign) : ℚ :=
  ((m.rows.filter fun r => r.removed &&
    (decide (r.inter.key0 = v.label) || decide (r.inter.key1 = some v.label))).map (Row.full ρ τ)).sum

theorem full_split (ρ : PEnv) (τ : Assign) (m : LModel) (v : PVar) :
    ((m.rows.filter (·.touches v.label)).map (Row.full ρ τ)).sum =
      ((m.rows.filter (·.touches v.label)).map (Row.term ρ τ)).sum + revived m v ρ τ := by
  unfold revived
  induction m.rows with
  | nil => simp
  | cons r rows ih =>
    simp only [List.filter_cons]
    change _ = _ + (List.map (Row.full ρ τ) (if (r.removed && r.touches v.label) = true then _ else _)).sum
    by_cases h : r.touches v.label = true
    · by_cases hr : r.removed = true
      · simp only [h, hr, if_true, Bool.and_self, List.map_cons, List.sum_cons]
        rw [ih]
        simp only [Row.term, hr, if_true]
        ring
      · simp only [h, hr, if_true, Bool.and_true, List.map_cons, List.sum_cons, Bool.false_eq_true, if_false]
        rw [ih]
        simp only [Row.term, Row.full, hr, Bool.false_eq_true, if_false]
        ring
    · simp only [h, Bool.and_false, Bool.false_eq_true, if_false]
      exact ih

theorem revived_zero (ρ : PEnv) (σ : Assign) (m : LModel) (v : PVar) : revived m v ρ (σ.subst v.label 0) = 0 := by
  unfold revived
  apply List.sum_eq_zero
  intro x hx
  obtain ⟨r, hr, rfl⟩ := List.mem_map.mp hx
  have ht : r.touches v.label = true := by
    have := (List.mem_filter.mp hr).2
    rw [Bool.and_eq_true] at this
    exact this.2
  have := term_subst_zero ρ σ { r with removed := false } v.label
  have ht' : ({ r with removed := false } : Row).touches v.label = true := ht
  rw [if_pos ht'] at this
  exact this

/-- The exact energy after a successful `fix_variable(v, a)`: that before with `v := a`, and the removed interactions on
`v` count again. -/
theorem C13_fix_exact (hu : m.names.Nodup) (ho : AllOrdered m.rows)
    {clk : Nat → ℚ} {a : ℚ} (h : (fixVariable clk v (.num a)).run m = .ok ⟨⟩ m') (ρ : PEnv) (σ : Assign) :
    m'.energy ρ σ = m.energy ρ (σ.subst v.label a) - revived m v ρ (σ.subst v.label a) := by
  unfold fixVariable at h
  py_simp at h
  cases hc : checkFixValue m.mtype (.num a) with
  | error e => rw [hc] at h; cases h
  | ok q =>
    rw [hc] at h
    obtain ⟨_, rfl⟩ := checkFixValue_iff.mp hc
    simp only [Py.run_liftE_ok] at h
    rw [selectByVariable_run] at h
    by_cases hb : (m.attrCols.any fun c => decide (c.2.length ≠ m.rows.length)) = true
    · rw [if_pos hb] at h
      cases h
    rw [if_neg hb] at h
    simp only at h
    have hen : ∀ τ, ({ m with fixed := sadd m.fixed v.label } : LModel).energy ρ τ = m.energy ρ τ :=
      fun _ => rfl
    rw [energy_subst_touching]
    by_cases he : (touching v.label m.rows).isEmpty = true
    · rw [if_pos he] at h
      cases h
      have : m.rows.filter (·.touches v.label) = [] := by
        simpa [touching] using he
      have hf := full_split ρ (σ.subst v.label q) m v
      rw [this] at hf ⊢
      simp only [List.map_nil, List.sum_nil, zero_add] at hf ⊢
      rw [hen, ← hf]
      ring
    · rw [if_neg he] at h
      by_cases hq : q = 0
      · subst hq
        rw [if_pos rfl] at h
        have hne := removeLoop_ne h
        rw [removeLoop_run _ { m with fixed := sadd m.fixed v.label } hne (fun n hn => touching_sub n hn) hu] at h
        cases h
        rw [← energy_subst_touching, revived_zero, sub_zero]
        simp only [LModel.energy]
        rw [rmNames_touching (l := v.label) hu]
        congr 2
        rw [List.map_map]
        apply List.map_congr_left
        intro r _
        simp only [Function.comp, term_subst_zero]
        split
        · simp [Row.term, rmRow]
        · rfl
      · rw [if_neg hq] at h
        have hsel : ∀ r ∈ m.rows.filter (·.touches v.label), r ∈ m.rows ∧
            r.touches v.label = true ∧ r.inter.Ordered := by
          intro r hmem
          rw [List.mem_filter] at hmem
          exact ⟨hmem.1, hmem.2, ho r hmem.1⟩
        have := (fixLoop_ok (m := { m with fixed := sadd m.fixed v.label }) (m.rows.filter (·.touches v.label)) 0 hu
          hsel ((List.filter_sublist.map _).nodup hu) h ρ σ).1
        rw [this, hen, full_split]
        ring

/-- After a successful `fix_variable(v, a)` the energy of every assignment is the energy before with
`v := a`. (`_partial`: it needs that no removed interaction touches `v`; see the refutation.) -/
theorem C13_fix_energy_partial (hu : m.names.Nodup) (ho : AllOrdered m.rows) (hr : NoRemovedOn m v)
    {clk : Nat → ℚ} {a : ℚ} (h : (fixVariable clk v (.num a)).run m = .ok ⟨⟩ m') (ρ : PEnv) (σ : Assign) :
    m'.energy ρ σ = m.energy ρ (σ.subst v.label a) := by
  rw [C13_fix_exact hu ho h]
  have : (m.rows.filter fun r => r.removed &&
      (decide (r.inter.key0 = v.label) || decide (r.inter.key1 = some v.label))) = [] := by
    rw [List.filter_eq_nil_iff]
    intro r hm hc
    rw [Bool.and_eq_true, Bool.or_eq_true, decide_eq_true_eq, decide_eq_true_eq] at hc
    rw [hr r hm hc.2] at hc
    exact absurd hc.1 (by decide)
  unfold revived
  rw [this]
  simp

/-- Fixing a binary variable to 0 needs nothing about removed interactions. -/
theorem C13_fix_zero (hu : m.names.Nodup) (ho : AllOrdered m.rows)
    {clk : Nat → ℚ} (h : (fixVariable clk v (.num 0)).run m = .ok ⟨⟩ m') (ρ : PEnv) (σ : Assign) :
    m'.energy ρ σ = m.energy ρ (σ.subst v.label 0) := by
  rw [C13_fix_exact hu ho h, revived_zero, sub_zero]

/-- Afterwards the energy does not depend on `v`, removed interactions or not. -/
theorem C13_fix_independent (hu : m.names.Nodup) (ho : AllOrdered m.rows)
    {clk : Nat → ℚ} {a : ℚ} (h : (fixVariable clk v (.num a)).run m = .ok ⟨⟩ m') (ρ : PEnv) (σ : Assign)
    (b : ℚ) : m'.energy ρ (σ.subst v.label b) = m'.energy ρ σ := by
  rw [C13_fix_exact hu ho h, C13_fix_exact hu ho h]
  have : (σ.subst v.label b).subst v.label a = σ.subst v.label a := by
    funext x
    simp only [Assign.subst]
    split <;> rfl
  rw [this]

/-- The same along histories: the hypotheses on the table hold in every state reached without merge. -/
theorem C13_fix_reachable_partial {env : Env} {mt : MType} {id : String}
    (hreach : Reach env (NameSafe env) (LModel.new mt id) m) (hr : NoRemovedOn m v)
    {clk : Nat → ℚ} {a : ℚ} (h : (fixVariable clk v (.num a)).run m = .ok ⟨⟩ m') (ρ : PEnv) (σ : Assign) :
    m'.energy ρ σ = m.energy ρ (σ.subst v.label a) := by
  refine C13_fix_energy_partial (C01_names_unique_partial hreach) ?_ hr h ρ σ
  apply reach_ordered (env := env) (mt := mt) (id := id)
  clear hr h
  induction hreach with
  | start => exact .start
  | step m op _ hp ih =>
    refine .step m op ih ?_
    cases op <;> first | exact trivial | exact hp.elim

/-- A removed interaction comes back to life: fixing `x[1]` to 1 with the removed interaction `gone`
(coefficient 5 on `x[1]`) changes the energy by −5. -/
theorem C13_fix_removed_refuted :
    let m := ((fixVariable (fun _ => 0) Ex.x1 (.num 1)).run Ex.ising).state
    ((fixVariable (fun _ => 0) Ex.x1 (.num 1)).run Ex.ising).isOk = true ∧
    m.energy (fun _ => 0) (fun _ => 0) = -5 ∧
      Ex.ising.energy (fun _ => 0) (Assign.subst (fun _ => 0) "x[1]" 1) = 0 := by
  decide +kernel

example : Ex.ising.names.Nodup ∧ NoRemovedOn Ex.ising Ex.x0 ∧
    ((fixVariable (fun _ => 0) Ex.x0 (.num (-1))).run Ex.ising).isOk = true := by
  refine ⟨by decide, ?_, by decide⟩
  unfold NoRemovedOn
  decide

/-- The hypotheses of `C13_fix_exact` hold for `x[1]` too, on which a removed interaction of coefficient 5 rests:
the energy after fixing to 1 differs by exactly 5. -/
example : Ex.ising.names.Nodup ∧ AllOrdered Ex.ising.rows ∧
    ((fixVariable (fun _ => 0) Ex.x1 (.num 1)).run Ex.ising).isOk = true ∧
    revived Ex.ising Ex.x1 (fun _ => 0) (Assign.subst (fun _ => 0) "x[1]" 1) = 5 := by
  refine ⟨by decide, ?_, by decide, by decide +kernel⟩
  exact orderedDec _ (by decide +kernel)

example : Ex.qubo.names.Nodup ∧ AllOrdered Ex.qubo.rows ∧
    ((fixVariable (fun _ => 0) Ex.b0 (.num 0)).run Ex.qubo).isOk = true := by
  refine ⟨by decide, ?_, by decide⟩
  exact orderedDec _ (by decide +kernel)

/-! ## C15: admissible values -/

/-- A value that is not admissible is rejected with ValueError and nothing changes. -/
theorem C15_fix_rejects {clk : Nat → ℚ} {a : PyNum} (h : ∀ q, a = .num q → ¬Admissible m.mtype q) :
    (fixVariable clk v a).run m = .error .valueError m := by
  unfold fixVariable
  py_simp
  have : checkFixValue m.mtype a = .error .valueError := by
    cases a with
    | other => rfl
    | num q =>
      have := h q rfl
      revert this
      cases m.mtype <;> simp only [checkFixValue, Admissible] <;> intro hq <;> rw [if_neg hq]
  rw [this]
  rfl

/-- A successful call had an admissible value. -/
theorem C15_fix_ok_admissible {clk : Nat → ℚ} {a : PyNum} (h : (fixVariable clk v a).run m = .ok ⟨⟩ m') :
    ∃ q, a = .num q ∧ Admissible m.mtype q := by
  by_contra hc
  have : (fixVariable clk v a).run m = .error .valueError m := by
    apply C15_fix_rejects
    intro q hq ha
    exact hc ⟨q, hq, ha⟩
  rw [this] at h
  cases h

/-- The names of the interactions that `fix_variable(v)` creates: for every 2-body interaction on `v`,
named `n`, with other variable `w`, the name `w (before fixed: n)`. -/
def replacementNames (m : LModel) (v : PVar) : List String :=
  m.rows.filterMap fun r => match r.inter with
    | .lin _ => none
    | .quad a b =>
      if a.label = v.label then some (b.label ++ " (before fixed: " ++ r.name ++ ")")
      else if b.label = v.label then some (a.label ++ " (before fixed: " ++ r.name ++ ")")
      else none

theorem replacementNames_eq (m : LModel) (v : PVar) :
    (m.rows.filter (·.touches v.label)).filterMap (newName v) = replacementNames m v := by
  unfold replacementNames
  induction m.rows with
  | nil => rfl
  | cons r rows ih =>
    rw [List.filter_cons, List.filterMap_cons]
    cases hi : r.inter with
    | lin w =>
      split
      · rw [List.filterMap_cons]
        simp [newName, hi, fixKeep, ih]
      · simp [ih]
    | quad a b =>
      by_cases h1 : a.label = v.label
      · have ht : r.touches v.label = true := by simp [Row.touches, hi, Inter.key0, h1]
        rw [if_pos ht, List.filterMap_cons]
        simp [newName, hi, fixKeep, h1, fixName, ih]
      · by_cases h2 : b.label = v.label
        · have ht : r.touches v.label = true := by simp [Row.touches, hi, Inter.key0, Inter.key1, h2]
          rw [if_pos ht, List.filterMap_cons]
          simp [newName, hi, fixKeep, h1, h2, fixName, ih]
        · have ht : ¬r.touches v.label = true := by simp [Row.touches, hi, Inter.key0, Inter.key1, h1, h2]
          rw [if_neg ht]
          simp [h1, h2, ih]

/-- An admissible value is accepted, on a model with a rectangular table and distinct non-empty names, if
the names of the replacements are free. (`_partial`: they are not free when the variable has been fixed
before, see below.) -/
theorem C15_fix_accepts_partial (hm : m.Rect) (hne : "" ∉ m.names)
    (hu : (m.names ++ replacementNames m v).Nodup) {clk : Nat → ℚ} {a : ℚ} (ha : Admissible m.mtype a) :
    ∃ m', (fixVariable clk v (.num a)).run m = .ok ⟨⟩ m' := by
  unfold fixVariable
  py_simp
  rw [checkFixValue_iff.mpr ⟨ha, rfl⟩]
  simp only [Py.run_liftE_ok]
  rw [selectByVariable_rect v (m := { m with fixed := sadd m.fixed v.label })
    (rect_same (m := m) hm rfl rfl rfl rfl)]
  simp only
  have hsub : ∀ n ∈ touching v.label m.rows, n ≠ "" := fun n hn he => hne (he ▸ touching_sub n hn)
  split
  · exact ⟨_, rfl⟩
  split
  · exact ⟨_, removeLoop_run _ { m with fixed := sadd m.fixed v.label } hsub (fun n hn => touching_sub n hn)
      (List.nodup_append.mp hu).1⟩
  · refine fixLoop_succeeds (m := { m with fixed := sadd m.fixed v.label })
      (m.rows.filter (·.touches v.label)) 0 (rect_same (m := m) hm rfl rfl rfl rfl) ?_
      ((List.filter_sublist.map _).nodup (List.nodup_append.mp hu).1) ?_
    · intro r hr
      have hr' := List.mem_filter.mp hr
      exact ⟨hr'.1, hr'.2, hsub _ (List.mem_map.mpr ⟨r, hr, rfl⟩)⟩
    · rw [replacementNames_eq]
      exact hu

example : Ex.ising.Rect ∧ "" ∉ Ex.ising.names ∧
    (Ex.ising.names ++ replacementNames Ex.ising Ex.x0).Nodup ∧
    replacementNames Ex.ising Ex.x0 = ["x[1] (before fixed: x[0]*x[1])"] :=
  ⟨⟨by decide, by decide, by decide, by decide⟩, by decide, by decide, by decide⟩

/-- The exact acceptance: on a model with a rectangular table and distinct non-empty names, an admissible value is
accepted if and only if it is 0 or the names of the replacements are free and distinct. -/
theorem C15_fix_iff (hm : m.Rect) (hu : m.names.Nodup) (hne : "" ∉ m.names) (ho : AllOrdered m.rows)
    {clk : Nat → ℚ} {a : ℚ} :
    (∃ m', (fixVariable clk v (.num a)).run m = .ok ⟨⟩ m') ↔
      Admissible m.mtype a ∧ (a = 0 ∨ (m.names ++ replacementNames m v).Nodup) := by
  constructor
  · rintro ⟨m', h⟩
    obtain ⟨q, hq, ha⟩ := C15_fix_ok_admissible h
    cases hq
    refine ⟨ha, ?_⟩
    by_cases hz : a = 0
    · exact .inl hz
    right
    unfold fixVariable at h
    py_simp at h
    rw [checkFixValue_iff.mpr ⟨ha, rfl⟩] at h
    simp only [Py.run_liftE_ok] at h
    rw [selectByVariable_rect v (m := { m with fixed := sadd m.fixed v.label })
      (rect_same (m := m) hm rfl rfl rfl rfl)] at h
    simp only at h
    by_cases he : (touching v.label m.rows).isEmpty = true
    · have : m.rows.filter (·.touches v.label) = [] := by
        simpa [touching] using he
      rw [← replacementNames_eq, this]
      simpa using hu
    rw [if_neg he, if_neg hz] at h
    have hsel : ∀ r ∈ m.rows.filter (·.touches v.label), r ∈ m.rows ∧
        r.touches v.label = true ∧ r.inter.Ordered := by
      intro r hmem
      rw [List.mem_filter] at hmem
      exact ⟨hmem.1, hmem.2, ho r hmem.1⟩
    obtain ⟨_, hn, hnd⟩ := fixLoop_ok (m := { m with fixed := sadd m.fixed v.label })
      (m.rows.filter (·.touches v.label)) 0 hu hsel ((List.filter_sublist.map _).nodup hu) h (fun _ => 0) (fun _ => 0)
    rw [hn, replacementNames_eq] at hnd
    exact hnd
  · rintro ⟨ha, hz | hn⟩
    · subst hz
      unfold fixVariable
      py_simp
      rw [checkFixValue_iff.mpr ⟨ha, rfl⟩]
      simp only [Py.run_liftE_ok]
      rw [selectByVariable_rect v (m := { m with fixed := sadd m.fixed v.label })
        (rect_same (m := m) hm rfl rfl rfl rfl)]
      simp only
      have hsub : ∀ n ∈ touching v.label m.rows, n ≠ "" := fun n hn he => hne (he ▸ touching_sub n hn)
      split
      · exact ⟨_, rfl⟩
      rw [if_pos trivial]
      exact ⟨_, removeLoop_run _ { m with fixed := sadd m.fixed v.label } hsub (fun n hn => touching_sub n hn) hu⟩
    · exact C15_fix_accepts_partial hm hne hn ha

example : Ex.ising.Rect ∧ Ex.ising.names.Nodup ∧ "" ∉ Ex.ising.names ∧ AllOrdered Ex.ising.rows ∧
    Admissible Ex.ising.mtype (-1) :=
  ⟨⟨by decide, by decide, by decide, by decide⟩, by decide, by decide, orderedDec _ (by decide +kernel), .inr rfl⟩

/-- Fixing the same variable a second time raises ValueError although the value is admissible: the
removed 2-body interaction is processed again and its replacement's name is taken. -/
theorem C15_fix_again_refuted :
    let m := ((fixVariable (fun _ => 0) Ex.x0 (.num 1)).run Ex.ising).state
    ((fixVariable (fun _ => 0) Ex.x0 (.num 1)).run Ex.ising).isOk = true ∧ Admissible m.mtype 1 ∧
      ∃ m', (fixVariable (fun _ => 0) Ex.x0 (.num 1)).run m = .error .valueError m' ∧ m' ≠ m := by
  refine ⟨by decide, Or.inl rfl, _, rfl, by decide +kernel⟩

example : ¬Admissible Ex.ising.mtype 0 ∧ Admissible Ex.qubo.mtype 0 :=
  ⟨by rintro (h | h) <;> revert h <;> decide, Or.inr rfl⟩

end Sawatabi.Props
