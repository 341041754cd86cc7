import Verif.Props.EndToEnd
import Verif.Props.Merge
import Verif.Props.PhysicalSuccess

/-!
# Histories that keep the table in order

The theorems on deletion, fixing and conversion need distinct interaction names and a rectangular table. Here both are
established for every model made by public calls, returning or raising, in which updates name registered attribute keys, no
merge makes names equal and no `to_physical` raises on a model with constraints, and the theorems are stated for those.
-/

namespace Sawatabi.Props

variable {m m' m'' : LModel} {env env' : Env} {clk clk' : Nat → ℚ} {clks clks' : Nat → Nat → ℚ} {ids ids' : Nat → String}
  {ph : List (String × ℚ)} {p : Physical} {v : PVar}

/-- The merge of models with names `A` and `B` and ids `i` and `j` makes no names equal: if a name is in both then the ids
differ, and a name that looks like it with one of the ids added is in both or in none. -/
def ApartNames (A B : List String) (i j : String) : Prop :=
  ∀ n ∈ A, n ∈ B → i ≠ j ∧ ∀ id ∈ [i, j], (n ++ " (" ++ id ++ ")" ∈ A ↔ n ++ " (" ++ id ++ ")" ∈ B)

/-- Calls that keep names distinct and the table rectangular. The argument of a merge counts as converted to the type of the
model. -/
def Tidy (env : Env) (m : LModel) : Op → Prop
  | .update _ _ _ _ _ attributes _ => ∀ kv ∈ attributes.entries, "attributes." ++ kv.1 ∈ m.attrs
  | .merge clk o => '(' ∉ m.id.toList ∧ '(' ∉ o.id.toList ∧
      ApartNames m.names (if m.mtype = o.mtype then o else ((convertMtype env clk).run o).state).names m.id o.id
  | .toPhysical clks ids ph => m.constraints = [] ∨ ((toPhysical env clks ids ph).run m).isOk = true
  | _ => True

theorem tidy_known (m : LModel) (op : Op) (h : Tidy env m op) : KnownKeys m op := by
  cases op <;> first | exact h | trivial

/-- The names after merging models of the same type, whether that returns or raises. -/
theorem mergeSame_names (a b : LModel) (hl : a.length = a.rows.length) : let a' := (mergeSame.run (a, b)).state.1
    a'.names = a.names ∨ a'.names =
      a.names.map (fun n => if n ∈ a.names ∧ n ∈ b.names then suffixed n a.id else n) ++
      b.names.map (fun n => if n ∈ a.names ∧ n ∈ b.names then suffixed n b.id else n) := by
  rw [mergeSame_run]
  split
  · exact .inl rfl
  · have hv := mergeVars_rel b.vars a
    cases hr : (b.vars.forM mergeVar).run a with
    | error e a₁ =>
      rw [hr] at hv
      obtain ⟨w, rfl⟩ := hv
      exact .inl rfl
    | ok u a₁ =>
      rw [hr] at hv
      obtain ⟨w, rfl⟩ := hv
      simp only [Res.state]
      cases hc : (mergedAttrs { a with vars := w } b).mapM (mergedCol { a with vars := w } b) with
      | error e => exact .inl rfl
      | ok cols =>
        refine .inr ?_
        simp only
        rw [← mergedRows_names hl]
        by_cases hx : constraintClash { a with vars := w } b = true
        · rw [if_pos hx]; rfl
        · rw [if_neg hx]; rfl

theorem convertMtype_names (env : Env) (clk : Nat → ℚ) (h : m.names.Nodup) :
    (((convertMtype env clk).run m).state).names.Nodup ∧ (((convertMtype env clk).run m).state).id = m.id := by
  constructor
  · have : onRows (fun l => (l.map (·.name)).Nodup) ((convertMtype env clk).run m).state := by
      rw [convertMtype_run]
      cases m.mtype with
      | qubo => exact toIsing_rows nodup_closed env clk m h
      | ising => exact toQubo_rows nodup_closed env clk m h
    exact this
  · have key : ∀ mt f o f₂ g₂ o₂, ((genConv env mt f o f₂ g₂ o₂ clk).run m).state.id = m.id := by
      intro mt f o f₂ g₂ o₂
      refine genConv_frame (I := fun s : LModel => s.id = m.id) (fun _ _ _ _ _ h => h) (fun _ _ h => h)
        env mt f o f₂ g₂ o₂ clk m ?_
      refine Py.Preserves.forM (I := fun s : LModel => s.id = m.id) (fun n _ s hs => ?_) _ rfl
      rw [retypeVar_run]
      repeat' split
      all_goals exact hs
    rw [convertMtype_run]
    cases hbm : m.mtype with
    | qubo => simp only [toIsing_run, hbm]; exact key _ _ _ _ _ _
    | ising => simp only [toQubo_run, hbm]; exact key _ _ _ _ _ _

/-- A merge that makes no names equal, whether it returns or raises. -/
theorem merge_names {o : LModel} (hm : m.names.Nodup) (ho : o.names.Nodup) (hl : m.length = m.rows.length)
    (h : Tidy env m (.merge clk o)) : (Op.step env m (.merge clk o)).names.Nodup := by
  obtain ⟨h1, h2, h3⟩ := h
  have key : ∀ b : LModel, b.names.Nodup → b.id = o.id → ApartNames m.names b.names m.id o.id →
      ((mergeSame.run (m, b)).state.1).names.Nodup := by
    intro b hb hi hap
    rcases mergeSame_names m b hl with e | e
    · rw [e]; exact hm
    · rw [e, merged_nodup hm hb h1 (hi ▸ h2), hi]
      exact hap
  have hfst : (Op.step env m (.merge clk o)) = ((merge env clk).run (m, o)).state.1 := by
    simp only [Op.step, Op.call, withSnd]
    cases (merge env clk).run (m, o) <;> rfl
  rw [hfst, merge_run]
  by_cases ht : m.mtype = o.mtype
  · rw [if_pos ht] at h3 ⊢
    exact key o ho rfl h3
  · rw [if_neg ht] at h3 ⊢
    obtain ⟨hn, hi⟩ := convertMtype_names env clk ho
    cases hr : (convertMtype env clk).run o with
    | error e b => exact hm
    | ok u b =>
      rw [hr] at hn hi h3
      exact key b hn hi h3

/-- **C01** with merges. -/
theorem C01_made_partial (h : Made env (Tidy env) m) : m.names.Nodup := by
  induction h with
  | new mt id => exact List.nodup_nil
  | step m op hm hp ho ih iho =>
    by_cases h1 : ∃ clk o, op = .merge clk o
    · obtain ⟨clk, o, rfl⟩ := h1
      exact merge_names ih (iho _ _ rfl) (made_rect tidy_known hm).len hp
    · refine step_names ?_ ih
      cases op <;> first | exact hp | trivial | exact absurd ⟨_, _, rfl⟩ h1

/-! ## The theorems for such models -/

theorem tidy_rect (hm : Made env (Tidy env) m) : m.Rect := made_rect tidy_known hm

/-- **C11**. -/
theorem C11_made_partial (hm : Made env (Tidy env) m) (h : (deleteVariable v).run m = .ok ⟨⟩ m') (ρ : PEnv) (σ : Assign) :
    m'.energy ρ σ = m.energy ρ (σ.subst v.label 0) ∧ ∀ a, m'.energy ρ (σ.subst v.label a) = m'.energy ρ σ :=
  ⟨C11_delete_energy_partial (C01_made_partial hm) h ρ σ, C11_delete_independent_partial (C01_made_partial hm) h ρ σ⟩

/-- **C13**: the energy after fixing a variable, up to the removed interactions on it that come back. -/
theorem C13_made (hm : Made env (Tidy env) m) {a : ℚ} (h : (fixVariable clk v (.num a)).run m = .ok ⟨⟩ m') (ρ : PEnv)
    (σ : Assign) : m'.energy ρ σ = m.energy ρ (σ.subst v.label a) - revived m v ρ (σ.subst v.label a) ∧
      ∀ b, m'.energy ρ (σ.subst v.label b) = m'.energy ρ σ :=
  ⟨C13_fix_exact (C01_made_partial hm) (made_ordered hm) h ρ σ,
   C13_fix_independent (C01_made_partial hm) (made_ordered hm) h ρ σ⟩

/-- **C14**. -/
theorem C14_made_partial {a : PyNum} (hm : Made env (Tidy env) m) (h : (fixVariable clk v a).run m = .ok ⟨⟩ m') :
    (∀ r ∈ m'.rows, r.inter.mentions v.label → r.removed = true) ∧
    ((∀ c ∈ m'.constraints, ∀ vs ∈ c.2.sets, ∀ w ∈ vs, w.label ≠ v.label) →
      (toPhysical env' clks ids ph).run m' = .ok p m'' → v.label ∉ p.varsSet) :=
  C14_fixed_gone_partial (C01_made_partial hm) (made_ordered hm) h

/-- **C20**. -/
theorem C20_made_partial (hm : Made env (Tidy env) m) (hq : m.mtype = .qubo) (hd : ∀ c ∈ m.constraints, c.2.Distinct)
    (h : (toPhysical env' clks ids ph).run m = .ok p m') {ρ : PEnv} (hρ : ρ.Extends ph) {σ : Assign} (hb : σ.IsBinary) :
    p.energy σ = m.energy ρ σ + (m.constraints.map fun c => c.2.penalty σ).sum :=
  C20_qubo_energy_partial (tidy_rect hm) hq hd h hρ hb

/-- **C20**, **C21**: when the conversion succeeds. -/
theorem C21_made_iff (hm : Made env (Tidy env) m) (hc : m.NoClash) (hr : ∀ c ∈ m.constraints, c.2.Regular)
    (hs : ∀ c ∈ m.constraints, c.2.SpaceFree) :
    (∃ p m', (toPhysical env' clks ids ph).run m = .ok p m') ↔ (∀ c ∈ m.constraints, c.2.Apart) ∧ m.Filled ph :=
  C21_success_iff (tidy_rect hm) (C01_made_partial hm) hc hr hs

/-- **C21**: the energy up to the exact constant. -/
theorem C21_made_partial (hm : Made env (Tidy env) m) (hq : m.mtype = .ising) (hd : ∀ c ∈ m.constraints, c.2.Distinct)
    (h : (toPhysical env' clks ids ph).run m = .ok p m') {ρ : PEnv} (hρ : ρ.Extends ph) {s : Assign} (hs : s.IsSpin) :
    p.energy s = m.energy ρ s + (m.constraints.map fun c => c.2.penalty s.toBinary + c.2.drift).sum :=
  C21_drift_partial (tidy_rect hm) hq hd h hρ hs

/-- **C22**: the model is only pruned, and the next conversion gives the same. -/
theorem C22_made_partial (hm : Made env (Tidy env) m) (hc : m.NoClash)
    (hs : m.mtype = .ising → ∀ c ∈ m.constraints, c.2.SpaceFree) (h : (toPhysical env clks ids ph).run m = .ok p m') :
    m' = m.cleaned ∧ (toPhysical env' clks' ids' ph).run m' = .ok p m' :=
  ⟨C22_only_prunes_partial (tidy_rect hm) (C01_made_partial hm) hc h,
   C22_again_succeeds_partial (tidy_rect hm) (C01_made_partial hm) hc hs h⟩

/-- **C23**. -/
theorem C23_made_partial (hm : Made env (Tidy env) m) (h0 : m.constraints = []) {e : Err}
    (h : (toPhysical env' clks ids ph).run m = .error e m') : m' = m :=
  C23_unchanged_partial (tidy_rect hm) (C01_made_partial hm) h0 h

/-- **C36**, from QUBO. -/
theorem C36_made_qubo_partial (hm : Made env (Tidy env) m) (hq : m.mtype = .qubo)
    (h : (toIsing env' clk).run m = .ok ⟨⟩ m') (h' : (toQubo env' clk').run m' = .ok ⟨⟩ m'') (ρ : PEnv) (σ : Assign) :
    m''.energy ρ σ = m.energy ρ σ :=
  C36_qubo_roundtrip_partial (C01_made_partial hm) hq h h' ρ σ

/-- **C36**, from Ising. -/
theorem C36_made_ising_partial (hm : Made env (Tidy env) m) (hq : m.mtype = .ising)
    (h : (toQubo env' clk).run m = .ok ⟨⟩ m') (h' : (toIsing env' clk').run m' = .ok ⟨⟩ m'') (ρ : PEnv) (σ : Assign) :
    m''.energy ρ σ = m.energy ρ σ :=
  C36_ising_roundtrip_partial (C01_made_partial hm) hq h h' ρ σ

/-! A history with a merge in which both models use a name. -/

def tidyOps : List Op :=
  [.variables "x" [2], .add 1 (.var Ex.x0) (.str "") (.num 1) (.num 1) .none .none,
   .add 1 (.tuple [some Ex.x0, some Ex.x1]) (.str "") (.num 2) (.num 1) .none .none]

def tidyEnv : Env := ⟨0, fun _ => ""⟩

def tidyOne (id : String) : LModel := tidyOps.foldl (Op.step tidyEnv) (LModel.new .ising id)

theorem tidyOne_made (id : String) : Made tidyEnv (Tidy tidyEnv) (tidyOne id) := by
  have : ∀ ops : List Op, (∀ op ∈ ops, ∀ m, Tidy tidyEnv m op ∧ ∀ clk o, op ≠ .merge clk o) → ∀ m,
      Made tidyEnv (Tidy tidyEnv) m → Made tidyEnv (Tidy tidyEnv) (ops.foldl (Op.step tidyEnv) m) := by
    intro ops
    induction ops with
    | nil => intro _ m h; exact h
    | cons op ops ih =>
      intro hops m h
      obtain ⟨h1, h2⟩ := hops op List.mem_cons_self m
      exact ih (fun o ho => hops o (List.mem_cons_of_mem _ ho)) _ (.step m op h h1 fun clk o e => absurd e (h2 clk o))
  refine this _ (fun op hop m => ?_) _ (.new _ _)
  simp only [tidyOps, List.mem_cons, List.not_mem_nil, or_false] at hop
  rcases hop with rfl | rfl | rfl <;> exact ⟨trivial, fun _ _ h => by cases h⟩

def tidyMerged : LModel := Op.step tidyEnv (tidyOne "101") (.merge (fun _ => 0) (tidyOne "102"))

example : Made tidyEnv (Tidy tidyEnv) tidyMerged ∧ tidyMerged.names =
    ["x[0] (101)", "x[0]*x[1] (101)", "x[0] (102)", "x[0]*x[1] (102)"] ∧
    ((deleteVariable Ex.x0).run tidyMerged).isOk = true := by
  refine ⟨.step _ _ (tidyOne_made _) ⟨by decide, by decide, ?_⟩ fun _ _ h => by cases h; exact tidyOne_made _,
    by decide +kernel, by decide +kernel⟩
  unfold ApartNames
  decide +kernel

end Sawatabi.Props
