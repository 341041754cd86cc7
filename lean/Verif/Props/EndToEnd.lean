import Verif.Props.SolverMade
import Verif.Props.PhysicalEnergy

/-!
# From public calls to samples (C82)

The models are those that come out of any public calls, successful or raising, in which updates name only registered
attribute keys (`KnownKeys`, see C08 for what happens otherwise). Merges of such models are allowed.
-/

namespace Sawatabi.Props

variable {m m' : LModel} {env : Env} {clks : Nat → Nat → ℚ} {ids : Nat → String} {ph : List (String × ℚ)} {p : Physical}
  {γ : Type} {rng : Rng γ} {exp : ℚ → Except Err ℚ} {o : Options}
  {seeded : Nat → γ} {fresh : γ} {numReads : Int} {seed : Option Int} {init init' : Option (List Sample)}
  {l : List Annealed} {log log' : List Bqm} {res : List (Sample × ℚ)}

/-- All tables are rectangular. -/
theorem made_rect {P : LModel → Op → Prop} (hP : ∀ m op, P m op → KnownKeys m op) (h : Made env P m) : m.Rect := by
  induction h with
  | new mt id => exact new_rect mt id
  | step m op _ hp _ ih iho =>
    apply step_rect op ih
    have := hP m op hp
    cases op <;> first | exact iho _ _ rfl | exact this | trivial

theorem made_mono {P Q : LModel → Op → Prop} (hPQ : ∀ m op, P m op → Q m op) (h : Made env P m) : Made env Q m := by
  induction h with
  | new mt id => exact .new mt id
  | step m op _ hp _ ih iho => exact .step m op ih (hPQ m op hp) iho

theorem made_fromCalls (hm : Made env KnownKeys m) (hph : (ph.map (·.1)).Nodup)
    (h : (toPhysical env clks ids ph).run m = .ok p m') : p.FromCalls :=
  ⟨env, clks, ids, ph, m, m', made_mono (fun _ _ _ => trivial) hm, hph, h⟩

/-- **C26** for all models made by public calls. -/
theorem C26_made (hm : Made env AnyCall m) (hph : (ph.map (·.1)).Nodup) (h : (toPhysical env clks ids ph).run m = .ok p m') :
    (p.linear.map (·.1)).Nodup ∧ (p.quad.map (·.1)).Nodup ∧ (∀ t ∈ p.quad, t.1.1 < t.1.2) ∧
    (∀ t ∈ p.linear, t.2 ≠ 0) ∧ ∀ t ∈ p.quad, t.2 ≠ 0 :=
  C26_no_duplicates (made_ordered hm) hph h

/-- **C26** for all models without constraints made by public calls whose updates name registered attribute keys. -/
theorem C26_made_sums_partial (hm : Made env KnownKeys m) (hc : m.constraints = [])
    (h : (toPhysical env clks ids ph).run m = .ok p m') {ρ : PEnv} (hρ : ρ.Extends ph) :
    (∀ l q, (l, q) ∈ p.linear ↔ q = linTotal ρ m.rows l ∧ q ≠ 0) ∧
    (∀ a b q, a < b → (((a, b), q) ∈ p.quad ↔ q = pairTotal ρ m.rows a b ∧ q ≠ 0)) :=
  C26_sums_partial (made_rect (fun _ _ h => h) hm) (made_ordered (made_mono (fun _ _ _ => trivial) hm)) hc h hρ

/-- **C19** for all models without constraints made by public calls whose updates name registered attribute keys. -/
theorem C19_made_partial (hm : Made env KnownKeys m) (hc : m.constraints = [])
    (h : (toPhysical env clks ids ph).run m = .ok p m') {ρ : PEnv} (hρ : ρ.Extends ph) (σ : Assign) :
    p.energy σ = m.energy ρ σ :=
  C19_energy_partial (made_rect (fun _ _ h => h) hm) hc h hρ σ

/-- The energy a model with constraints should have: the logical energy plus the penalties. -/
def objective (m : LModel) (ρ : PEnv) (σ : Assign) : ℚ := m.energy ρ σ + (m.constraints.map fun c => c.2.penalty σ).sum

theorem objective_nil (hc : m.constraints = []) (ρ : PEnv) (σ : Assign) : objective m ρ σ = m.energy ρ σ := by
  simp [objective, hc]

/-- Models whose physical energy is their objective at the assignments of their domain: those without constraints, and
QUBO models with constraints over sets of variables. -/
def Exact (m : LModel) : Prop := m.constraints = [] ∨ (m.mtype = .qubo ∧ ∀ c ∈ m.constraints, c.2.Distinct)

theorem physical_mtype (h : (toPhysical env clks ids ph).run m = .ok p m') : p.mtype = m.mtype := by
  obtain ⟨bs, m₁, g, off, m₂, h⟩ := toPhysical_ok h
  rw [h.result]
  simp only [buildPhysical]
  rw [h.absorbed.same]

/-- The energy of the physical model at an integer assignment whose used variables are in the domain. -/
theorem energy_objective (hm : Made env KnownKeys m) (hx : Exact m)
    (h : (toPhysical env clks ids ph).run m = .ok p m') {ρ : PEnv} (hρ : ρ.Extends ph) (f : String → ℤ)
    (hf : ∀ v, m.mtype.vtype.Domain (f v)) :
    p.energy (fun v => (f v : ℚ)) = objective m ρ fun v => (f v : ℚ) := by
  have hr := made_rect (fun _ _ h => h) hm
  rcases hx with hc | ⟨hq, hd⟩
  · rw [objective_nil hc]
    exact C19_energy_partial hr hc h hρ _
  · refine C20_qubo_energy_partial hr hq hd h hρ fun v => ?_
    have := hf v
    rw [hq] at this
    rcases this with h | h <;> simp [h]

/-- A sample completed to all labels by `f`. -/
def complete (f : String → ℤ) (s : Sample) : String → ℤ := fun v => (dget s v).getD (f v)

theorem energy_complete (f : String → ℤ) {s : Sample} (hs : ∀ v, p.Uses v → v ∈ dkeys s) :
    p.energy s.assign = p.energy fun v => ((complete f s v : ℤ) : ℚ) := by
  have hcongr : ∀ v, p.Uses v → s.assign v = ((complete f s v : ℤ) : ℚ) := by
    intro v hv
    obtain ⟨a, ha⟩ := (dget_isSome_iff s v).mpr (hs v hv)
    simp only [Sample.assign, complete, ha, Option.getD_some]
  unfold Physical.energy
  congr 1
  · congr 2
    apply List.map_congr_left
    intro kv hkv
    rw [hcongr kv.1 (.inl (List.mem_map.mpr ⟨_, hkv, rfl⟩))]
  · congr 1
    apply List.map_congr_left
    intro kv hkv
    rw [hcongr kv.1.1 (.inr ⟨kv.1, List.mem_map.mpr ⟨_, hkv, rfl⟩, .inl rfl⟩),
      hcongr kv.1.2 (.inr ⟨kv.1, List.mem_map.mpr ⟨_, hkv, rfl⟩, .inr rfl⟩)]

theorem complete_domain {s : Sample} {vt : VType} (h : ∀ kv ∈ s, vt.Domain kv.2) {f : String → ℤ}
    (hf : ∀ v, vt.Domain (f v)) (v : String) : vt.Domain (complete f s v) := by
  unfold complete
  cases hd : dget s v with
  | none => exact hf v
  | some a => exact h _ (dget_mem hd)

/-- The simulated annealing on the physical model reports with each sample the objective of the logical model at the
sample, whatever values the variables get that the sample lacks. -/
theorem C82_annealing (hm : Made env KnownKeys m) (hx : Exact m) (hph : (ph.map (·.1)).Nodup)
    (h : (toPhysical env clks ids ph).run m = .ok p m') {ρ : PEnv} (hρ : ρ.Extends ph) (hr : rng.Ok)
    (hst : StatesOk p p.varsSet init) (hs : (solve rng seeded fresh exp p numReads o seed).run init = .ok l init')
    {f : String → ℤ} (hf : ∀ v, m.mtype.vtype.Domain (f v)) :
    ∀ a ∈ l, a.energy = objective m ρ fun v => (complete f a.sample v : ℚ) := by
  have hp := made_fromCalls hm hph h
  intro a ha
  obtain ⟨_, e2, e3⟩ := C46_samples hp hr hst hs a ha
  rw [C43_reported_energy hp hr hst hs a ha, energy_complete f fun v hv => (e2 v).mpr hv]
  apply energy_objective hm hx h hρ
  rw [← physical_mtype h] at hf ⊢
  exact complete_domain e3 hf

/-- The exact solver finds an assignment that minimises the objective of the logical model, and reports that value. -/
theorem C82_exact (hm : Made env KnownKeys m) (hx : Exact m) (hph : (ph.map (·.1)).Nodup)
    (h : (toPhysical env clks ids ph).run m = .ok p m') {ρ : PEnv} (hρ : ρ.Extends ph) (hne : ¬ Empty p) (log : List Bqm) :
    ∃ res log', (localSolve none p).run log = .ok res log' ∧
      (∀ f : String → ℤ, (∀ v, m.mtype.vtype.Domain (f v)) → ∀ r ∈ res,
        (∀ v, m.mtype.vtype.Domain (complete f r.1 v)) ∧ r.2 = objective m ρ fun v => (complete f r.1 v : ℚ)) ∧
      ∃ best ∈ res, (∀ r ∈ res, best.2 ≤ r.2) ∧
        ∀ f : String → ℤ, (∀ v, m.mtype.vtype.Domain (f v)) → best.2 ≤ objective m ρ fun v => (f v : ℚ) := by
  have hp := made_fromCalls hm hph h
  obtain ⟨res, log', hr, h1, _⟩ := C57_all_assignments hp hne log
  obtain ⟨best, hb, h2, _, h4⟩ := C57_ground_state hp hne hr
  refine ⟨res, log', hr, fun f hf r hr => ?_, best, hb, h2, fun f hf => ?_⟩
  · obtain ⟨e1, _, e2, e3⟩ := h1 r hr
    have hd : ∀ v, m.mtype.vtype.Domain (complete f r.1 v) := by
      rw [← physical_mtype h] at hf ⊢
      exact complete_domain e3 hf
    refine ⟨hd, ?_⟩
    rw [e1, energy_complete f fun v hv => (e2 v).mpr hv]
    exact energy_objective hm hx h hρ _ hd
  · rw [← energy_objective hm hx h hρ f hf]
    exact h4 f fun v _ => by rw [physical_mtype h]; exact hf v

/-- The calls that make a QUBO model with an interaction and a one-hot constraint. -/
def Ex.penaltyOps : List Op := [.variables "x" [2], .add 1 (.var Ex.b0) (.str "") (.num 3) (.num 1) .none .none,
  .addConstraint (.nHot "c" 5 [Ex.b0, Ex.b1] 1)]

def Ex.penaltyModel : LModel := Ex.penaltyOps.foldl (Op.step ⟨0, fun _ => "t"⟩) (LModel.new .qubo "101")

theorem Ex.penalty_made : Made ⟨0, fun _ => "t"⟩ KnownKeys Ex.penaltyModel :=
  made_ops _ (.new _ _) (by simp [Ex.penaltyOps]) fun _ op h => by
    simp only [Ex.penaltyOps, List.mem_cons, List.not_mem_nil, or_false] at h
    rcases h with rfl | rfl | rfl <;> trivial

theorem Ex.penalty_exact : Exact Ex.penaltyModel := by
  refine .inr ⟨by decide +kernel, ?_⟩
  have : Ex.penaltyModel.constraints = [("c", .nHot "c" 5 [Ex.b0, Ex.b1] 1)] := by decide +kernel
  rw [this]
  simp only [List.mem_singleton]
  rintro c rfl
  unfold Constraint.Distinct
  decide

/-- The physical model. -/
def Ex.penaltyPhysical : Physical :=
  { mtype := .qubo, linear := [("x[0]", 8), ("x[1]", 5)], quad := [(("x[0]", "x[1]"), -10)], offset := 0,
    varsSet := ["x[0]", "x[1]"], labelToIndex := [("x[0]", 0), ("x[1]", 1)], indexToLabel := [(0, "x[0]"), (1, "x[1]")] }

/-- The hypotheses are met, and the best value is that of the one-hot solution `x[0] = 1`. -/
example : (∃ m', (toPhysical ⟨0, fun _ => "t"⟩ (fun _ _ => 0) (fun _ => "1") []).run Ex.penaltyModel =
      .ok Ex.penaltyPhysical m') ∧ ¬ Empty Ex.penaltyPhysical ∧
    ∃ res log', (localSolve none Ex.penaltyPhysical).run [] = .ok res log' ∧ (res.length = 4 ∧
    ([("x[0]", 1), ("x[1]", 0)], -8) ∈ res ∧ ∀ r ∈ res, -8 ≤ r.2) := by
  refine ⟨?_, ?_, ?_⟩
  · exact Ex.exists_ok_of_okAnd (p := fun a _ => decide (a = Ex.penaltyPhysical)) (by decide +kernel) fun a s => by simp
  · unfold Empty; decide +kernel
  · refine ⟨_, _, rfl, ?_⟩
    decide +kernel

end Sawatabi.Props
