import Verif.Props.Penalty
import Verif.Props.PhysicalSuccess

/-!
# Solving Ising models with constraints (C82, C83)

The objective of an Ising model with constraints is its energy plus the penalties at the bits `x = (s + 1) / 2`. The
physical model has this objective plus a constant, so samples report a shifted value and the best samples are right.
-/

namespace Sawatabi.Props

variable {m m' : LModel} {env : Env} {clks : Nat → Nat → ℚ} {ids : Nat → String} {ph : List (String × ℚ)} {p : Physical}
  {γ : Type} {rng : Rng γ} {exp : ℚ → Except Err ℚ} {o : Options}
  {seeded : Nat → γ} {fresh : γ} {numReads : Int} {seed : Option Int} {init init' : Option (List Sample)}
  {l : List Annealed}

/-- The energy an Ising model with constraints should have at spins `s`. -/
def isingObjective (m : LModel) (ρ : PEnv) (s : Assign) : ℚ :=
  m.energy ρ s + (m.constraints.map fun c => c.2.penalty s.toBinary).sum

/-- What `to_physical` adds to it. -/
def isingDrift (m : LModel) : ℚ := (m.constraints.map fun c => c.2.drift).sum

theorem energy_isingObjective (hm : Made env KnownKeys m) (hq : m.mtype = .ising) (hd : ∀ c ∈ m.constraints, c.2.Distinct)
    (h : (toPhysical env clks ids ph).run m = .ok p m') {ρ : PEnv} (hρ : ρ.Extends ph) (f : String → ℤ)
    (hf : ∀ v, m.mtype.vtype.Domain (f v)) :
    p.energy (fun v => (f v : ℚ)) = isingObjective m ρ (fun v => (f v : ℚ)) + isingDrift m := by
  rw [C21_drift_partial (made_rect (fun _ _ h => h) hm) hq hd h hρ (s := fun v => (f v : ℚ)) (fun v => by
    have := hf v
    rw [hq] at this
    rcases this with h | h <;> simp [h]), sum_map_add']
  unfold isingObjective isingDrift
  ring

/-- Each sample of the simulated annealing has as energy the objective plus a constant that depends on the
constraints only. -/
theorem C82_annealing_ising_partial (hm : Made env KnownKeys m) (hq : m.mtype = .ising)
    (hd : ∀ c ∈ m.constraints, c.2.Distinct) (hph : (ph.map (·.1)).Nodup)
    (h : (toPhysical env clks ids ph).run m = .ok p m') {ρ : PEnv} (hρ : ρ.Extends ph) (hr : rng.Ok)
    (hst : StatesOk p p.varsSet init) (hs : (solve rng seeded fresh exp p numReads o seed).run init = .ok l init')
    {f : String → ℤ} (hf : ∀ v, m.mtype.vtype.Domain (f v)) :
    ∀ a ∈ l, a.energy = isingObjective m ρ (fun v => (complete f a.sample v : ℚ)) + isingDrift m := by
  have hp := made_fromCalls hm hph h
  intro a ha
  obtain ⟨_, e2, e3⟩ := C46_samples hp hr hst hs a ha
  rw [C43_reported_energy hp hr hst hs a ha, energy_complete f fun v hv => (e2 v).mpr hv]
  apply energy_isingObjective hm hq hd h hρ
  rw [← physical_mtype h] at hf ⊢
  exact complete_domain e3 hf

/-- The exact solver finds spins that minimise the objective of the logical model; the reported value is shifted by the
constant. -/
theorem C82_exact_ising_partial (hm : Made env KnownKeys m) (hq : m.mtype = .ising)
    (hd : ∀ c ∈ m.constraints, c.2.Distinct) (hph : (ph.map (·.1)).Nodup)
    (h : (toPhysical env clks ids ph).run m = .ok p m') {ρ : PEnv} (hρ : ρ.Extends ph) (hne : ¬ Empty p) (log : List Bqm) :
    ∃ res log', (localSolve none p).run log = .ok res log' ∧
      (∀ f : String → ℤ, (∀ v, m.mtype.vtype.Domain (f v)) → ∀ r ∈ res,
        (∀ v, m.mtype.vtype.Domain (complete f r.1 v)) ∧
        r.2 = isingObjective m ρ (fun v => (complete f r.1 v : ℚ)) + isingDrift m) ∧
      ∃ best ∈ res, (∀ r ∈ res, best.2 ≤ r.2) ∧
        ∀ f : String → ℤ, (∀ v, m.mtype.vtype.Domain (f v)) →
          best.2 ≤ isingObjective m ρ (fun v => (f v : ℚ)) + isingDrift m := by
  have hp := made_fromCalls hm hph h
  obtain ⟨res, log', hr, h1, _⟩ := C57_all_assignments hp hne log
  obtain ⟨best, hb, h2, _, h4⟩ := C57_ground_state hp hne hr
  refine ⟨res, log', hr, fun f hf r hr => ?_, best, hb, h2, fun f hf => ?_⟩
  · obtain ⟨e1, _, e2, e3⟩ := h1 r hr
    have hd' : ∀ v, m.mtype.vtype.Domain (complete f r.1 v) := by
      rw [← physical_mtype h] at hf ⊢
      exact complete_domain e3 hf
    refine ⟨hd', ?_⟩
    rw [e1, energy_complete f fun v hv => (e2 v).mpr hv]
    exact energy_isingObjective hm hq hd h hρ _ hd'
  · rw [← energy_isingObjective hm hq hd h hρ f hf]
    exact h4 f fun v _ => by rw [physical_mtype h]; exact hf v

/-! ## C83 -/

/-- Each constraint is stronger than every difference of logical energies of spins. -/
def StrongIsing (m : LModel) (ρ : PEnv) : Prop := ∀ c ∈ m.constraints, ∀ s t : Assign, s.IsSpin → t.IsSpin →
  m.energy ρ s - m.energy ρ t < c.2.weight

/-- If some spins satisfy all constraints, the minimisers of the objective are the spins of lowest logical energy among
those that satisfy all constraints. -/
theorem C83_ising_minimisers {ρ : PEnv} (hs : StrongIsing m ρ) {t : Assign} (hb : t.IsSpin) (hf : Feasible m t.toBinary)
    {s : Assign} (hσ : s.IsSpin) : (∀ t' : Assign, t'.IsSpin → isingObjective m ρ s ≤ isingObjective m ρ t') ↔
      Feasible m s.toBinary ∧ ∀ t' : Assign, t'.IsSpin → Feasible m t'.toBinary → m.energy ρ s ≤ m.energy ρ t' := by
  have hw : ∀ c ∈ m.constraints, 0 ≤ c.2.weight := fun c hc => by
    have := hs c hc t t hb hb
    linarith
  have hviol : ∀ s : Assign, s.IsSpin → ∀ t : Assign, t.IsSpin → Feasible m t.toBinary → ¬ Feasible m s.toBinary →
      isingObjective m ρ t < isingObjective m ρ s := by
    intro s hσ t hb hf hn
    simp only [Feasible, not_forall] at hn
    obtain ⟨c, hc, hn⟩ := hn
    have h1 := sum_le_of_mem (fun a ha => penalty_le (σ := s.toBinary) (hw a ha) (hf a ha)) hc
      (penalty_violated (hw c hc) (hf c hc) hn)
    have h2 := hs c hc t s hb hσ
    unfold isingObjective
    linarith
  have hsame : ∀ σ τ : Assign, Feasible m σ → Feasible m τ →
      (m.constraints.map fun c => c.2.penalty σ).sum = (m.constraints.map fun c => c.2.penalty τ).sum := by
    intro σ τ h1 h2
    congr 1
    exact List.map_congr_left fun c hc => penalty_satisfied (h1 c hc) (h2 c hc)
  constructor
  · intro hmin
    have hfe : Feasible m s.toBinary := by
      by_contra hn
      have := hviol s hσ t hb hf hn
      have := hmin t hb
      linarith
    refine ⟨hfe, fun t' hb' hf' => ?_⟩
    have h1 := hmin t' hb'
    unfold isingObjective at h1
    rw [hsame _ _ hfe hf'] at h1
    linarith
  · rintro ⟨hfe, hmin⟩ t' hb'
    by_cases hf' : Feasible m t'.toBinary
    · have h1 := hmin t' hb' hf'
      unfold isingObjective
      rw [hsame _ _ hfe hf']
      linarith
    · exact le_of_lt (hviol t' hb' s hσ hfe hf')

theorem spin_int {s : Assign} (h : s.IsSpin) : ∃ f : String → ℤ, (∀ v, MType.ising.vtype.Domain (f v)) ∧ s = fun v => (f v : ℚ) := by
  refine ⟨fun v => if s v = 1 then 1 else -1, fun v => ?_, ?_⟩
  · by_cases h0 : s v = 1 <;> simp [h0, MType.vtype, VType.Domain]
  · funext v
    rcases h v with h0 | h0
    · simp [h0]
    · have : s v ≠ 1 := by rw [h0]; norm_num
      simp only [h0]
      norm_num

/-- The optimal samples of the exact solver for an Ising model are the best spins that satisfy all constraints. -/
theorem C83_ising_exact (hm : Made env KnownKeys m) (hq : m.mtype = .ising) (hd : ∀ c ∈ m.constraints, c.2.Distinct)
    (hph : (ph.map (·.1)).Nodup) (h : (toPhysical env clks ids ph).run m = .ok p m') {ρ : PEnv} (hρ : ρ.Extends ph)
    (hne : ¬ Empty p) (hs : StrongIsing m ρ) {t : Assign} (hb : t.IsSpin) (hf : Feasible m t.toBinary) (log : List Bqm) :
    ∃ res log', (localSolve none p).run log = .ok res log' ∧ (∃ best ∈ res, ∀ r ∈ res, best.2 ≤ r.2) ∧
      ∀ best ∈ res, (∀ r ∈ res, best.2 ≤ r.2) → ∀ f : String → ℤ, (∀ v, m.mtype.vtype.Domain (f v)) →
        Feasible m (Assign.toBinary fun v => (complete f best.1 v : ℚ)) ∧
        ∀ t' : Assign, t'.IsSpin → Feasible m t'.toBinary →
          m.energy ρ (fun v => (complete f best.1 v : ℚ)) ≤ m.energy ρ t' := by
  obtain ⟨res, log', h1, h2, b, hb1, hb2, hb3⟩ := C82_exact_ising_partial hm hq hd hph h hρ hne log
  refine ⟨res, log', h1, ⟨b, hb1, hb2⟩, fun best hbest hmin f hfd => ?_⟩
  obtain ⟨e1, e2⟩ := h2 f hfd best hbest
  have hspin : Assign.IsSpin fun v => (complete f best.1 v : ℚ) := by
    intro v
    have := e1 v
    rw [hq] at this
    rcases this with h | h <;> simp [h]
  refine (C83_ising_minimisers hs hb hf hspin).mp fun t' hb' => ?_
  obtain ⟨g, hg, rfl⟩ := spin_int hb'
  have h3 := le_trans (hmin b hb1) (hb3 g (by rw [hq]; exact hg))
  linarith

/-! ## An example -/

/-- The calls that make an Ising model with an interaction and a one-hot constraint. -/
def Ex.spinOps : List Op := [.variables "x" [2], .add 1 (.var Ex.x0) (.str "") (.num 1) (.num 1) .none .none,
  .addConstraint (.nHot "c" 5 [Ex.x0, Ex.x1] 1)]

def Ex.spinModel : LModel := Ex.spinOps.foldl (Op.step ⟨0, fun _ => "t"⟩) (LModel.new .ising "101")

theorem Ex.spin_made : Made ⟨0, fun _ => "t"⟩ KnownKeys Ex.spinModel :=
  made_ops _ (.new _ _) (by simp [Ex.spinOps]) fun _ op h => by
    simp only [Ex.spinOps, List.mem_cons, List.not_mem_nil, or_false] at h
    rcases h with rfl | rfl | rfl <;> trivial

theorem Ex.spin_constraints : Ex.spinModel.constraints = [("c", .nHot "c" 5 [Ex.x0, Ex.x1] 1)] := by decide +kernel

theorem Ex.spin_strong : StrongIsing Ex.spinModel fun _ => 0 := by
  have he : ∀ s : Assign, Ex.spinModel.energy (fun _ => 0) s = - s "x[0]" := by
    intro s
    have h1 : Ex.spinModel.rows = [⟨"x[0]", .lin Ex.x0, .num 1, .num 1, some 1, true, false⟩] := by decide +kernel
    have h2 : Ex.spinModel.offset = .num 0 := by decide +kernel
    unfold LModel.energy
    rw [h1, h2]
    simp [Row.term, Coef.eval, Inter.value, Ex.x0]
  intro c hcm s t hs ht
  rw [Ex.spin_constraints, List.mem_singleton] at hcm
  subst hcm
  rw [he, he]
  simp only [Constraint.weight]
  rcases hs "x[0]" with h | h <;> rcases ht "x[0]" with h' | h' <;> rw [h, h'] <;> norm_num

/-- The physical model. -/
def Ex.spinPhysical : Physical :=
  { mtype := .ising, linear := [("x[0]", 1)], quad := [(("x[0]", "x[1]"), -5/2)], offset := 5/2,
    varsSet := ["x[0]", "x[1]"], labelToIndex := [("x[0]", 0), ("x[1]", 1)], indexToLabel := [(0, "x[0]"), (1, "x[1]")] }

/-- The hypotheses are met: `x[0] = 1, x[1] = -1` satisfies the constraint and is the best sample. Its reported energy
is -1: the objective is -6, and the constant is 5. -/
example : Ex.spinModel.mtype = .ising ∧ (∀ c ∈ Ex.spinModel.constraints, c.2.Distinct) ∧
    Feasible Ex.spinModel (Assign.toBinary fun v => if v = "x[0]" then 1 else -1) ∧ isingDrift Ex.spinModel = 5 ∧
    isingObjective Ex.spinModel (fun _ => 0) (fun v => if v = "x[0]" then 1 else -1) = -6 ∧
    (∃ m', (toPhysical ⟨0, fun _ => "t"⟩ (fun _ _ => 0) (fun _ => "1") []).run Ex.spinModel = .ok Ex.spinPhysical m') ∧
    ¬ Empty Ex.spinPhysical ∧
    ∃ res log', (localSolve none Ex.spinPhysical).run [] = .ok res log' ∧
      (([("x[0]", 1), ("x[1]", -1)], -1) ∈ res ∧ ∀ r ∈ res, -1 ≤ r.2) := by
  refine ⟨by decide +kernel, ?_, ?_, by decide +kernel, by decide +kernel, ?_, ?_, _, _, rfl, ?_⟩
  · intro c hc
    rw [Ex.spin_constraints, List.mem_singleton] at hc
    subst hc
    unfold Constraint.Distinct
    decide
  · intro c hc
    rw [Ex.spin_constraints, List.mem_singleton] at hc
    subst hc
    simp only [Constraint.Satisfied]
    decide +kernel
  · exact Ex.exists_ok_of_okAnd (p := fun a _ => decide (a = Ex.spinPhysical)) (by decide +kernel) fun a s => by simp
  · unfold Empty; decide +kernel
  · decide +kernel

end Sawatabi.Props
