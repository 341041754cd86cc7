import Verif.Props.Depends
import Verif.Props.Instances
import Verif.Props.OptiganEndToEnd
import Verif.Props.PhysicalExact
import Verif.Props.PhysicalFailure
import Verif.Props.SamplersEndToEnd
import Verif.Props.SolverUsable

/-!
# From public calls to the optimum, with nothing assumed to succeed (C132)
-/

namespace Sawatabi.Props

variable {m m' : LModel} {env : Env} {clks : Nat → Nat → ℚ} {ids : Nat → String} {ph : List (String × ℚ)} {p : Physical}
  {res : List (Sample × ℚ)} {log log' : List Bqm}

/-- Values for the variables of a model of the type. -/
def Values (mt : MType) (f : String → ℤ) : Prop := ∀ v, mt.vtype.Domain (f v)

/-- The objective at such values. -/
def aimAt (m : LModel) (ρ : PEnv) (f : String → ℤ) : ℚ := aim m ρ fun v => (f v : ℚ)

/-- The objective prefers some values to others. -/
def Varies (m : LModel) (ρ : PEnv) : Prop := ∃ f g, Values m.mtype f ∧ Values m.mtype g ∧ aimAt m ρ f ≠ aimAt m ρ g

/-- `f` minimises the objective. -/
def Optimum (m : LModel) (ρ : PEnv) (f : String → ℤ) : Prop :=
  Values m.mtype f ∧ ∀ g, Values m.mtype g → aimAt m ρ f ≤ aimAt m ρ g

/-- The physical model is empty exactly if the objective is constant. -/
theorem C132_empty_iff (hm : Made env KnownKeys m) (hd : ∀ c ∈ m.constraints, c.2.Distinct) (hph : (ph.map (·.1)).Nodup)
    (h : (toPhysical env clks ids ph).run m = .ok p m') {ρ : PEnv} (hρ : ρ.Extends ph) : ¬ Empty p ↔ Varies m ρ := by
  have hmt : p.mtype = m.mtype := physical_mtype h
  constructor
  · intro hne
    have huse : ∃ v, p.Uses v := by
      unfold Physical.Uses
      cases hl : p.linear with
      | cons kv l => exact ⟨kv.1, .inl (by simp [dkeys])⟩
      | nil =>
        cases hq : p.quad with
        | cons kv l => exact ⟨kv.1.1, .inr ⟨kv.1, by simp [dkeys], .inl rfl⟩⟩
        | nil => exact absurd ⟨hl, hq⟩ hne
    obtain ⟨v, hv⟩ := huse
    obtain ⟨f, g, hf, hg, _, hfg⟩ := (C26_depends (made_fromCalls hm hph h) v).mp hv
    rw [hmt] at hf hg
    refine ⟨f, g, hf, hg, fun he => hfg ?_⟩
    rw [energy_aim hm hd h hρ f hf, energy_aim hm hd h hρ g hg]
    exact congrArg (· + shift m) he
  · rintro ⟨f, g, hf, hg, hfg⟩ ⟨h1, h2⟩
    have e1 := energy_aim hm hd h hρ f hf
    have e2 := energy_aim hm hd h hρ g hg
    simp only [Physical.energy, h1, h2, List.map_nil, List.sum_nil, sub_zero] at e1 e2
    exact hfg (by unfold aimAt; linarith)

/-- **C132**: converting a model and solving it exactly succeeds precisely if no equality constraint has a variable on both
sides, all placeholders are given and the objective is not constant. -/
theorem C132_succeeds_iff (hm : Made env (Tidy env) m) (hc : m.NoClash) (hr : ∀ c ∈ m.constraints, c.2.Regular)
    (hs : m.mtype = .ising → ∀ c ∈ m.constraints, c.2.SpaceFree)
    (hph : (ph.map (·.1)).Nodup) {ρ : PEnv} (hρ : ρ.Extends ph) :
    (∃ p m' res log', (toPhysical env clks ids ph).run m = .ok p m' ∧ (localSolve none p).run log = .ok res log') ↔
      (∀ c ∈ m.constraints, c.2.Apart) ∧ m.Filled ph ∧ Varies m ρ := by
  have hk := made_mono tidy_known hm
  have hd : ∀ c ∈ m.constraints, c.2.Distinct := fun c hcm => regular_distinct (hr c hcm)
  constructor
  · rintro ⟨p, m', res, log', h, hl⟩
    refine ⟨fun c hcm => (good_iff (hr c hcm)).mp (good_of_ok h c hcm), filled_of_ok (tidy_rect hm) h,
      (C132_empty_iff hk hd hph h hρ).mp fun he => ?_⟩
    unfold localSolve at hl
    simp only [empty_iff.mpr he, if_true, Py.run_bind, Py.run_throw] at hl
    cases hl
  · rintro ⟨ha, hf, hv⟩
    obtain ⟨p, h⟩ := succeeds_of_good (env := env) (clks := clks) (ids := ids) (tidy_rect hm) (C01_made_partial hm) hc
      (fun c hcm => (good_iff (hr c hcm)).mpr (ha c hcm)) hs hf
    obtain ⟨res, log', hl⟩ := C57_success_partial (log := log) ((C132_empty_iff hk hd hph h hρ).mpr hv)
      (fromCalls_keyed (made_fromCalls hk hph h))
    exact ⟨p, _, res, log', h, hl⟩

/-- **C132** without restriction on names and labels: a conversion that succeeds can be solved exactly if the objective is not
constant; and for QUBO models it succeeds exactly if each constraint has a model, the placeholders are given, and the removed
interactions are different interactions of the model after the merges of the constraints. -/
theorem C132_succeeds_exact (hm : Made env (Tidy env) m) (hq : m.mtype = .qubo) (hd : ∀ c ∈ m.constraints, c.2.Distinct)
    (hph : (ph.map (·.1)).Nodup) {ρ : PEnv} (hρ : ρ.Extends ph) :
    (∃ p m' res log', (toPhysical env clks ids ph).run m = .ok p m' ∧ (localSolve none p).run log = .ok res log') ↔
      (∀ c ∈ m.constraints, c.2.Good) ∧ m.Filled ph ∧ Varies m ρ ∧
      let ns := (m.rows.filter (·.removed)).map fun r =>
        renamed m.id (m.constraints.map fun c => c.2.items.map (·.name c.2.label)) r.name
      ns.Nodup ∧ ∀ n ∈ ns, n ∈ m.names := by
  have hk := made_mono tidy_known hm
  have hx := C20_success_exact (env := env) (clks := clks) (ids := ids) (ph := ph) (tidy_rect hm) (C01_made_partial hm) hq
  constructor
  · rintro ⟨p, m', res, log', h, hl⟩
    obtain ⟨h1, h2, h3⟩ := hx.mp ⟨p, m', h⟩
    refine ⟨h1, h2, (C132_empty_iff hk hd hph h hρ).mp fun he => ?_, h3⟩
    unfold localSolve at hl
    simp only [empty_iff.mpr he, if_true, Py.run_bind, Py.run_throw] at hl
    cases hl
  · rintro ⟨h1, h2, hv, h3⟩
    obtain ⟨p, m', h⟩ := hx.mpr ⟨h1, h2, h3⟩
    obtain ⟨res, log', hl⟩ := C57_success_partial (log := log) ((C132_empty_iff hk hd hph h hρ).mpr hv)
      (fromCalls_keyed (made_fromCalls hk hph h))
    exact ⟨p, m', res, log', h, hl⟩

/-- **C132**: then the samples of least energy are those that minimise the objective, whatever the values of variables that do
not occur; and every optimum is among them, with the value of each variable that matters. -/
theorem C132_optima (hm : Made env KnownKeys m) (hd : ∀ c ∈ m.constraints, c.2.Distinct) (hph : (ph.map (·.1)).Nodup)
    {ρ : PEnv} (hρ : ρ.Extends ph) (h : (toPhysical env clks ids ph).run m = .ok p m')
    (hl : (localSolve none p).run log = .ok res log') :
    (∃ best ∈ res, ∀ r ∈ res, best.2 ≤ r.2) ∧
    (∀ best ∈ res, (∀ r ∈ res, best.2 ≤ r.2) ↔ ∀ f, Values m.mtype f → Optimum m ρ (complete f best.1)) ∧
    ∀ f, Optimum m ρ f → ∃ best ∈ res, (∀ r ∈ res, best.2 ≤ r.2) ∧ ∀ v ∈ dkeys best.1, dget best.1 v = some (f v) := by
  have hmt : p.mtype = m.mtype := physical_mtype h
  have hne : ¬ Empty p := fun he => by
    unfold localSolve at hl
    simp only [empty_iff.mpr he, if_true, Py.run_bind, Py.run_throw] at hl
    cases hl
  have hk := fromCalls_keyed (made_fromCalls hm hph h)
  obtain ⟨h1, h2⟩ := C57_all_assignments_partial hne hk hl
  obtain ⟨b, hb, hle, _, hground⟩ := C57_ground_state_partial hne hk hl
  rw [hmt] at h1 h2 hground
  have hen : ∀ r ∈ res, ∀ f, Values m.mtype f →
      Values m.mtype (complete f r.1) ∧ r.2 = aimAt m ρ (complete f r.1) + shift m := by
    intro r hr f hf
    obtain ⟨e1, _, e2, e3⟩ := h1 r hr
    have hdom : Values m.mtype (complete f r.1) := complete_domain e3 hf
    refine ⟨hdom, ?_⟩
    rw [e1, energy_complete f fun v hv => (e2 v).mpr hv]
    exact energy_aim hm hd h hρ _ hdom
  have hall : ∀ g, Values m.mtype g → b.2 ≤ aimAt m ρ g + shift m := fun g hg => by
    have := hground g fun v _ => hg v
    rw [energy_aim hm hd h hρ g hg] at this
    exact this
  have hone : Values m.mtype fun _ => 1 := fun _ => by
    cases m.mtype with
    | ising => exact .inl rfl
    | qubo => exact .inr rfl
  refine ⟨⟨b, hb, hle⟩, fun best hbest => ⟨fun hmin f hf => ?_, fun hmin r hr => ?_⟩, fun f hf => ?_⟩
  · obtain ⟨e1, e2⟩ := hen best hbest f hf
    refine ⟨e1, fun g hg => ?_⟩
    have h3 := hmin b hb
    have h4 := hall g hg
    linarith
  · obtain ⟨e1, e2⟩ := hen r hr _ hone
    have h3 := (hen best hbest _ hone).2
    have h4 := (hmin _ hone).2 _ e1
    linarith
  · obtain ⟨r, hr, hv⟩ := h2 f fun v _ => hf.1 v
    have huse := (h1 r hr).2.2.1
    refine ⟨r, hr, fun r' hr' => ?_, fun v hmem => hv v ((huse v).mp hmem)⟩
    obtain ⟨e1, e2⟩ := hen r' hr' _ hone
    have h4 := hf.2 _ e1
    have h3 := (hen r hr f hf.1).2
    have hsame : complete f r.1 = f := by
      funext v
      unfold complete
      cases hg : dget r.1 v with
      | none => rfl
      | some a =>
        have := hv v ((huse v).mp ((dget_isSome_iff r.1 v).mp ⟨a, hg⟩))
        rw [hg] at this
        exact Option.some.inj this
    rw [hsame] at h3
    linarith

/-- **C132** with Optigan: for QUBO models made over their own usable variables, the same conditions suffice, given access data.
With a server that evaluates the polynomial and finds its minimum (for as many bits as the model has variables), the best
samples are the optima. -/
theorem C132_optigan (hm : Made env (Tidy env) m) (hu : Made env (OverUsable env) m) (hq : m.mtype = .qubo) (hc : m.NoClash)
    (hr : ∀ c ∈ m.constraints, c.2.Regular) (ha : ∀ c ∈ m.constraints, c.2.Apart) (hf : m.Filled ph)
    (hph : (ph.map (·.1)).Nodup) {ρ : PEnv} (hρ : ρ.Extends ph) (hv : Varies m ρ) {server : Nat → OptiganRequest → OptiganResponse}
    (hs : ∀ n, Honest (server n) n) (ho : ∀ n, Optimal (server n) n) {c : OptiganSolver} {et : String × String}
    (hacc : c.access = .ok et) (n t : Int) (d : Bool) (log : List OptiganRequest) :
    ∃ p m' req res, (toPhysical env clks ids ph).run m = .ok p m' ∧
      (optiganSolve c (server p.indexToLabel.length) p n t d).run log = .ok res (log ++ [req]) ∧
      (∃ best ∈ res, ∀ r ∈ res, best.2 ≤ r.2) ∧ ∀ best ∈ res, (∀ r ∈ res, best.2 ≤ r.2) ↔ ∀ f, Values m.mtype f → Optimum m ρ (complete f best.1) := by
  have hk := made_mono tidy_known hm
  have hd : ∀ c ∈ m.constraints, c.2.Distinct := fun c hcm => regular_distinct (hr c hcm)
  obtain ⟨p, h⟩ := succeeds_of_good (env := env) (clks := clks) (ids := ids) (tidy_rect hm) (C01_made_partial hm) hc
    (fun c hcm => (good_iff (hr c hcm)).mpr (ha c hcm)) (fun hi => by rw [hq] at hi; cases hi) hf
  have hne := (C132_empty_iff hk hd hph h hρ).mpr hv
  obtain ⟨req, res, hrun, hbest, hiff⟩ := C130_best hk hu hq hd h hρ hne (hs _) (ho _) hacc n t d log
  obtain ⟨req', res', hrun', _, hval⟩ := C130_optigan hk hu hq hd h hρ hne (hs _) hacc n t d log
  rw [hrun] at hrun'
  simp only [Res.ok.injEq, List.append_cancel_left_eq, List.cons.injEq, and_true] at hrun'
  obtain ⟨rfl, rfl⟩ := hrun'
  have hobj : ∀ f : String → ℤ, aimAt m ρ f = objective m ρ fun v => (f v : ℚ) := by
    intro f
    simp only [aimAt, aim, hq, objective]
  refine ⟨p, _, req, res, h, hrun, hbest, fun best hb => ?_⟩
  rw [hiff best hb]
  have hV : ∀ f, Values m.mtype f ↔ ∀ v, f v = 0 ∨ f v = 1 := fun f => by unfold Values; rw [hq]; exact Iff.rfl
  constructor
  · intro hmin f hf
    refine ⟨complete_domain (vt := m.mtype.vtype) (by rw [hq]; exact (hval best hb).2.1) hf, fun g hg => ?_⟩
    rw [hobj, hobj]
    refine hmin f ((hV f).mp hf) _ fun v => ?_
    rcases (hV g).mp hg v with h | h <;> simp [h]
  · intro hmin f hf τ hτ
    have hopt := hmin f ((hV f).mpr hf)
    have : ∃ g : String → ℤ, (∀ v, g v = 0 ∨ g v = 1) ∧ τ = fun v => (g v : ℚ) := by
      refine ⟨fun v => if τ v = 0 then 0 else 1, fun v => ?_, ?_⟩
      · by_cases h : τ v = 0 <;> simp [h]
      · funext v
        rcases hτ v with h | h <;> simp [h]
    obtain ⟨g, hg, rfl⟩ := this
    have := hopt.2 g ((hV g).mpr hg)
    rwa [hobj, hobj] at this

/-- **C132** with simulated annealing: under the same conditions, for models made over their own usable variables, annealing
without initial states succeeds and gives as many samples as asked for. The energy of each is the objective at the sample (up
to the constant of Ising models with constraints), so none is below the optimum, and those that reach it are optima. -/
theorem C132_annealing {γ : Type} {rng : Rng γ} {exp : ℚ → Except Err ℚ} {o : Options} {seeded : Nat → γ} {fresh : γ}
    {numReads : Int} {seed : Option Int} (hm : Made env (Tidy env) m) (hu : Made env (OverUsable env) m)
    (hn : ∀ n ∈ dkeys m.vars, '[' ∉ n.toList) (hc : m.NoClash) (hr : ∀ c ∈ m.constraints, c.2.Regular)
    (hs : m.mtype = .ising → ∀ c ∈ m.constraints, c.2.SpaceFree) (ha : ∀ c ∈ m.constraints, c.2.Apart) (hf : m.Filled ph)
    (hph : (ph.map (·.1)).Nodup) {ρ : PEnv} (hρ : ρ.Extends ph) (hv : Varies m ρ) (hrng : rng.Ok)
    (he : ∀ q, ∃ r, exp q = .ok r) (hseed : ∀ k, seed = some k → 0 ≤ k) (hsw : 0 ≤ o.numSweeps) (hrev : o.reverse = .none)
    (hpick : o.pickup ≠ .other) :
    ∃ p m' l init', (toPhysical env clks ids ph).run m = .ok p m' ∧
      (solve rng seeded fresh exp p numReads o seed).run none = .ok l init' ∧ l.length = numReads.toNat ∧
      ∀ a ∈ l, ∀ f, Values m.mtype f → Values m.mtype (complete f a.sample) ∧
        a.energy = aimAt m ρ (complete f a.sample) + shift m ∧
        ∀ g, Optimum m ρ g → aimAt m ρ g + shift m ≤ a.energy ∧
          (a.energy = aimAt m ρ g + shift m ↔ Optimum m ρ (complete f a.sample)) := by
  have hk := made_mono tidy_known hm
  have hd : ∀ c ∈ m.constraints, c.2.Distinct := fun c hcm => regular_distinct (hr c hcm)
  obtain ⟨p, h⟩ := succeeds_of_good (env := env) (clks := clks) (ids := ids) (tidy_rect hm) (C01_made_partial hm) hc
    (fun c hcm => (good_iff (hr c hcm)).mpr (ha c hcm)) hs hf
  have hne := (C132_empty_iff hk hd hph h hρ).mpr hv
  have hst : StatesOk p p.varsSet none := fun _ h => by cases h
  have hargs : checkArgs p numReads o none = .ok () := by
    have h0 : p.isEmptyModel = false := by
      cases hb : p.isEmptyModel with
      | false => rfl
      | true => exact absurd (empty_iff.mp hb) hne
    unfold checkArgs
    simp only [h0, hrev, hpick, Bool.false_eq_true, if_false]
    rfl
  obtain ⟨l, init', hl⟩ := (C55_made_partial (seeded := seeded) (fresh := fresh) (numReads := numReads) hu hn hph h hrng hst he).mpr
    ⟨hargs, hseed, fun _ => ⟨hsw, fun _ => .inl hrev⟩⟩
  have hp := made_fromCalls hk hph h
  refine ⟨p, _, l, init', h, hl, (C50_statistics hp hrng hst hl).1, fun a hal f hfv => ?_⟩
  obtain ⟨_, e2, e3⟩ := C46_samples hp hrng hst hl a hal
  have hdom : Values m.mtype (complete f a.sample) := by
    rw [physical_mtype h] at e3
    exact complete_domain e3 hfv
  have hen : a.energy = aimAt m ρ (complete f a.sample) + shift m := by
    rw [C43_reported_energy hp hrng hst hl a hal, energy_complete f fun v hv => (e2 v).mpr hv]
    exact energy_aim hk hd h hρ _ hdom
  refine ⟨hdom, hen, fun g hg => ?_⟩
  have h1 := hg.2 _ hdom
  refine ⟨by linarith, fun heq => ⟨hdom, fun g' hg' => ?_⟩, fun hopt => ?_⟩
  · have h2 := hg.2 g' hg'
    linarith
  · have h2 := hopt.2 g hg.1
    linarith

/-! ## Feasible optima -/

/-- The bits that values stand for. -/
def bits (mt : MType) (f : String → ℤ) : Assign :=
  match mt with
  | .qubo => fun v => (f v : ℚ)
  | .ising => Assign.toBinary fun v => (f v : ℚ)

/-- The values satisfy all constraints. -/
def Meets (m : LModel) (f : String → ℤ) : Prop := ∀ c ∈ m.constraints, c.2.Satisfied (bits m.mtype f)

/-- The energy of the logical model at values. -/
def energyAt (m : LModel) (ρ : PEnv) (f : String → ℤ) : ℚ := m.energy ρ fun v => (f v : ℚ)

/-- Values of bits or spins, as assignments. -/
theorem values_qubo {σ : Assign} (h : σ.IsBinary) : ∃ f, Values .qubo f ∧ σ = fun v => (f v : ℚ) := by
  refine ⟨fun v => if σ v = 0 then 0 else 1, fun v => ?_, ?_⟩
  · by_cases h : σ v = 0
    · simp only [h, if_true]; exact .inl rfl
    · simp only [h, if_false]; exact .inr rfl
  · funext v
    rcases h v with h | h <;> simp [h]

theorem binary_values {f : String → ℤ} (h : Values .qubo f) : Assign.IsBinary fun v => (f v : ℚ) := by
  intro v
  rcases h v with h | h <;> simp [h]

theorem spin_values {f : String → ℤ} (h : Values .ising f) : Assign.IsSpin fun v => (f v : ℚ) := by
  intro v
  rcases h v with h | h <;> simp [h]

/-- **C132**: if each constraint is stronger than every difference of energies and the constraints can be met together, the
optima of the objective, which all solvers above look for, are the values of least energy among those that meet the
constraints. -/
theorem C132_feasible {ρ : PEnv} (hs : ∀ c ∈ m.constraints, ∀ f g, Values m.mtype f → Values m.mtype g →
      energyAt m ρ f - energyAt m ρ g < c.2.weight)
    {g : String → ℤ} (hg : Values m.mtype g) (hm : Meets m g) {f : String → ℤ} (hf : Values m.mtype f) :
    Optimum m ρ f ↔ Meets m f ∧ ∀ g', Values m.mtype g' → Meets m g' → energyAt m ρ f ≤ energyAt m ρ g' := by
  unfold Optimum Meets at *
  cases hq : m.mtype with
  | qubo =>
    rw [hq] at hs hg hm hf
    have hst : Strong m ρ := by
      intro c hc σ τ hσ hτ
      obtain ⟨f, hf, rfl⟩ := values_qubo hσ
      obtain ⟨g, hg, rfl⟩ := values_qubo hτ
      exact hs c hc f g hf hg
    have hmin := C83_minimisers hst (binary_values hg) hm (binary_values hf)
    have hobj : ∀ f : String → ℤ, aimAt m ρ f = objective m ρ fun v => (f v : ℚ) := fun f => by
      simp only [aimAt, aim, hq, objective]
    constructor
    · rintro ⟨_, h⟩
      obtain ⟨h1, h2⟩ := hmin.mp fun τ hτ => by
        obtain ⟨g', hg', rfl⟩ := values_qubo hτ
        have := h g' hg'
        rwa [hobj, hobj] at this
      exact ⟨h1, fun g' hg' hm' => h2 _ (binary_values hg') hm'⟩
    · rintro ⟨h1, h2⟩
      refine ⟨hf, fun g' hg' => ?_⟩
      rw [hobj, hobj]
      refine hmin.mpr ⟨h1, fun τ hτ hfe => ?_⟩ _ (binary_values hg')
      obtain ⟨g₁, hg₁, rfl⟩ := values_qubo hτ
      exact h2 g₁ hg₁ hfe
  | ising =>
    rw [hq] at hs hg hm hf
    have hst : StrongIsing m ρ := by
      intro c hc σ τ hσ hτ
      obtain ⟨f, hf, rfl⟩ := spin_int hσ
      obtain ⟨g, hg, rfl⟩ := spin_int hτ
      exact hs c hc f g hf hg
    have hmin := C83_ising_minimisers hst (spin_values hg) hm (spin_values hf)
    have hobj : ∀ f : String → ℤ, aimAt m ρ f = isingObjective m ρ fun v => (f v : ℚ) := fun f => by
      simp only [aimAt, aim, hq, isingObjective]
    constructor
    · rintro ⟨_, h⟩
      obtain ⟨h1, h2⟩ := hmin.mp fun τ hτ => by
        obtain ⟨g', hg', rfl⟩ := spin_int hτ
        have := h g' hg'
        rwa [hobj, hobj] at this
      exact ⟨h1, fun g' hg' hm' => h2 _ (spin_values hg') hm'⟩
    · rintro ⟨h1, h2⟩
      refine ⟨hf, fun g' hg' => ?_⟩
      rw [hobj, hobj]
      refine hmin.mpr ⟨h1, fun τ hτ hfe => ?_⟩ _ (spin_values hg')
      obtain ⟨g₁, hg₁, rfl⟩ := spin_int hτ
      exact h2 g₁ hg₁ hfe

/-- The hypotheses hold for the Ising model with a one-hot constraint. -/
example : (∀ c ∈ Ex.spinModel.constraints, ∀ f g, Values Ex.spinModel.mtype f → Values Ex.spinModel.mtype g →
      energyAt Ex.spinModel (fun _ => 0) f - energyAt Ex.spinModel (fun _ => 0) g < c.2.weight) ∧
    Meets Ex.spinModel fun v => if v = "x[0]" then 1 else -1 := by
  have hq : Ex.spinModel.mtype = .ising := by decide +kernel
  refine ⟨fun c hc f g hf hg => ?_, ?_⟩
  · rw [hq] at hf hg
    exact Ex.spin_strong c hc _ _ (spin_values hf) (spin_values hg)
  · unfold Meets
    rw [Ex.spin_constraints]
    simp only [List.mem_singleton]
    rintro c rfl
    rw [hq]
    simp only [bits, Constraint.Satisfied]
    decide +kernel

/-! ## Examples -/

/-- The hypotheses hold for the Ising model with a one-hot constraint; its objective varies, so that it can be solved. -/
example : Made ⟨0, fun _ => "t"⟩ (Tidy ⟨0, fun _ => "t"⟩) Ex.spinModel ∧ Ex.spinModel.NoClash ∧
    (∀ c ∈ Ex.spinModel.constraints, c.2.Regular ∧ c.2.SpaceFree ∧ c.2.Apart) ∧ Ex.spinModel.Filled [] ∧
    Varies Ex.spinModel fun _ => 0 := by
  refine ⟨made_ops _ (.new _ _) (by simp [Ex.spinOps]) fun _ op h => ?_, ?_, ?_, ?_, fun v => if v = "x[0]" then 1 else -1,
    fun _ => 1, ?_, fun _ => .inl rfl, ?_⟩
  · simp only [Ex.spinOps, List.mem_cons, List.not_mem_nil, or_false] at h
    rcases h with rfl | rfl | rfl <;> trivial
  · unfold LModel.NoClash; decide +kernel
  · rw [Ex.spin_constraints]
    simp only [List.mem_singleton]
    rintro c rfl
    refine ⟨?_, ?_, trivial⟩
    · unfold Constraint.Regular; decide +kernel
    · unfold Constraint.SpaceFree; decide +kernel
  · unfold LModel.Filled; decide +kernel
  · intro v
    by_cases h : v = "x[0]"
    · simp only [h, if_true]; exact .inl rfl
    · simp only [h, if_false]; exact .inr rfl
  · unfold aimAt; decide +kernel

/-- All vectors of bits. -/
def Ex.vectors : Nat → List (List ℤ)
  | 0 => [[]]
  | n + 1 => (Ex.vectors n).flatMap fun x => [0 :: x, 1 :: x]

theorem Ex.mem_vectors (n : Nat) (x : List ℤ) : x ∈ Ex.vectors n ↔ x.length = n ∧ ∀ a ∈ x, a = 0 ∨ a = 1 := by
  induction n generalizing x with
  | zero =>
    simp only [Ex.vectors, List.mem_singleton, List.length_eq_zero_iff]
    exact ⟨fun h => ⟨h, by simp [h]⟩, fun h => h.1⟩
  | succ n ih =>
    simp only [Ex.vectors, List.mem_flatMap, List.mem_cons, List.not_mem_nil, or_false]
    constructor
    · rintro ⟨y, hy, rfl | rfl⟩
      · obtain ⟨h1, h2⟩ := (ih y).mp hy
        exact ⟨by simp [h1], List.forall_mem_cons.mpr ⟨.inl rfl, h2⟩⟩
      · obtain ⟨h1, h2⟩ := (ih y).mp hy
        exact ⟨by simp [h1], List.forall_mem_cons.mpr ⟨.inr rfl, h2⟩⟩
    · rintro ⟨h1, h2⟩
      cases x with
      | nil => cases h1
      | cons a y =>
        obtain ⟨h3, h4⟩ := List.forall_mem_cons.mp h2
        refine ⟨y, (ih y).mpr ⟨by simpa using h1, h4⟩, ?_⟩
        rcases h3 with rfl | rfl
        · exact .inl rfl
        · exact .inr rfl

/-- A server that tries them all. -/
def Ex.triesAll (n : Nat) (req : OptiganRequest) : OptiganResponse :=
  ⟨200, Ex.vectors n, (Ex.vectors n).map fun x => polyValue (fun i => ((x[i]?.getD 0 : ℤ) : ℚ)) req.polynomial⟩

/-- There are such servers. -/
example : (∀ n, Honest (Ex.triesAll n) n) ∧ ∀ n, Optimal (Ex.triesAll n) n := by
  refine ⟨fun n req => ⟨rfl, fun x hx => (Ex.mem_vectors n x).mp hx, rfl⟩, fun n req => ?_⟩
  have hmin : ∀ (F : List ℤ → ℚ) (l : List (List ℤ)), l ≠ [] → ∃ b ∈ l, ∀ r ∈ l, F b ≤ F r := by
    intro F l hl
    induction l with
    | nil => exact absurd rfl hl
    | cons r l ih =>
      by_cases hr : l = []
      · subst hr; exact ⟨r, List.mem_cons_self, by simp⟩
      · obtain ⟨b, hb, hle⟩ := ih hr
        rcases le_total (F r) (F b) with hc | hc
        · exact ⟨r, List.mem_cons_self, List.forall_mem_cons.mpr ⟨le_refl _, fun x hx => hc.trans (hle x hx)⟩⟩
        · exact ⟨b, List.mem_cons_of_mem _ hb, List.forall_mem_cons.mpr ⟨hc, hle⟩⟩
  obtain ⟨x, hx, hle⟩ := hmin (fun x => polyValue (fun i => ((x[i]?.getD 0 : ℤ) : ℚ)) req.polynomial) (Ex.vectors n)
    (List.ne_nil_of_mem ((Ex.mem_vectors n (List.replicate n 0)).mpr ⟨by simp, by simp⟩))
  exact ⟨x, hx, fun y hy hb => hle y ((Ex.mem_vectors n y).mpr ⟨hy, hb⟩)⟩

/-- Those with Optigan hold for the QUBO model of C130. -/
example : Made ⟨0, fun _ => "t"⟩ (Tidy ⟨0, fun _ => "t"⟩) (Ex.usable 4) ∧
    Made ⟨0, fun _ => "t"⟩ (OverUsable ⟨0, fun _ => "t"⟩) (Ex.usable 4) ∧ (Ex.usable 4).NoClash ∧
    (∀ c ∈ (Ex.usable 4).constraints, c.2.Regular ∧ c.2.Apart) ∧ (Ex.usable 4).Filled [] ∧ Varies (Ex.usable 4) fun _ => 0 := by
  have hc : (Ex.usable 4).constraints = [("one", .nHot "one" 3 [⟨.binary, "x[0]"⟩, ⟨.binary, "x[1]"⟩] 1)] := by decide +kernel
  refine ⟨made_ops _ (.new _ _) (by simp [Ex.usableOps, Ex.usableAdd, Ex.usableCon]) fun _ op h => ?_, Ex.usable_made, ?_, ?_,
    ?_, fun _ => 1, fun _ => 0, fun _ => .inr rfl, fun _ => .inl rfl, ?_⟩
  · simp only [Ex.usableOps, List.take, Ex.usableAdd, Ex.usableCon, List.mem_cons, List.not_mem_nil, or_false] at h
    rcases h with rfl | rfl | rfl | rfl <;> trivial
  · unfold LModel.NoClash; decide +kernel
  · rw [hc]
    simp only [List.mem_singleton]
    rintro c rfl
    exact ⟨by unfold Constraint.Regular; decide +kernel, trivial⟩
  · unfold LModel.Filled; decide +kernel
  · unfold aimAt; decide +kernel

end Sawatabi.Props
