import Verif.Props.TidyExact
import Verif.Props.PhysicalExact
import Verif.Props.ConversionActive
import Verif.Props.EndToEnd

/-!
# Theorems on concrete models

Theorems about interactions, conversions and `to_physical`, applied to the models of the examples: their hypotheses are met
together. (The other theorems have such examples beside them.)
-/

namespace Sawatabi.Props

variable {ρ : PEnv} {σ : Assign}

theorem Ex.ising_rect : Ex.ising.Rect := ⟨by decide, by decide, by decide, by decide⟩

theorem Ex.ising_noClash : Ex.ising.NoClash := by unfold LModel.NoClash; decide

theorem convEx_rect : convEx.Rect := ⟨by decide, by decide, by decide, by decide⟩

theorem convEx_unit : UnitScales convEx := by unfold UnitScales; decide +kernel

/-- A conversion in the examples. -/
def Ex.convert (ph : List (String × ℚ)) : Py LModel Physical := toPhysical convEnv (fun _ _ => 0) (fun _ => "1") ph

/-- What it leaves. -/
def Ex.left (ph : List (String × ℚ)) (m : LModel) : LModel := ((Ex.convert ph).run m).state

/-! ## Timestamps -/

example : ∀ r ∈ (Ex.after Ex.ising (updateInteraction 0 20 (.var Ex.x0) (.str "") (some (.num 1)) none .none (some (.num 15)))).rows,
    r.name = "x[0]" → r.timestamp = some 15 :=
  C10_explicit_timestamp_partial (m := Ex.ising) (importTime := 0) (now := 20) (attributes := .none) (by decide) (c := some 1)
    (s := none) (.byTarget (.var Ex.x0) (.lin Ex.x0) _ (.var _) (.lin _) (by decide)) rfl

example : ∀ r ∈ (Ex.after Ex.ising (updateInteraction 3 20 .none (.str "x[0]") (some (.num 1)) none .none none)).rows,
    r.name = "x[0]" → r.timestamp = some 3 :=
  C10_default_is_import_time (m := Ex.ising) (importTime := 3) (now := 20) (attributes := .none) (by decide) (c := some 1)
    (s := none) (.byName "x[0]" .none rfl (by decide) (by decide)) rfl

/-! ## Conversion of the type -/

/-- `convEx` as an Ising model. -/
def Ex.asIsing : LModel := Ex.after convEx (toIsing ⟨0, fun q => toString q⟩ fun _ => 0)

/-- And back. -/
def Ex.asQubo : LModel := Ex.after Ex.asIsing (toQubo ⟨0, fun q => toString q⟩ fun _ => 1)

theorem Ex.asIsing_run : (toIsing ⟨0, fun q => toString q⟩ fun _ => 0).run convEx = .ok ⟨⟩ Ex.asIsing := rfl

theorem Ex.asQubo_run : (toQubo ⟨0, fun q => toString q⟩ fun _ => 1).run Ex.asIsing = .ok ⟨⟩ Ex.asQubo := rfl

example : Ex.asIsing.energy ρ σ.toSpin = convEx.energy ρ σ + (convEx.rows.map (isingShift ρ σ)).sum :=
  C35_toIsing_exact_partial (by decide) (by decide) Ex.asIsing_run ρ σ

example : Ex.asIsing.energy ρ σ.toSpin = convEx.energy ρ σ + 2 * (Ex.asIsing.offset.eval ρ - convEx.offset.eval ρ) :=
  C35_toIsing_shift_partial (by decide) (by decide) convEx_unit Ex.asIsing_run ρ σ

example (τ : Assign) : Ex.asIsing.energy ρ σ.toSpin - Ex.asIsing.energy ρ τ.toSpin = convEx.energy ρ σ - convEx.energy ρ τ :=
  C35_toIsing_gap_partial (by decide) (by decide) convEx_unit Ex.asIsing_run ρ σ τ

example : Ex.asQubo.energy ρ σ.toBinary = Ex.asIsing.energy ρ σ + (Ex.asIsing.rows.map (quboShift ρ σ)).sum :=
  C35_toQubo_exact_partial (by decide +kernel) (by decide +kernel) Ex.asQubo_run ρ σ

example : Ex.asQubo.energy ρ σ.toBinary = Ex.asIsing.energy ρ σ + 2 * (Ex.asQubo.offset.eval ρ - Ex.asIsing.offset.eval ρ) :=
  C35_toQubo_shift_partial (by decide +kernel) (by decide +kernel) (by unfold UnitScales; decide +kernel) Ex.asQubo_run ρ σ

example (τ : Assign) : Ex.asQubo.energy ρ σ.toBinary - Ex.asQubo.energy ρ τ.toBinary = Ex.asIsing.energy ρ σ - Ex.asIsing.energy ρ τ :=
  C35_toQubo_gap_partial (by decide +kernel) (by decide +kernel) (by unfold UnitScales; decide +kernel) Ex.asQubo_run ρ σ τ

example : (toQubo convEnv fun _ => 0).run convEx = .ok ⟨⟩ convEx := C35_same_type.2 (by decide)

example : Ex.asIsing.energy ρ σ.toSpin = convEx.energy ρ σ + (convEx.rows.map (isingShift ρ σ)).sum :=
  C35_toIsing_active_partial (by decide) (by decide) Ex.asIsing_run ρ σ

example : Ex.asQubo.energy ρ σ = convEx.energy ρ σ :=
  C36_qubo_roundtrip_partial (by decide) (by decide) Ex.asIsing_run Ex.asQubo_run ρ σ

example : Ex.asQubo.energy ρ σ = convEx.energy ρ σ :=
  C36_qubo_active_partial (by decide) (by decide) Ex.asIsing_run Ex.asQubo_run ρ σ

example : (Ex.after Ex.asQubo (toIsing ⟨0, fun q => toString q⟩ fun _ => 2)).energy ρ σ = Ex.asIsing.energy ρ σ :=
  C36_ising_roundtrip_partial (clk' := fun _ => 2) (by decide +kernel) (by decide +kernel) Ex.asQubo_run rfl ρ σ

example : ∃ e m', (toIsing convEnv fun _ => 0).run Ex.qubo = .error e m' :=
  (C37_placeholder_raises_partial (m := Ex.qubo) (r := Ex.qubo.rows[1]) (by decide) (by decide) (by decide) (by decide)).1
    (by decide)

/-! ## `to_physical` -/

example : Ex.left [] Ex.ising = Ex.ising.cleaned ∧ Ex.ising.cleaned.names = ["x[0]", "x[0]*x[1]"] :=
  ⟨C22_only_prunes_partial (env := convEnv) (clks := fun _ _ => 0) (ids := fun _ => "1") (ph := []) Ex.ising_rect (by decide)
    Ex.ising_noClash rfl, by decide⟩

example {p' : Physical} {m'' : LModel} (h : (toPhysical ⟨7, fun _ => "u"⟩ (fun _ _ => 5) (fun _ => "2") []).run (Ex.left [] Ex.ising)
    = .ok p' m'') : m'' = Ex.left [] Ex.ising :=
  (C22_again_partial (env := convEnv) (clks := fun _ _ => 0) (ids := fun _ => "1") (ph := []) Ex.ising_rect (by decide)
    Ex.ising_noClash rfl h).2

example : ∃ p, (Ex.convert []).run quboOneHot = .ok p quboOneHot.cleaned ∧
    (toPhysical ⟨7, fun _ => "u"⟩ (fun _ _ => 5) (fun _ => "2") []).run quboOneHot.cleaned = .ok p quboOneHot.cleaned :=
  have ⟨h1, h2, h3, h4, h5, h6⟩ := quboOneHot_ok
  C22_again_qubo_partial h1 h2 h3 h4 h5 h6

theorem Ex.oneHot_distinct : (Constraint.nHot "c" 1 [Ex.b0, Ex.b1] 1).Distinct := by unfold Constraint.Distinct; decide

example (hσ : σ.IsBinary) : ∃ p m', (Ex.convert []).run quboOneHot = .ok p m' ∧
    p.energy σ = quboOneHot.energy ρ σ + (quboOneHot.constraints.map fun c => c.2.penalty σ).sum := by
  have hd : ∀ c ∈ quboOneHot.constraints, c.2.Distinct := by
    rw [show quboOneHot.constraints = [("c", .nHot "c" 1 [Ex.b0, Ex.b1] 1)] by decide]
    rintro c hc
    obtain rfl := List.mem_singleton.mp hc
    exact Ex.oneHot_distinct
  exact ⟨_, _, rfl, C20_qubo_energy_partial (clks := fun _ _ => 0) (ids := fun _ => "1") (env := convEnv) (ph := []) quboOneHot_ok.1
    (by decide) hd rfl (by simp [PEnv.Extends]) hσ⟩

example {s t : Assign} (hs : s.IsSpin) (ht : t.IsSpin) : ∃ p m', (Ex.convert []).run isingOneHot = .ok p m' ∧
    p.energy s - p.energy t =
      (isingOneHot.energy ρ s + (isingOneHot.constraints.map fun c => c.2.penalty s.toBinary).sum) -
      (isingOneHot.energy ρ t + (isingOneHot.constraints.map fun c => c.2.penalty t.toBinary).sum) := by
  have hd : ∀ c ∈ isingOneHot.constraints, c.2.Distinct := by
    rw [show isingOneHot.constraints = [("c", .nHot "c" 1 [Ex.b0, Ex.b1] 1)] by decide]
    rintro c hc
    obtain rfl := List.mem_singleton.mp hc
    exact Ex.oneHot_distinct
  exact ⟨_, _, rfl, C21_ising_gap_partial (clks := fun _ _ => 0) (ids := fun _ => "1") (env := convEnv) (ph := [])
    ⟨by decide, by decide, by decide, by decide⟩ (by decide) hd rfl (by simp [PEnv.Extends]) hs ht⟩

example : ∃ p, (Ex.convert []).run quboOneHot = .ok p quboOneHot.cleaned := by
  obtain ⟨h1, h2, h3, h4, h5, h6⟩ := quboOneHot_ok
  obtain ⟨p, m', h⟩ := (C20_success_exact (env := convEnv) (clks := fun _ _ => 0) (ids := fun _ => "1") (ph := []) h1 h2 h4).mpr
    ⟨fun c hc => sound_good (h5 c hc), h6, by decide +kernel⟩
  obtain rfl := C22_only_prunes_partial h1 h2 h3 h
  exact ⟨p, h⟩

/-! ## Models made by public calls -/

theorem tidyMerged_made : Made tidyEnv (Tidy tidyEnv) tidyMerged := by
  refine .step _ _ (tidyOne_made _) ⟨by decide, by decide, ?_⟩ fun _ _ h => by cases h; exact tidyOne_made _
  unfold ApartNames
  decide +kernel

example : tidyMerged.names.Nodup := C01_made_partial tidyMerged_made

example : (Ex.after tidyMerged (deleteVariable Ex.x0)).energy ρ σ = tidyMerged.energy ρ (σ.subst "x[0]" 0) :=
  (C11_made_partial tidyMerged_made (v := Ex.x0) rfl ρ σ).1

example : (Ex.after tidyMerged (fixVariable (fun _ => 2) Ex.x0 (.num 1))).energy ρ σ =
    tidyMerged.energy ρ (σ.subst "x[0]" 1) - revived tidyMerged Ex.x0 ρ (σ.subst "x[0]" 1) :=
  (C13_made tidyMerged_made (v := Ex.x0) (clk := fun _ => 2) rfl ρ σ).1

example : ∀ r ∈ (Ex.after tidyMerged (fixVariable (fun _ => 2) Ex.x0 (.num 1))).rows, r.inter.mentions "x[0]" → r.removed = true :=
  (C14_made_partial (env' := tidyEnv) (clks := fun _ _ => 0) (ids := fun _ => "1") (ph := []) (p := Ex.penaltyPhysical)
    (m'' := tidyMerged) (a := .num 1) tidyMerged_made (v := Ex.x0) (clk := fun _ => 2) rfl).1

example {s : Assign} (hs : s.IsSpin) : ∃ p m', (Ex.convert []).run tidyMerged = .ok p m' ∧ p.energy s = tidyMerged.energy ρ s := by
  obtain ⟨p, m', h⟩ : ∃ p m', (Ex.convert []).run tidyMerged = .ok p m' := ⟨_, _, rfl⟩
  have := C21_made_partial (ρ := ρ) tidyMerged_made (by decide +kernel)
    (by rw [show tidyMerged.constraints = [] by decide +kernel]; simp) h (by simp [PEnv.Extends]) hs
  rw [show tidyMerged.constraints = [] by decide +kernel, List.map_nil, List.sum_nil, add_zero] at this
  exact ⟨p, m', h, this⟩

example : ∃ p m', (Ex.convert []).run tidyMerged = .ok p m' :=
  (C21_made_iff (env' := convEnv) (clks := fun _ _ => 0) (ids := fun _ => "1") (ph := []) tidyMerged_made
    (by unfold LModel.NoClash; decide +kernel) (by rw [show tidyMerged.constraints = [] by decide +kernel]; simp)
    (by rw [show tidyMerged.constraints = [] by decide +kernel]; simp)).mpr
    ⟨by rw [show tidyMerged.constraints = [] by decide +kernel]; simp, by unfold LModel.Filled; decide +kernel⟩

example : ∃ p, (toPhysical tidyEnv (fun _ _ => 0) (fun _ => "1") []).run tidyMerged = .ok p tidyMerged.cleaned ∧
    (toPhysical ⟨7, fun _ => "u"⟩ (fun _ _ => 5) (fun _ => "2") []).run tidyMerged.cleaned = .ok p tidyMerged.cleaned := by
  obtain ⟨p, m', h⟩ : ∃ p m', (toPhysical tidyEnv (fun _ _ => 0) (fun _ => "1") []).run tidyMerged = .ok p m' := ⟨_, _, rfl⟩
  obtain ⟨rfl, h1⟩ := C22_made_partial (env' := ⟨7, fun _ => "u"⟩) (clks' := fun _ _ => 5) (ids' := fun _ => "2") tidyMerged_made
    (by unfold LModel.NoClash; decide +kernel) (fun _ => by rw [show tidyMerged.constraints = [] by decide +kernel]; simp) h
  exact ⟨p, h, h1⟩

example : ∃ p m', (toPhysical ⟨0, fun _ => "t"⟩ (fun _ _ => 0) (fun _ => "1") []).run Ex.penaltyModel = .ok p m' ∧
    (p.linear.map (·.1)).Nodup ∧ (p.quad.map (·.1)).Nodup :=
  have h := C26_made (made_mono (fun _ _ _ => trivial) Ex.penalty_made) (ph := []) (clks := fun _ _ => 0) (ids := fun _ => "1")
    (by simp) rfl
  ⟨_, _, rfl, h.1, h.2.1⟩

end Sawatabi.Props
