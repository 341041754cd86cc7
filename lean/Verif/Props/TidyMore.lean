import Verif.Props.TidyExact
import Verif.Props.Conversion
import Verif.Lemmas.Proper

/-!
# Conversions (C35, C37) and merges (C38, C41) of models made by public calls

As in Props/Tidy.lean.
-/

namespace Sawatabi.Props

variable {m m' a b a' b' : LModel} {env env' : Env} {clk : Nat → ℚ}

/-- **C35**: what a conversion does to the energy, term by term. -/
theorem C35_made_partial (hm : Made env (Tidy env) m) (ρ : PEnv) (σ : Assign) :
    (m.mtype = .qubo → (toIsing env' clk).run m = .ok ⟨⟩ m' →
      m'.energy ρ σ.toSpin = m.energy ρ σ + (m.rows.map (isingShift ρ σ)).sum) ∧
    (m.mtype = .ising → (toQubo env' clk).run m = .ok ⟨⟩ m' →
      m'.energy ρ σ.toBinary = m.energy ρ σ + (m.rows.map (quboShift ρ σ)).sum) :=
  ⟨fun hq h => C35_toIsing_exact_partial (C01_made_partial hm) hq h ρ σ,
   fun hq h => C35_toQubo_exact_partial (C01_made_partial hm) hq h ρ σ⟩

/-- **C35**: with scales 1 all differences of energies are kept. -/
theorem C35_made_gap_partial (hm : Made env (Tidy env) m) (hs : UnitScales m) (ρ : PEnv) (x y : Assign) :
    (m.mtype = .qubo → (toIsing env' clk).run m = .ok ⟨⟩ m' →
      m'.energy ρ x.toSpin - m'.energy ρ y.toSpin = m.energy ρ x - m.energy ρ y) ∧
    (m.mtype = .ising → (toQubo env' clk).run m = .ok ⟨⟩ m' →
      m'.energy ρ x.toBinary - m'.energy ρ y.toBinary = m.energy ρ x - m.energy ρ y) :=
  ⟨fun hq h => C35_toIsing_gap_partial (C01_made_partial hm) hq hs h ρ x y,
   fun hq h => C35_toQubo_gap_partial (C01_made_partial hm) hq hs h ρ x y⟩

/-- **C37**: exactly when a conversion succeeds. -/
theorem C37_made_iff (hm : Made env (Tidy env) m) :
    (m.mtype = .qubo → ((∃ m', (toIsing env' clk).run m = .ok ⟨⟩ m') ↔ Convertible env' clk m)) ∧
    (m.mtype = .ising → ((∃ m', (toQubo env' clk).run m = .ok ⟨⟩ m') ↔ Convertible env' clk m)) :=
  C37_success_iff (tidy_rect hm) (C01_made_partial hm)

/-- **C38**: the energy of a merge of models of different types, term by term. -/
theorem C38_made_partial (hb : Made env (Tidy env) b) (h : (merge env' clk).run (a, b) = .ok ⟨⟩ (a', b')) (ρ : PEnv) (σ : Assign) :
    (a.mtype = .ising → b.mtype = .qubo →
      a'.energy ρ σ.toSpin = a.energy ρ σ.toSpin + b.energy ρ σ + (b.rows.map (isingShift ρ σ)).sum) ∧
    (a.mtype = .qubo → b.mtype = .ising →
      a'.energy ρ σ.toBinary = a.energy ρ σ.toBinary + b.energy ρ σ + (b.rows.map (quboShift ρ σ)).sum) :=
  ⟨fun h1 h2 => C38_merge_into_ising_partial h1 h2 (C01_made_partial hb) h ρ σ,
   fun h1 h2 => C38_merge_into_qubo_partial h1 h2 (C01_made_partial hb) h ρ σ⟩

/-- **C41**, constraints: whatever calls were made on the other model, the labels are disjoint and every constraint is there. -/
theorem C41_made_constraints (hb : Made env SetArgs b) (h : (merge env' clk).run (a, b) = .ok ⟨⟩ (a', b')) :
    (∀ l, l ∈ dkeys a.constraints → l ∉ dkeys b.constraints) ∧
    (∀ l, dget a'.constraints l = (dget a.constraints l).or (dget b.constraints l)) :=
  C41_merge_constraints (made_proper hb).cons h

/-- **C41**, interactions and attributes. -/
theorem C41_made_interactions (ha : Made env KnownKeys a) (hb : Made env KnownKeys b)
    (h : (merge env' clk).run (a, b) = .ok ⟨⟩ (a', b')) :
    (∀ k, k ∈ a'.attrs ↔ k ∈ a.attrs ∨ k ∈ b'.attrs) ∧
    a'.rows.length = a.rows.length + b'.rows.length ∧
    (∀ (i : Nat) r, a.rows[i]? = some r → ∃ r', a'.rows[i]? = some r' ∧ r'.anon = r.anon ∧
      r'.name = (if r.name ∈ b'.names then r.name ++ " (" ++ a.id ++ ")" else r.name) ∧
      ∀ k ∈ a'.attrs, a'.cell k i = if k ∈ a.attrs then a.cell k i else some .nan) ∧
    (∀ (i : Nat) r, b'.rows[i]? = some r → ∃ r', a'.rows[a.rows.length + i]? = some r' ∧ r'.anon = r.anon ∧
      r'.name = (if r.name ∈ a.names then r.name ++ " (" ++ b'.id ++ ")" else r.name) ∧
      ∀ k ∈ a'.attrs, a'.cell k (a.rows.length + i) = if k ∈ b'.attrs then b'.cell k i else some .nan) :=
  C41_merge_interactions (made_rect (fun _ _ h => h) ha) (made_rect (fun _ _ h => h) hb) h

/-- The Ising models of Props/Tidy.lean can be converted and merged. -/
example : (tidyOne "101").mtype = .ising ∧ ((toQubo tidyEnv fun _ => 0).run (tidyOne "101")).isOk = true ∧
    ((merge tidyEnv fun _ => 0).run (tidyOne "101", tidyOne "102")).isOk = true ∧
    ((merge tidyEnv fun _ => 0).run (LModel.new .qubo "1", tidyOne "102")).isOk = true := by decide +kernel

example : UnitScales (tidyOne "101") := by unfold UnitScales; decide +kernel

end Sawatabi.Props
