import Verif.Props.PhysicalMade
import Verif.Props.SolverMade

/-!
# C55 for models made by calls over their own variables
-/

namespace Sawatabi.Props

variable {env : Env} {clks : Nat → Nat → ℚ} {ids : Nat → String} {ph : List (String × ℚ)} {m m' : LModel} {p : Physical}
  {γ : Type} {rng : Rng γ} {exp : ℚ → Except Err ℚ} {o : Options} {seeded : Nat → γ} {fresh : γ} {numReads : Int}
  {seed : Option Int} {init : Option (List Sample)}

/-- A model made by calls over its own usable variables, with array names without brackets: the annealing of what
`to_physical` returns succeeds exactly for legal arguments. Nothing else about the model matters. -/
theorem C55_made_partial (hm : Made env (OverUsable env) m) (hn : ∀ n ∈ dkeys m.vars, '[' ∉ n.toList)
    (hph : (ph.map (·.1)).Nodup) {env' : Env} (h : (toPhysical env' clks ids ph).run m = .ok p m') (hr : rng.Ok)
    (hst : StatesOk p p.varsSet init) (he : ∀ q, ∃ r, exp q = .ok r) :
    (∃ l init', (solve rng seeded fresh exp p numReads o seed).run init = .ok l init') ↔
      checkArgs p numReads o init = .ok () ∧ (∀ k, seed = some k → 0 ≤ k) ∧
      (0 < numReads → 0 ≤ o.numSweeps ∧ (0 < o.numSweeps → o.reverse = .none ∨ o.reverse.isTruthy = true)) := by
  have hw := made_within hm
  obtain ⟨_, ht⟩ := C25_made_partial hm h
  have hready := toPhysical_ready (made_ordered hm) hph (allLabels_nodup hw.vars hn) h ((C25_polynomial_iff h).mp ht)
  refine C55_exact hready hr (fun l0 hl0 st hst0 v hv0 => hst l0 hl0 st hst0 v ?_) he
  simp only [indexed, List.mem_filter, decide_eq_true_eq] at hv0
  exact hv0.2.2

example : (∀ n ∈ dkeys (Ex.usable 4).vars, '[' ∉ n.toList) ∧ Ex.rng.Ok ∧ (∀ q, ∃ r, Ex.exp q = .ok r) ∧
    ∃ p m', (toPhysical ⟨0, fun _ => "t"⟩ (fun _ _ => 0) (fun _ => "2") []).run (Ex.usable 4) = .ok p m' ∧
      StatesOk p p.varsSet none ∧ checkArgs p 2 Ex.options none = .ok () :=
  ⟨by decide +kernel, Ex.rng_ok, fun _ => ⟨_, rfl⟩, _, _, rfl, fun _ h => (by cases h), by decide +kernel⟩

end Sawatabi.Props
