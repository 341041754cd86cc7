import Verif.Props.PhysicalState
import Verif.Props.Penalty
import Verif.Props.Tidy
import Verif.Props.StreamExact
import Verif.Props.Attenuation
import Verif.Props.RoundingPhysical

/-!
# Counterexamples for C07, C27, C64, C82, C83, and corollaries for reachable models

The tables here are ragged: an interaction gets lost after `update_interaction` introduced an attribute
(see `C19_ragged_refuted`).
-/

namespace Sawatabi.Props

open Stream

/-! ## Ragged tables with two interactions -/

/-- An attribute introduced by `update_interaction`, the interaction removed and converted, `add_interaction` for `v` with
that attribute, which raises, and `add_interaction` for `w`. -/
def _root_.Sawatabi.Ex.ragged (t : MType) (v w : PVar) (a b : ℚ) : LModel :=
  Ex.after (Ex.after (LModel.new t "101") do
    let _ ← createVars "x" [2]
    addInteraction 1 (.var v) (.str "") (.num 2) (.num 1) .none .none
    updateInteraction 0 1 .none (.str v.label) none none (.dict [("a", .num 1)]) none
    removeInteraction .none (.str v.label)
    let _ ← toPhysical ⟨0, fun _ => ""⟩ (fun _ _ => 0) (fun _ => "1") []
    addInteraction 2 (.var v) (.str "") (.num a) (.num 1) (.dict [("a", .num 1)]) .none)
    (addInteraction 2 (.var w) (.str "") (.num b) (.num 1) .none .none)

/-- **C27** fails for ragged tables: two models that differ only in the order of two interactions (their attributes apart)
convert to physical models with different coefficients and energies. -/
theorem C27_ragged_refuted :
    let m := Ex.ragged .ising Ex.x0 Ex.x1 3 5
    let n := Ex.ragged .ising Ex.x1 Ex.x0 5 3
    (m.rows.map Row.core).Perm (n.rows.map Row.core) ∧ m.constraints = n.constraints ∧ m.offset = n.offset ∧
      m.mtype = n.mtype ∧ m.vars = n.vars ∧ m.deleted = n.deleted ∧
    ∃ p m' q n', (toPhysical ⟨0, fun _ => ""⟩ (fun _ _ => 0) (fun _ => "1") []).run m = .ok p m' ∧
      (toPhysical ⟨0, fun _ => ""⟩ (fun _ _ => 0) (fun _ => "1") []).run n = .ok q n' ∧
      p.linear = [("x[0]", 3)] ∧ q.linear = [("x[1]", 5)] ∧ p.energy (fun _ => 1) ≠ q.energy (fun _ => 1) := by
  refine ⟨by decide +kernel, by decide +kernel, by decide +kernel, by decide +kernel, by decide +kernel, by decide +kernel,
    _, _, _, _, rfl, rfl, ?_⟩
  decide +kernel

/-- The answer of the exact solver. -/
def _root_.Sawatabi.Ex.exactly (m : LModel) : Option (List (Sample × ℚ)) :=
  match (toPhysical ⟨0, fun _ => ""⟩ (fun _ _ => 0) (fun _ => "1") []).run m with
  | .error _ _ => none
  | .ok p _ =>
    match (localSolve none p).run [] with
    | .error _ _ => none
    | .ok res _ => some res

/-- **C82** fails for ragged tables: the exact solver reports energies without the second interaction. -/
theorem C82_ragged_refuted :
    let m := Ex.ragged .ising Ex.x0 Ex.x1 3 5
    Ex.exactly m = some [([("x[0]", -1)], 3), ([("x[0]", 1)], -3)] ∧ objective m (fun _ => 0) (fun _ => 1) = -8 := by
  decide +kernel

/-- The same with a constraint of the strength 100 on both variables. -/
def _root_.Sawatabi.Ex.raggedHot : LModel :=
  Ex.after (Ex.ragged .qubo Ex.b0 Ex.b1 3 5) (addConstraint (.nHot "c" 100 [Ex.b0, Ex.b1] 1))

/-- **C83** fails for ragged tables: the best sample of the exact solver has not the lowest energy among the feasible
assignments. -/
theorem C83_ragged_refuted :
    (∃ res, Ex.exactly Ex.raggedHot = some res ∧ ([("x[0]", 1), ("x[1]", 0)], -103) ∈ res ∧ ∀ r ∈ res, -103 ≤ r.2) ∧
    Strong Ex.raggedHot (fun _ => 0) ∧ Feasible Ex.raggedHot (Sample.assign [("x[0]", 0), ("x[1]", 1)]) ∧
    Ex.raggedHot.energy (fun _ => 0) (Sample.assign [("x[0]", 1), ("x[1]", 0)]) = -3 ∧
    Ex.raggedHot.energy (fun _ => 0) (Sample.assign [("x[0]", 0), ("x[1]", 1)]) = -5 := by
  have hc : Ex.raggedHot.constraints = [("c", .nHot "c" 100 [Ex.b0, Ex.b1] 1)] := by decide +kernel
  have he : ∀ σ : Assign, Ex.raggedHot.energy (fun _ => 0) σ = -(3 * σ "x[0]") + -(5 * σ "x[1]") := by
    intro σ
    have h1 : Ex.raggedHot.rows.map (fun r => (r.inter, r.coef, r.scale, r.removed)) =
        [(.lin Ex.b0, .num 3, .num 1, false), (.lin Ex.b1, .num 5, .num 1, false)] := by decide +kernel
    have h2 : Ex.raggedHot.rows.map (Row.term (fun _ => 0) σ) =
        (Ex.raggedHot.rows.map fun r => (r.inter, r.coef, r.scale, r.removed)).map fun t : Inter × Coef × Coef × Bool =>
          if t.2.2.2 then 0 else t.2.1.eval (fun _ => 0) * t.2.2.1.eval (fun _ => 0) * t.1.value σ := by
      rw [List.map_map]; rfl
    have h3 : Ex.raggedHot.offset = .num 0 := by decide +kernel
    unfold LModel.energy
    rw [h2, h1, h3]
    simp [Coef.eval, Inter.value, Ex.b0, Ex.b1]
    ring
  refine ⟨⟨[([("x[0]", 0), ("x[1]", 0)], 0), ([("x[0]", 1), ("x[1]", 0)], -103), ([("x[0]", 0), ("x[1]", 1)], -5),
      ([("x[0]", 1), ("x[1]", 1)], 92)], by decide +kernel, by decide +kernel, by decide +kernel⟩, ?_, ?_,
      by decide +kernel, by decide +kernel⟩
  · intro c h σ τ hσ hτ
    rw [hc, List.mem_singleton] at h
    subst h
    rw [he, he]
    show _ < (100 : ℚ)
    rcases hσ "x[0]" with a | a <;> rcases hσ "x[1]" with b | b <;> rcases hτ "x[0]" with c | c <;>
      rcases hτ "x[1]" with d | d <;> rw [a, b, c, d] <;> norm_num
  · intro c h
    rw [hc, List.mem_singleton] at h
    subst h
    show ones _ _ = _
    decide +kernel

/-! ## Reachable models -/

variable {m m' n n' : LModel} {env env₁ env₂ env₃ : Env} {clks clks' : Nat → Nat → ℚ} {ids ids' : Nat → String}
  {ph : List (String × ℚ)} {p q : Physical}

/-- **C27** for all histories whose updates name registered attribute keys. -/
theorem C27_made_partial (hm : Made env KnownKeys m) (hn : Made env₁ KnownKeys n) (hph : (ph.map (·.1)).Nodup)
    (hperm : (m.rows.map Row.core).Perm (n.rows.map Row.core)) (hcons : m.constraints = n.constraints)
    (hoff : m.offset = n.offset) (ht : m.mtype = n.mtype) (hv : m.vars = n.vars) (hd : m.deleted = n.deleted)
    (h : (toPhysical env₂ clks ids ph).run m = .ok p m') (h' : (toPhysical env₃ clks' ids' ph).run n = .ok q n') :
    p.linear.Perm q.linear ∧ p.quad.Perm q.quad ∧ p.offset = q.offset ∧ p.mtype = q.mtype ∧
    p.labelToIndex = q.labelToIndex ∧ p.indexToLabel = q.indexToLabel ∧ (∀ l, l ∈ p.varsSet ↔ l ∈ q.varsSet) ∧
    ∀ σ, p.energy σ = q.energy σ :=
  C27_order_partial (made_rect (fun _ _ h => h) hm) (made_rect (fun _ _ h => h) hn) (made_ordered hm) hph hperm hcons hoff ht
    hv hd h h'

example : Made ⟨0, fun _ => "t"⟩ KnownKeys (Ex.sumModel [("a", 3), ("b", -1)]) ∧
    Made ⟨0, fun _ => "t"⟩ KnownKeys (Ex.sumModel [("b", -1), ("a", 3)]) ∧
    ((Ex.sumModel [("a", 3), ("b", -1)]).rows.map Row.core).Perm ((Ex.sumModel [("b", -1), ("a", 3)]).rows.map Row.core) ∧
    (Ex.sumModel [("a", 3), ("b", -1)]).vars = (Ex.sumModel [("b", -1), ("a", 3)]).vars ∧
    (Ex.physical (Ex.sumModel [("a", 3), ("b", -1)])).isOk = true ∧ (Ex.physical (Ex.sumModel [("b", -1), ("a", 3)])).isOk = true :=
  ⟨Ex.sum_made _, Ex.sum_made _, by decide +kernel, by decide +kernel, by decide +kernel, by decide +kernel⟩

/-- **C07** for all such histories with distinct names: after the conversion the name can be added again. -/
theorem C07_made_partial (hm : Made env (Tidy env) m) (hc : m.NoClash) {x : String} (hr : IsRemoved m x)
    (h : (toPhysical env₁ clks ids ph).run m = .ok p m') :
    x ∉ m'.names ∧ (∀ k, ¬ IsRemoved m' k) ∧
    ∀ {now : ℚ} {target : PyTarget} {name : PyName} {i : Inter} {c s : PyCoef} {attributes : PyAttrs} {ts : PyTs},
      target.Denotes i → name.Names i x → c ≠ .bad → s ≠ .bad → attributes ≠ .bad → ts ≠ .bad →
      ∃ m'', (addInteraction now target name c s attributes ts).run m' = .ok ⟨⟩ m'' :=
  C07_readd_partial (tidy_rect hm) (C01_made_partial hm) hc hr h

example : Made tidyEnv (Tidy tidyEnv) (Op.step tidyEnv (tidyOne "101") (.remove .none (.str "x[0]"))) ∧
    IsRemoved (Op.step tidyEnv (tidyOne "101") (.remove .none (.str "x[0]"))) "x[0]" ∧
    (Op.step tidyEnv (tidyOne "101") (.remove .none (.str "x[0]"))).NoClash := by
  refine ⟨.step _ _ (tidyOne_made _) trivial (fun _ _ h => by cases h), ?_, ?_⟩
  · unfold IsRemoved; decide +kernel
  · unfold LModel.NoClash; decide +kernel

/-! ## C07 -/

/-- **C07** fails if a removed interaction is named like one of a constraint: after a successful conversion the name is
still there and cannot be added. -/
theorem C07_readd_refuted :
    IsRemoved clashing "x[0] (c)" ∧
    ∃ p m', (toPhysical ⟨0, fun _ => "t"⟩ (fun _ _ => 0) (fun _ => "1") []).run clashing = .ok p m' ∧
      IsRemoved m' "x[0] (c)" ∧
      (addInteraction 3 (.var Ex.b0) (.str "x[0] (c)") (.num 1) (.num 1) .none .none).run m' = .error .valueError m' := by
  refine ⟨?_, _, _, rfl, ?_, ?_⟩
  · unfold IsRemoved; decide +kernel
  · unfold IsRemoved; decide +kernel
  · decide +kernel

/-! ## C64 -/

/-- **C64** fails: a window without an output, since the attenuation step raises. -/
theorem C64_refuted : ¬ ∀ (f : Fns LModel Unit Nat Unit) (step : Py LModel Unit) (w : Win Nat),
    ∃ o st', (process (.attenuation step) f (Ex.attModel false (.num 1) []) false w).run St.start = .ok [o] st' := by
  intro hall
  obtain ⟨o, st', h⟩ := hall Ex.attFns (Ex.att "attributes.other") ⟨2, [⟨1, 0, 7⟩]⟩
  have : Ex.raised ((process (.attenuation (Ex.att "attributes.other")) Ex.attFns (Ex.attModel false (.num 1) []) false
      ⟨2, [⟨1, 0, 7⟩]⟩).run St.start) = some .keyError := by decide +kernel
  rw [h] at this
  cases this

end Sawatabi.Props
