import Verif.Lemmas.RoundingPhysical
import Verif.Lemmas.RoundingSolve
import Verif.Props.Rounding
import Verif.Props.EndToEnd

/-!
# `to_physical` and `solve` in floating point (C110)
-/

namespace Sawatabi
namespace Props

variable {env : Env} {clks : Nat → Nat → ℚ} {ids : Nat → String} {ph : List (String × ℚ)} {m m' : LModel} {p : Physical}
  {round : ℚ → ℚ} {u w top : ℚ} {K D : Nat} {ls : List String} {s : Problem} {γ : Type} {ar : Arith} {rng : Rng γ}
  {exp : ℚ → Except Err ℚ} {o : Options} {seeded : Nat → γ} {fresh : γ} {numReads : Int} {seed : Option Int}
  {init init' : Option (List Sample)} {l : List Annealed}

/-- Rounding changes neither whether `to_physical` succeeds, nor the error it raises, nor what it does to the model; and
of the result, only the coefficients. -/
theorem C110_outcome (hm : m.Rect) (hc : m.constraints = []) (hp : m.Plain) :
    (∃ e m', (toPhysicalR round env clks ids ph).run m = .error e m' ∧ (toPhysical env clks ids ph).run m = .error e m') ∨
    ∃ p q m', (toPhysicalR round env clks ids ph).run m = .ok p m' ∧ (toPhysical env clks ids ph).run m = .ok q m' ∧
      p.mtype = q.mtype ∧ p.offset = q.offset := by
  obtain ⟨q, hq⟩ := hp.1
  rw [toPhysicalR_plain hm.1 hc hp hq, toPhysical_plain hm.1 hc hp hq]
  cases (((m.rows.filter (·.removed)).map (·.name)).forM popRow).run m with
  | error e m₂ => exact .inl ⟨e, m₂, rfl, rfl⟩
  | ok u m₂ => exact .inr ⟨_, _, _, rfl, rfl, rfl, rfl⟩

theorem dget_filter_ne {κ : Type} [DecidableEq κ] (d : List (κ × ℚ)) (hd : (dkeys d).Nodup) (k : κ) :
    (dget (d.filter (·.2 ≠ 0)) k).getD 0 = (dget d k).getD 0 := by
  induction d with
  | nil => rfl
  | cons x d ih =>
    obtain ⟨k', v⟩ := x
    have hn := List.nodup_cons.mp hd
    rw [List.filter_cons]
    by_cases hv : v = 0
    · subst hv
      simp only [ne_eq, not_true_eq_false, decide_false, Bool.false_eq_true, if_false, dget]
      rw [ih hn.2]
      split
      · rename_i h
        subst h
        cases hg : dget d k' with
        | none => rfl
        | some q => exact absurd ((dget_isSome_iff d k').mp ⟨q, hg⟩) hn.1
      · rfl
    · simp only [ne_eq, hv, not_false_eq_true, decide_true, if_true, dget]
      split
      · rfl
      · exact ih hn.2

/-- The sum of the weights of the active interactions about the variables of `i`. -/
def _root_.Sawatabi.LModel.about (m : LModel) (i : Inter) : List ℚ :=
  (m.active.filter fun r => decide (i.Same r.inter)).map (·.weight)

theorem about_congr {i j : Inter} (h : ∀ k, i.Same k ↔ j.Same k) : m.about i = m.about j := by
  unfold LModel.about
  congr 2
  funext r
  exact decide_eq_decide.mpr (h _)

/-- Every coefficient of the physical model is the sum of the weights of the interactions about its variables, up to a
bound: `n` interactions make a relative error of `(1 + u)^n - 1`, relative to the sum of the absolute weights. -/
theorem C110_coefficients (hm : m.Rect) (hc : m.constraints = []) (hpl : m.Plain) (hu : 0 ≤ u) (hr : Relative u round)
    (h : (toPhysicalR round env clks ids ph).run m = .ok p m') (v w : PVar) :
    |(dget p.linear v.label).getD 0 - (m.about (.lin v)).sum| ≤
      ((1 + u) ^ (m.about (.lin v)).length - 1) * ((m.about (.lin v)).map abs).sum ∧
    |(dget p.quad (v.label, w.label)).getD 0 - (m.about (.quad v w)).sum| ≤
      ((1 + u) ^ (m.about (.quad v w)).length - 1) * ((m.about (.quad v w)).map abs).sum := by
  obtain ⟨-, -, e1, e2⟩ := toPhysicalR_ok hm.1 hc hpl h
  rw [e1, e2, dget_filter_ne _ (sumsR_keys _).1, dget_filter_ne _ (sumsR_keys _).1, sumsR_get, sumsR_get, linPairs_key,
    quadPairs_key]
  have a1 : m.about (.lin v) = m.about (.lin ⟨.spin, v.label⟩) := about_congr fun k => by cases k <;> rfl
  have a2 : m.about (.quad v w) = m.about (.quad ⟨.spin, v.label⟩ ⟨.spin, w.label⟩) := about_congr fun k => by cases k <;> rfl
  rw [a1, a2]
  exact ⟨keySum_error hu hr (m.about (.lin ⟨.spin, v.label⟩)),
    keySum_error hu hr (m.about (.quad ⟨.spin, v.label⟩ ⟨.spin, w.label⟩))⟩

/-- The energy of the physical model is that of the logical model, up to a bound: `K` is the largest number of
interactions about the same variables, and the sum of the absolute weights is the scale. -/
theorem C110_energy (hm : m.Rect) (hc : m.constraints = []) (hpl : m.Plain) (hu : 0 ≤ u) (hr : Relative u round)
    (hK : m.AtMost K) (h : (toPhysicalR round env clks ids ph).run m = .ok p m') (ρ : PEnv) {σ : Assign}
    (hσ : ∀ l, |σ l| ≤ 1) : |p.energy σ - m.energy ρ σ| ≤ ((1 + u) ^ K - 1) * m.weights := by
  obtain ⟨e0, -, e1, e2⟩ := toPhysicalR_ok hm.1 hc hpl h
  have h1 := sumsR_error hu hr (linPairs m.rows) (K := K) (fun k => by rw [linPairs_count]; exact hK _) (fun k => σ k) hσ
  have h2 := sumsR_error hu hr (quadPairs m.rows) (K := K) (fun k => by rw [quadPairs_count]; exact hK _)
    (fun k => σ k.1 * σ k.2) (fun k => by
      rw [abs_mul]
      exact mul_le_one₀ (hσ _) (abs_nonneg _) (hσ _))
  unfold Physical.energy LModel.energy
  rw [e1, e2, sum_filter_ne, sum_filter_ne (fun k : String × String => σ k.1 * σ k.2), terms_pairs _ hpl.rows, e0]
  have e3 : m.weights = _ := weights_pairs m.rows
  rw [e3, mul_add]
  simp only [Coef.eval]
  have := abs_add_le
    (((linPairs m.rows).map fun p => p.2 * σ p.1).sum - ((sumsR round (linPairs m.rows)).map fun kv => kv.2 * σ kv.1).sum)
    (((quadPairs m.rows).map fun p => p.2 * (σ p.1.1 * σ p.1.2)).sum -
      ((sumsR round (quadPairs m.rows)).map fun kv => kv.2 * (σ kv.1.1 * σ kv.1.2)).sum)
  rw [abs_sub_comm] at h1 h2
  refine le_trans (le_trans (le_of_eq ?_) this) (add_le_add h1 h2)
  congr 1
  ring

/-- If the weights are multiples of some `w`, and their sums stay in the range where floats hold these multiples, then
rounding changes nothing at all. -/
theorem C110_exact (hm : m.Rect) (hc : m.constraints = []) (hpl : m.Plain) (hw : ∀ r ∈ m.active, ∃ z : ℤ, r.weight = z * w)
    (hr : Keeps w top round) (ht : m.weights ≤ top) :
    (toPhysicalR round env clks ids ph).run m = (toPhysical env clks ids ph).run m := by
  obtain ⟨q, hq⟩ := hpl.1
  have e3 : m.weights = _ := weights_pairs m.rows
  have h1 := abs_sum_nonneg (linPairs m.rows) fun p => p.2
  have h2 := abs_sum_nonneg (quadPairs m.rows) fun p => p.2
  rw [toPhysicalR_plain hm.1 hc hpl hq, toPhysical_plain hm.1 hc hpl hq,
    sumsR_exact hr (linPairs m.rows) (fun p hp => by
      obtain ⟨r, hr, e⟩ := mem_linPairs hp
      rw [e]
      exact hw r hr) (by rw [e3] at ht; linarith),
    sumsR_exact hr (quadPairs m.rows) (fun p hp => by
      obtain ⟨r, hr, e⟩ := mem_quadPairs hp
      rw [e]
      exact hw r hr) (by rw [e3] at ht; linarith)]

/-! ## The solver -/

theorem foldl_dadd_fresh {κ : Type} [DecidableEq κ] (l d : List (κ × ℚ)) (h : (dkeys (d ++ l)).Nodup) :
    l.foldl (fun d p => dadd d p.1 p.2) d = d ++ l := by
  induction l generalizing d with
  | nil => simp
  | cons p l ih =>
    have hp : p.1 ∉ dkeys d := by
      simp only [dkeys, List.map_append, List.map_cons] at h
      intro hin
      exact (List.nodup_append.mp h).2.2 _ hin _ List.mem_cons_self rfl
    have e : dadd d p.1 p.2 = d ++ [p] := by
      unfold dadd
      rw [(dget_eq_none_iff d p.1).mpr hp]
      have := dset_append_right (pre := d) (d := []) p.2 hp
      rwa [List.append_nil] at this
    rw [List.foldl_cons, e, ih]
    · simp
    · simpa using h

/-- A model with exact coefficients that has the same physical model. -/
theorem toPhysicalR_witness (hm : m.Rect) (hc : m.constraints = []) (hpl : m.Plain) (ho : AllOrdered m.rows)
    (h : (toPhysicalR round env clks ids ph).run m = .ok p m') :
    ∃ m₁ m₂, (toPhysical env clks ids []).run m₁ = .ok p m₂ ∧ AllOrdered m₁.rows := by
  obtain ⟨q, hq⟩ := hpl.1
  rw [toPhysicalR_plain hm.1 hc hpl hq] at h
  cases hpop : (((m.rows.filter (·.removed)).map (·.name)).forM popRow).run m with
  | error e m₂ => rw [hpop] at h; cases h
  | ok u m₂ =>
  rw [hpop] at h
  cases h
  let A := sumsR round (linPairs m.rows)
  let B := sumsR round (quadPairs m.rows)
  let rowA : String × ℚ → Row := fun kv => ⟨"", .lin ⟨.spin, kv.1⟩, .num kv.2, .num 1, none, false, false⟩
  let rowB : (String × String) × ℚ → Row := fun kv =>
    ⟨"", .quad ⟨.spin, kv.1.1⟩ ⟨.spin, kv.1.2⟩, .num kv.2, .num 1, none, false, false⟩
  let rows := A.map rowA ++ B.map rowB
  have hA : linPairs rows = A := by
    have h1 : ∀ l : List (String × ℚ), linPairs (l.map rowA) = l := by
      intro l
      induction l with
      | nil => rfl
      | cons x l ih => simpa [linPairs, rowA, Row.weight] using ih
    have h2 : ∀ l : List ((String × String) × ℚ), linPairs (l.map rowB) = [] := by
      intro l
      induction l with
      | nil => rfl
      | cons x l ih => simpa [linPairs, rowB] using ih
    have : linPairs rows = linPairs (A.map rowA) ++ linPairs (B.map rowB) := List.filterMap_append
    rw [this, h1, h2, List.append_nil]
  have hB : quadPairs rows = B := by
    have h1 : ∀ l : List (String × ℚ), quadPairs (l.map rowA) = [] := by
      intro l
      induction l with
      | nil => rfl
      | cons x l ih => simpa [quadPairs, rowA] using ih
    have h2 : ∀ l : List ((String × String) × ℚ), quadPairs (l.map rowB) = l := by
      intro l
      induction l with
      | nil => rfl
      | cons x l ih => simpa [quadPairs, rowB, Row.weight] using ih
    have : quadPairs rows = quadPairs (A.map rowA) ++ quadPairs (B.map rowB) := List.filterMap_append
    rw [this, h1, h2, List.nil_append]
  have hrows : ∀ r ∈ rows, (∃ kv ∈ A, r = rowA kv) ∨ ∃ kv ∈ B, r = rowB kv := by
    intro r hr
    rcases List.mem_append.mp hr with hr | hr
    · obtain ⟨kv, h1, rfl⟩ := List.mem_map.mp hr
      exact .inl ⟨kv, h1, rfl⟩
    · obtain ⟨kv, h1, rfl⟩ := List.mem_map.mp hr
      exact .inr ⟨kv, h1, rfl⟩
  have hrm : rows.filter (·.removed) = [] := by
    rw [List.filter_eq_nil_iff]
    intro r hr
    rcases hrows r hr with ⟨kv, -, rfl⟩ | ⟨kv, -, rfl⟩ <;> simp [rowA, rowB]
  let m₁ : LModel := { m with rows := rows, length := rows.length, constraints := [] }
  have hpl₁ : m₁.Plain := by
    refine ⟨⟨q, hq⟩, fun r hr => ?_⟩
    rcases hrows r (List.mem_filter.mp hr).1 with ⟨kv, -, rfl⟩ | ⟨kv, -, rfl⟩
    · exact ⟨kv.2, 1, rfl, rfl⟩
    · exact ⟨kv.2, 1, rfl, rfl⟩
  refine ⟨m₁, markClean m₁, ?_, ?_⟩
  · rw [toPhysical_plain (m := m₁) rfl rfl hpl₁ hq]
    show (match ((rows.filter (·.removed)).map (·.name)).forM popRow |>.run m₁ with | _ => _) = _
    have e1 := foldl_dadd_fresh A [] (sumsR_keys _).1
    have e2 := foldl_dadd_fresh B [] (sumsR_keys _).1
    simp only [show m₁.rows = rows from rfl, hrm, hA, hB, e1, e2, List.map_nil, Py.run_forM_nil, List.nil_append]
    rfl
  · intro r hr
    rcases hrows r hr with ⟨kv, -, rfl⟩ | ⟨kv, h1, rfl⟩
    · trivial
    · have h2 : kv.1 ∈ dkeys B := List.mem_map.mpr ⟨kv, h1, rfl⟩
      obtain ⟨x, h3, h4⟩ := ((sumsR_keys (round := round) (quadPairs m.rows)).2 _).mp h2
      simp only [quadPairs, List.mem_filterMap] at h3
      obtain ⟨r, h5, h6⟩ := h3
      have h7 := ho r h5
      by_cases hrm : r.removed = true
      · simp [hrm] at h6
      · cases hi : r.inter with
        | lin v => simp [hrm, hi] at h6
        | quad v w =>
          simp only [hrm, hi, Bool.false_eq_true, if_false, Option.some.injEq] at h6
          subst h6
          rw [hi] at h7
          show Inter.Ordered (.quad ⟨.spin, kv.1.1⟩ ⟨.spin, kv.1.2⟩)
          rw [← h4]
          exact h7

/-- The sum of the absolute coefficients of the physical model, from the logical model. -/
def _root_.Sawatabi.LModel.massBound (m : LModel) (u : ℚ) (K : Nat) : ℚ := |m.offset.eval fun _ => 0| + (1 + u) ^ K * m.weights

theorem keySum_abs (hu : 0 ≤ u) (hr : Relative u round) (vs : List ℚ) :
    |(keySum round vs).getD 0| ≤ (1 + u) ^ vs.length * (vs.map abs).sum := by
  have h1 := keySum_error hu hr vs
  have h2 : |vs.sum| ≤ (vs.map abs).sum := by
    clear h1
    induction vs with
    | nil => simp
    | cons v vs ih =>
      simp only [List.sum_cons, List.map_cons]
      exact le_trans (abs_add_le _ _) (by linarith)
  have h3 := abs_add_le ((keySum round vs).getD 0 - vs.sum) vs.sum
  rw [sub_add_cancel] at h3
  linarith

theorem sumsR_mass {κ : Type} [DecidableEq κ] (hu : 0 ≤ u) (hr : Relative u round) (l : List (κ × ℚ))
    (hK : ∀ k, (l.filter fun p => decide (p.1 = k)).length ≤ K) :
    (((sumsR round l).filter (·.2 ≠ 0)).map fun kv => |kv.2|).sum ≤ (1 + u) ^ K * (l.map fun p => |p.2|).sum := by
  obtain ⟨hnd, hmem⟩ := sumsR_keys (round := round) l
  have h0 : (((sumsR round l).filter (·.2 ≠ 0)).map fun kv => |kv.2|).sum ≤ ((sumsR round l).map fun kv => |kv.2|).sum := by
    generalize sumsR round l = d
    induction d with
    | nil => simp
    | cons x d ih =>
      have := abs_nonneg x.2
      rw [List.filter_cons]
      split
      · simp only [List.map_cons, List.sum_cons]; linarith
      · simp only [List.map_cons, List.sum_cons]; linarith
  refine le_trans h0 ?_
  have h1 : ((sumsR round l).map fun kv => |kv.2|).sum = ((dkeys (sumsR round l)).map fun k => |(dget (sumsR round l) k).getD 0|).sum := by
    generalize sumsR round l = d at hnd
    induction d with
    | nil => rfl
    | cons x d ih =>
      have hn := List.nodup_cons.mp hnd
      simp only [dkeys, List.map_cons, List.sum_cons, dget, if_true, Option.getD_some] at ih ⊢
      rw [ih hn.2]
      congr 2
      apply List.map_congr_left
      intro k' hk'
      rw [if_neg]
      rintro rfl
      exact hn.1 hk'
  have hin : ∀ p ∈ l, p.1 ∈ dkeys (sumsR round l) := fun p hp => (hmem _).mpr ⟨p, hp, rfl⟩
  rw [h1, ← Tsp.sum_groups (fun p : κ × ℚ => p.1) (fun p => |p.2|) l hnd hin]
  generalize dkeys (sumsR round l) = ks
  induction ks with
  | nil => simp
  | cons k ks ih =>
    simp only [List.map_cons, List.sum_cons, sumsR_get, mul_add] at ih ⊢
    refine add_le_add ?_ ih
    refine le_trans (keySum_abs hu hr _) ?_
    rw [List.length_map, List.map_map]
    exact mul_le_mul_of_nonneg_right (pow_le_pow_right₀ (by linarith) (hK k)) (abs_sum_nonneg _ _)

theorem physicalR_mass (hm : m.Rect) (hc : m.constraints = []) (hpl : m.Plain) (hu : 0 ≤ u) (hr : Relative u round)
    (hK : m.AtMost K) (h : (toPhysicalR round env clks ids ph).run m = .ok p m') : p.mass ≤ m.massBound u K := by
  obtain ⟨e0, -, e1, e2⟩ := toPhysicalR_ok hm.1 hc hpl h
  have h1 := sumsR_mass hu hr (linPairs m.rows) (K := K) (fun k => by rw [linPairs_count]; exact hK _)
  have h2 := sumsR_mass hu hr (quadPairs m.rows) (K := K) (fun k => by rw [quadPairs_count]; exact hK _)
  have e3 : m.weights = _ := weights_pairs m.rows
  unfold Physical.mass LModel.massBound
  rw [e1, e2, e3, e0]
  simp only [Coef.eval, mul_add]
  linarith

theorem physicalR_ready (hm : m.Rect) (hc : m.constraints = []) (hpl : m.Plain) (ho : AllOrdered m.rows)
    (h : (toPhysicalR round env clks ids ph).run m = .ok p m') (hs : prepare p = .ok s) :
    p.Ready p.labels ∧ ∀ v, v ∈ p.varsSet ↔ v ∈ p.labels := by
  obtain ⟨m₁, m₂, h1, h2⟩ := toPhysicalR_witness hm hc hpl ho h
  have hr := toPhysical_prepared h2 (by simp) h1 hs
  rw [← index_values h1] at hr
  exact ⟨hr, fun v => (varsSet_iff h1 v).trans (hr.mem v).symm⟩

theorem annealed_assign (hp : p.Ready ls) (hs : prepare p = .ok s) (hr : rng.Ok) {st : Option Sample} (hi : InitOk ls st)
    (hu : 0 ≤ u) (hround : Relative u ar.round) (hsum : SumsUp ar.round ar.energy s.bqm ls) (hD : p.DegreeAtMost D)
    {g g' : γ} {a : Annealed} (h : annealingR ar rng exp s o st g = .ok (a, g')) (v : String) :
    |(changeVartype p.mtype.vtype a.sample).assign v| ≤ 1 := by
  obtain ⟨hok, rfl⟩ := prepare_ok' hp hs
  obtain ⟨x, e, h1, h2, h3, -⟩ := run_near hok.toArrays (flipNear_drift hok.toArrays hu hround (prepared_degree hok hD) _) hr
    (by
      have := energyWithin_relative hu hround hsum
      unfold driftBound
      simpa using this) hi h
  have hsmp : changeVartype s.model.mtype.vtype a.sample = s.model.sampleOf ls x := by
    rw [h1, ← decode_eq hok.ready h3.length, sampleOf_eq hok h3.length]
  rw [hsmp]
  exact (sampleOf_values h3.spins v).2

/-- The bound for rectangular models with ordered pairs. -/
theorem reported_of (hrect : m.Rect) (ho : AllOrdered m.rows) (hc : m.constraints = []) (hpl : m.Plain) (hu : 0 ≤ u)
    (hround : Relative u ar.round) (hK : m.AtMost K) (hp : (toPhysicalR ar.round env clks ids ph).run m = .ok p m')
    (hD : p.DegreeAtMost D) (hsum : ∀ s, prepare p = .ok s → SumsUp ar.round ar.energy s.bqm p.labels) (hr : rng.Ok)
    (hst : StatesOk p p.varsSet init) (h : (solveR ar rng seeded fresh exp p numReads o seed).run init = .ok l init')
    (ρ : PEnv) : ∀ a ∈ l, |a.energy - m.energy ρ a.sample.assign| ≤
      (1 + u) * (driftBound u D (m.massBound u K)
        (((1 + u) ^ (1 + p.labels.length + p.quad.length) - 1) * m.massBound u K) a.acceptanceHist.sum +
          ((1 + u) ^ K - 1) * m.weights) + u * |m.energy ρ a.sample.assign| := by
  obtain ⟨_, _, _, s', _, _, hs', -⟩ := solveR_ok h
  obtain ⟨hready, hvars⟩ := physicalR_ready hrect hc hpl ho hp hs'
  obtain ⟨s, hs, hall⟩ := solveR_reads (ls := p.labels) (fun l0 h1 st h2 v hv => hst l0 h1 st h2 v ((hvars v).mpr hv)) h
  intro a ha
  obtain ⟨st, g, g', b, hi, hrun, rfl⟩ := hall a ha
  have hv : s.original.vartype = p.mtype.vtype := by
    obtain ⟨hok, rfl⟩ := prepare_ok' hready hs
    rw [hok.original]; rfl
  have h1 := C109_energy hready hs hr hi hu hround (hsum s hs) hD hrun
  have h2 := C110_energy hrect hc hpl hu hround hK hp ρ (annealed_assign hready hs hr hi hu hround (hsum s hs) hD hrun)
  have h3 := physicalR_mass hrect hc hpl hu hround hK hp
  simp only [hv]
  generalize (changeVartype p.mtype.vtype b.sample).assign = σ at h1 h2 ⊢
  have h4 : ((1 + u) ^ (1 + p.labels.length + p.quad.length) - 1) * p.mass ≤
      ((1 + u) ^ (1 + p.labels.length + p.quad.length) - 1) * m.massBound u K := by
    apply mul_le_mul_of_nonneg_left h3
    have : (1 : ℚ) ≤ (1 + u) ^ (1 + p.labels.length + p.quad.length) := one_le_pow₀ (by linarith)
    linarith
  have h5 := driftBound_mono (D := D) hu h3 h4 b.acceptanceHist.sum
  have h6 := abs_add_le (b.energy - p.energy σ) (p.energy σ - m.energy ρ σ)
  rw [sub_add_sub_cancel] at h6
  have h7 : |p.energy σ| ≤ |p.energy σ - m.energy ρ σ| + |m.energy ρ σ| := by
    have := abs_add_le (p.energy σ - m.energy ρ σ) (m.energy ρ σ)
    rwa [sub_add_cancel] at this
  have h8 := mul_le_mul_of_nonneg_left h7 hu
  have h9 := mul_le_mul_of_nonneg_left h5 (by linarith : (0 : ℚ) ≤ 1 + u)
  have h10 := mul_le_mul_of_nonneg_left h2 hu
  rw [mul_add]
  linarith

/-- The energies that the solver reports in floats, for the physical model made in floats, against the energy of the
logical model. -/
theorem C110_reported (hm : Made env KnownKeys m) (hc : m.constraints = []) (hpl : m.Plain) (hu : 0 ≤ u)
    (hround : Relative u ar.round) (hK : m.AtMost K) (hp : (toPhysicalR ar.round env clks ids ph).run m = .ok p m')
    (hD : p.DegreeAtMost D) (hsum : ∀ s, prepare p = .ok s → SumsUp ar.round ar.energy s.bqm p.labels) (hr : rng.Ok)
    (hst : StatesOk p p.varsSet init) (h : (solveR ar rng seeded fresh exp p numReads o seed).run init = .ok l init')
    (ρ : PEnv) : ∀ a ∈ l, |a.energy - m.energy ρ a.sample.assign| ≤
      (1 + u) * (driftBound u D (m.massBound u K)
        (((1 + u) ^ (1 + p.labels.length + p.quad.length) - 1) * m.massBound u K) a.acceptanceHist.sum +
          ((1 + u) ^ K - 1) * m.weights) + u * |m.energy ρ a.sample.assign| :=
  reported_of (made_rect (fun _ _ h => h) hm) (made_ordered hm) hc hpl hu hround hK hp hD hsum hr hst h ρ

theorem relative_id : Relative 0 (id : ℚ → ℚ) := fun q => by simp

theorem keeps_id : Keeps w top (id : ℚ → ℚ) := fun _ _ => rfl

theorem multiple_sum (vs : List ℚ) (h : ∀ v ∈ vs, ∃ z : ℤ, v = z * w) : ∃ z : ℤ, vs.sum = z * w := by
  induction vs with
  | nil => exact ⟨0, by simp⟩
  | cons v vs ih =>
    obtain ⟨a, ha⟩ := h v (by simp)
    obtain ⟨b, hb⟩ := ih fun v hv => h v (by simp [hv])
    exact ⟨a + b, by rw [List.sum_cons, ha, hb]; push_cast; ring⟩

theorem sums_multiples {κ : Type} [DecidableEq κ] (l : List (κ × ℚ)) (h : ∀ p ∈ l, ∃ z : ℤ, p.2 = z * w) :
    ∀ kv ∈ sumsR id l, ∃ z : ℤ, kv.2 = z * w := by
  intro kv hkv
  have h1 := dget_of_mem (sumsR_keys l).1 hkv
  rw [sumsR_get] at h1
  have h2 := keySum_error (le_refl 0) relative_id ((l.filter fun p => decide (p.1 = kv.1)).map (·.2))
  rw [h1, Option.getD_some] at h2
  simp only [add_zero, one_pow, sub_self, zero_mul] at h2
  have h3 := sub_eq_zero.mp (abs_nonpos_iff.mp h2)
  rw [h3]
  apply multiple_sum
  intro v hv
  obtain ⟨p, hp, rfl⟩ := List.mem_map.mp hv
  exact h p (List.mem_filter.mp hp).1

/-- The exact physical model of a model whose weights are multiples of `w`. -/
theorem physical_multiples (hm : m.Rect) (hc : m.constraints = []) (hpl : m.Plain) (hw : m.Multiples w)
    (h : (toPhysical env clks ids ph).run m = .ok p m') : p.Multiples w ∧ p.mass ≤ |m.offset.eval fun _ => 0| + m.weights := by
  have h' : (toPhysicalR id env clks ids ph).run m = .ok p m' := by
    rw [C110_exact hm hc hpl hw.2 (top := m.weights) keeps_id le_rfl, h]
  obtain ⟨e0, -, e1, e2⟩ := toPhysicalR_ok hm.1 hc hpl h'
  constructor
  · refine ⟨?_, ?_, ?_⟩
    · obtain ⟨z, hz⟩ := hw.1
      rw [e0] at hz
      exact ⟨z, Coef.num.inj hz⟩
    · intro kv hkv
      rw [e1] at hkv
      refine sums_multiples _ (fun x hx => ?_) kv (List.mem_filter.mp hkv).1
      obtain ⟨r, hr, e⟩ := mem_linPairs hx
      rw [e]
      exact hw.2 r hr
    · intro kv hkv
      rw [e2] at hkv
      refine sums_multiples _ (fun x hx => ?_) kv (List.mem_filter.mp hkv).1
      obtain ⟨r, hr, e⟩ := mem_quadPairs hx
      rw [e]
      exact hw.2 r hr
  · have := physicalR_mass (K := m.active.length) hm hc hpl (le_refl 0) relative_id
      (fun i => List.length_filter_le _ _) h'
    unfold LModel.massBound at this
    simpa using this

/-- Integers, for rectangular models with ordered pairs. -/
theorem integers_of (hrect : m.Rect) (ho : AllOrdered m.rows) (hc : m.constraints = []) (hpl : m.Plain) (hw : m.Multiples 1)
    (hround : ar.round = nearest 53) (htop : |m.offset.eval fun _ => 0| + m.weights ≤ 2 ^ 51)
    (hp : (toPhysicalR ar.round env clks ids ph).run m = .ok p m')
    (hsum : ∀ s, prepare p = .ok s → SumsUp ar.round ar.energy s.bqm p.labels) (hr : rng.Ok)
    (hst : StatesOk p p.varsSet init) (h : (solveR ar rng seeded fresh exp p numReads o seed).run init = .ok l init')
    {ρ : PEnv} (hρ : ρ.Extends ph) : ∀ a ∈ l, a.energy = m.energy ρ a.sample.assign := by
  have hoff := abs_nonneg (m.offset.eval fun _ => 0)
  have hkeep : Keeps 1 (2 ^ 53) ar.round := by
    rw [hround]
    simpa using nearest_keeps (p := 53) (by norm_num) 0
  have hexact : (toPhysical env clks ids ph).run m = .ok p m' := by
    rw [← C110_exact hrect hc hpl hw.2 hkeep (by linarith), hp]
  obtain ⟨hmult, hmass⟩ := physical_multiples hrect hc hpl hw hexact
  obtain ⟨_, _, _, s', _, _, hs', -⟩ := solveR_ok h
  obtain ⟨hready, hvars⟩ := physicalR_ready hrect hc hpl ho hp hs'
  obtain ⟨s, hs, hall⟩ := solveR_reads (ls := p.labels) (fun l0 h1 st h2 v hv => hst l0 h1 st h2 v ((hvars v).mpr hv)) h
  intro a ha
  obtain ⟨st, g, g', b, hi, hrun, rfl⟩ := hall a ha
  have hv : s.original.vartype = p.mtype.vtype := by
    obtain ⟨hok, rfl⟩ := prepare_ok' hready hs
    rw [hok.original]; rfl
  have h1 := C109_integers hready hs hr hi hmult hround (le_trans hmass htop) (hsum s hs) hrun
  simp only [hv]
  rw [h1]
  exact C19_energy_partial hrect hc hexact hρ _

/-- The floats of Python, from the logical model to the answer: if the offset and the weights are integers, and their
absolute values add up to at most `2^51`, then every reported energy is the energy of the logical model at the reported
sample, as computed without rounding. -/
theorem C110_integers (hm : Made env KnownKeys m) (hc : m.constraints = []) (hpl : m.Plain) (hw : m.Multiples 1)
    (hround : ar.round = nearest 53) (htop : |m.offset.eval fun _ => 0| + m.weights ≤ 2 ^ 51)
    (hp : (toPhysicalR ar.round env clks ids ph).run m = .ok p m')
    (hsum : ∀ s, prepare p = .ok s → SumsUp ar.round ar.energy s.bqm p.labels) (hr : rng.Ok)
    (hst : StatesOk p p.varsSet init) (h : (solveR ar rng seeded fresh exp p numReads o seed).run init = .ok l init')
    {ρ : PEnv} (hρ : ρ.Extends ph) : ∀ a ∈ l, a.energy = m.energy ρ a.sample.assign :=
  integers_of (made_rect (fun _ _ h => h) hm) (made_ordered hm) hc hpl hw hround htop hp hsum hr hst h hρ

/-! ## Examples and counterexamples -/

/-- The calls that make an Ising model with one interaction of two variables, and interactions with the given names and
coefficients of one variable. -/
def _root_.Sawatabi.Ex.sumOps (cs : List (String × ℚ)) : List Op :=
  .variables "x" [2] :: .add 2 (.tuple [some ⟨.spin, "x[0]"⟩, some ⟨.spin, "x[1]"⟩]) (.str "") (.num 1) (.num 1) .none .none ::
    cs.map fun c => .add 1 (.var ⟨.spin, "x[0]"⟩) (.str c.1) (.num c.2) (.num 1) .none .none

def _root_.Sawatabi.Ex.sumModel (cs : List (String × ℚ)) : LModel :=
  (Ex.sumOps cs).foldl (Op.step ⟨0, fun _ => "t"⟩) (LModel.new .ising "101")

theorem _root_.Sawatabi.Ex.sum_made (cs : List (String × ℚ)) : Made ⟨0, fun _ => "t"⟩ KnownKeys (Ex.sumModel cs) :=
  made_ops _ (.new _ _) (by
    intro op hop clk o
    simp only [Ex.sumOps, List.mem_cons, List.mem_map] at hop
    rcases hop with rfl | rfl | ⟨c, -, rfl⟩ <;> simp) fun _ op h => by
    simp only [Ex.sumOps, List.mem_cons, List.mem_map] at h
    rcases h with rfl | rfl | ⟨c, -, rfl⟩ <;> trivial

/-- A test for models without placeholders. -/
theorem plainDec (h : ((match m.offset with | .num _ => true | _ => false) && m.active.all fun r =>
    match r.coef, r.scale with | .num _, .num _ => true | _, _ => false) = true) : m.Plain := by
  rw [Bool.and_eq_true, List.all_eq_true] at h
  refine ⟨?_, fun r hr => ?_⟩
  · cases ho : m.offset with
    | num q => exact ⟨q, rfl⟩
    | _ => rw [ho] at h; cases h.1
  · have := h.2 r hr
    cases hc : r.coef with
    | num a => cases hs : r.scale with
      | num b => exact ⟨a, b, rfl, rfl⟩
      | _ => rw [hc, hs] at this; cases this
    | _ => rw [hc] at this; cases this

/-- Coefficients that are added up to 1, and to 0 in floats. -/
def _root_.Sawatabi.Ex.vanishing : LModel := Ex.sumModel [("a", 2 ^ 54), ("b", 1), ("c", - 2 ^ 54)]

/-- Coefficients that are added up to 0, and to 1 in floats. -/
def _root_.Sawatabi.Ex.appearing : LModel := Ex.sumModel [("a", 2 ^ 54), ("b", 3), ("c", - 2 ^ 54), ("d", -3)]

def _root_.Sawatabi.Ex.physicalR (m : LModel) : Res LModel Physical :=
  (toPhysicalR (nearest 53) ⟨0, fun _ => "t"⟩ (fun _ _ => 0) (fun _ => "1") []).run m

def _root_.Sawatabi.Ex.physical (m : LModel) : Res LModel Physical :=
  (toPhysical ⟨0, fun _ => "t"⟩ (fun _ _ => 0) (fun _ => "1") []).run m

theorem vanishing_runs : (∃ p m', Ex.physicalR Ex.vanishing = .ok p m' ∧ p.linear = []) ∧
    ∃ p m', Ex.physical Ex.vanishing = .ok p m' ∧ p.linear = [("x[0]", 1)] := by
  constructor
  · obtain ⟨p, m', h, e⟩ := Ex.exists_of_okAnd (r := Ex.physicalR Ex.vanishing) (p := fun p _ => decide (p.linear = []))
      (by decide +kernel)
    exact ⟨p, m', h, by simpa using e⟩
  · obtain ⟨p, m', h, e⟩ := Ex.exists_of_okAnd (r := Ex.physical Ex.vanishing)
      (p := fun p _ => decide (p.linear = [("x[0]", 1)])) (by decide +kernel)
    exact ⟨p, m', h, by simpa using e⟩

theorem appearing_runs : (∃ p m', Ex.physicalR Ex.appearing = .ok p m' ∧ p.linear = [("x[0]", 1)]) ∧
    ∃ p m', Ex.physical Ex.appearing = .ok p m' ∧ p.linear = [] := by
  constructor
  · obtain ⟨p, m', h, e⟩ := Ex.exists_of_okAnd (r := Ex.physicalR Ex.appearing)
      (p := fun p _ => decide (p.linear = [("x[0]", 1)])) (by decide +kernel)
    exact ⟨p, m', h, by simpa using e⟩
  · obtain ⟨p, m', h, e⟩ := Ex.exists_of_okAnd (r := Ex.physical Ex.appearing) (p := fun p _ => decide (p.linear = []))
      (by decide +kernel)
    exact ⟨p, m', h, by simpa using e⟩

/-- Without the limit, even for integer coefficients, a term of the exact physical model may be missing in floats. -/
theorem C110_vanish_refuted : ¬ ∀ (m : LModel) (p q : Physical) (m₁ m₂ : LModel), Made ⟨0, fun _ => "t"⟩ KnownKeys m →
    m.constraints = [] → m.Plain → Ex.physicalR m = .ok p m₁ → Ex.physical m = .ok q m₂ →
    ∀ v, v ∈ dkeys q.linear → v ∈ dkeys p.linear := by
  intro hall
  obtain ⟨⟨p, m₁, h1, e1⟩, q, m₂, h2, e2⟩ := vanishing_runs
  have := hall _ p q m₁ m₂ (Ex.sum_made _) (by decide +kernel) (plainDec (by decide +kernel)) h1 h2 "x[0]" (by simp [e2, dkeys])
  rw [e1] at this
  cases this

/-- And a term may be left over in floats whose coefficients add up to zero. -/
theorem C110_appear_refuted : ¬ ∀ (m : LModel) (p q : Physical) (m₁ m₂ : LModel), Made ⟨0, fun _ => "t"⟩ KnownKeys m →
    m.constraints = [] → m.Plain → Ex.physicalR m = .ok p m₁ → Ex.physical m = .ok q m₂ →
    ∀ v, v ∈ dkeys p.linear → v ∈ dkeys q.linear := by
  intro hall
  obtain ⟨⟨p, m₁, h1, e1⟩, q, m₂, h2, e2⟩ := appearing_runs
  have := hall _ p q m₁ m₂ (Ex.sum_made _) (by decide +kernel) (plainDec (by decide +kernel)) h1 h2 "x[0]" (by simp [e1, dkeys])
  rw [e2] at this
  cases this

/-- A run in floats of the solver, on the physical model made in floats. -/
def _root_.Sawatabi.Ex.solvedR (m : LModel) : Option (List (ℚ × Sample)) :=
  match Ex.physicalR m with
  | .error _ _ => none
  | .ok p _ =>
    match (solveR (Ex.floats 53) Ex.rng id 0 Ex.exp p 2 Ex.options none).run none with
    | .error _ _ => none
    | .ok l _ => some (l.map fun a => (a.energy, a.sample))

/-- A model with small integer weights, where everything is exact, and the vanishing one, where the energies of the samples
are `2` and `0`. -/
example : Ex.solvedR (Ex.sumModel [("a", 3), ("b", -1)]) =
      some [(3, [("x[0]", -1), ("x[1]", 1)]), (-1, [("x[0]", 1), ("x[1]", -1)])] ∧
    (Ex.sumModel [("a", 3), ("b", -1)]).energy (fun _ => 0) (Sample.assign [("x[0]", -1), ("x[1]", 1)]) = 3 ∧
    (Ex.sumModel [("a", 3), ("b", -1)]).energy (fun _ => 0) (Sample.assign [("x[0]", 1), ("x[1]", -1)]) = -1 ∧
    Ex.solvedR Ex.vanishing = some [(1, [("x[0]", -1), ("x[1]", 1)]), (1, [("x[0]", 1), ("x[1]", -1)])] ∧
    Ex.vanishing.energy (fun _ => 0) (Sample.assign [("x[0]", -1), ("x[1]", 1)]) = 2 ∧
    Ex.vanishing.energy (fun _ => 0) (Sample.assign [("x[0]", 1), ("x[1]", -1)]) = 0 := by decide +kernel

/-- The other hypotheses, and the bound of `C110_energy` for the vanishing model, which is sharp up to a factor of 12. -/
example : (Ex.sumModel [("a", 3), ("b", -1)]).Multiples 1 ∧ (Ex.sumModel [("a", 3), ("b", -1)]).weights = 5 ∧
    Ex.vanishing.AtMost 3 ∧ Ex.vanishing.weights = 2 ^ 55 + 2 ∧
    ((1 + 1 / 2 ^ 53 : ℚ) ^ 3 - 1) * Ex.vanishing.weights < 13 := by
  refine ⟨⟨⟨0, by decide +kernel⟩, ?_⟩, by decide +kernel, fun i => ?_, by decide +kernel, by decide +kernel⟩
  · intro r hr
    have : r.weight ∈ (Ex.sumModel [("a", 3), ("b", -1)]).active.map (·.weight) := List.mem_map.mpr ⟨r, hr, rfl⟩
    rw [show (Ex.sumModel [("a", 3), ("b", -1)]).active.map (·.weight) = [1, 3, -1] by decide +kernel] at this
    simp only [List.mem_cons, List.not_mem_nil, or_false] at this
    rcases this with h | h | h
    · exact ⟨1, by rw [h]; norm_num⟩
    · exact ⟨3, by rw [h]; norm_num⟩
    · exact ⟨-1, by rw [h]; norm_num⟩
  · have e : Ex.vanishing.active.map (·.inter) = [.quad ⟨.spin, "x[0]"⟩ ⟨.spin, "x[1]"⟩, .lin ⟨.spin, "x[0]"⟩,
        .lin ⟨.spin, "x[0]"⟩, .lin ⟨.spin, "x[0]"⟩] := by decide +kernel
    have e2 : (Ex.vanishing.active.filter fun r => decide (i.Same r.inter)).length =
        ((Ex.vanishing.active.map (·.inter)).filter fun j => decide (i.Same j)).length := by
      rw [List.filter_map, List.length_map]
      rfl
    rw [e2, e]
    cases i with
    | lin v =>
      rw [List.filter_cons_of_neg (by rw [decide_eq_true_eq]; exact id)]
      exact List.length_filter_le _ _
    | quad v w =>
      rw [List.filter_cons]
      have h : (([.lin ⟨.spin, "x[0]"⟩, .lin ⟨.spin, "x[0]"⟩, .lin ⟨.spin, "x[0]"⟩] : List Inter).filter fun j =>
          decide ((Inter.quad v w).Same j)) = [] := by
        rw [List.filter_eq_nil_iff]
        intro j hj
        rw [decide_eq_true_eq]
        simp only [List.mem_cons, List.not_mem_nil, or_false, or_self] at hj
        rw [hj]
        exact id
      rw [h]
      split <;> simp

end Props
end Sawatabi
