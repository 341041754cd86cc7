import Verif.Lemmas.RoundingPenalty
import Verif.Props.RoundingSpin
import Verif.Props.Penalty

/-!
# C126: constraints of QUBO models in floating point
-/

namespace Sawatabi
namespace Props

variable {env : Env} {clks : Nat → Nat → ℚ} {ids : Nat → String} {ph : List (String × ℚ)} {m m' : LModel} {p : Physical}
  {round : ℚ → ℚ} {u w top : ℚ} {K D : Nat} {s : Problem} {γ : Type} {ar : Arith} {conv : Bqm → Bqm} {rng : Rng γ}
  {exp : ℚ → Except Err ℚ} {o : Options} {seeded : Nat → γ} {fresh : γ} {numReads : Int} {seed : Option Int}
  {init init' : Option (List Sample)} {l : List Annealed}

theorem _root_.Sawatabi.SameShape.restored {a b : LModel} (h : SameShape a b) (m : LModel) : restored m b = restored m a := by
  obtain ⟨R, rfl⟩ : ∃ R, b = { a with rows := R } := ⟨_, h.same⟩
  rfl

theorem _root_.Sawatabi.SameShape.removed {a b : LModel} (h : SameShape a b) :
    (b.rows.filter (·.removed)).map (·.name) = (a.rows.filter (·.removed)).map (·.name) := by
  have key : ∀ rows : List Row, (rows.filter (·.removed)).map (·.name) =
      ((rows.map fun r => { r with coef := .num 0 }).filter (·.removed)).map (·.name) := by
    intro rows
    rw [List.filter_map, List.map_map]
    rfl
  rw [key, h.rows, ← key]

/-- For QUBO models with constraints, rounding changes neither whether `to_physical` succeeds nor which error it raises. If
it succeeds, it leaves the same model behind, and of the result only coefficients are different. If it fails, the models
left behind are the same up to coefficients. -/
theorem C126_outcome (hm : m.Rect) (hq : m.mtype = .qubo) (hpl : m.Plain) :
    (∃ e a b, (toPhysicalRC round env clks ids ph).run m = .error e b ∧ (toPhysical env clks ids ph).run m = .error e a ∧
      b.mtype = a.mtype ∧ b.names = a.names ∧ b.constraints = a.constraints ∧ b.offset = a.offset) ∨
    ∃ p q m', (toPhysicalRC round env clks ids ph).run m = .ok p m' ∧ (toPhysical env clks ids ph).run m = .ok q m' ∧
      p.mtype = q.mtype ∧ p.offset = q.offset := by
  obtain ⟨q, hoff⟩ := hpl.1
  rw [toPhysicalRC_run, toPhysical_run]
  rcases loopR_merged (round := round) (env := env) (clks := clks) (ids := ids) hm hq hpl with
    ⟨e, a₁, b₁, h1, h2, h3⟩ | ⟨a₁, b₁, h1, h2, h3, -, hb⟩
  · rw [h1, h2]
    refine .inl ⟨e, a₁, b₁, rfl, rfl, ?_, h3.names, ?_, ?_⟩ <;>
    · obtain ⟨R, rfl⟩ : ∃ R, b₁ = { a₁ with rows := R } := ⟨_, h3.same⟩
      rfl
  · have ha := (loop_merged hm hq hpl h2).2
    rw [h1, h2]
    simp only
    rw [groupR_ok hb.len hb.plain, group_plain ha.len ha.plain]
    simp only [hb.offset, ha.offset, hoff, Coef.resolve, Coef.toExpr, PExpr.resolveR, PExpr.resolve, h3.removed, h3.restored]
    cases (((a₁.rows.filter (·.removed)).map (·.name)).forM popRow).run (restored m a₁) with
    | error e m₂ => exact .inl ⟨e, m₂, m₂, rfl, rfl, rfl, rfl, rfl, rfl⟩
    | ok _ m₂ =>
      refine .inr ⟨_, _, _, rfl, rfl, ?_, rfl⟩
      rw [hb.build, ha.build]
      rfl

/-- The energy of the physical model in floats is the energy of the logical model plus the penalties of the constraints,
up to a bound: `K` is the largest number of interactions and constraints about the same variables, and the scale is the
sum of the absolute weights and the absolute coefficients of the penalties. -/
theorem C126_energy (hm : m.Rect) (hq : m.mtype = .qubo) (hpl : m.Plain) (hd : ∀ c ∈ m.constraints, c.2.Distinct)
    (hu : 0 ≤ u) (hr : Relative u round) (hK : m.SharedAtMost K) (h : (toPhysicalRC round env clks ids ph).run m = .ok p m')
    (ρ : PEnv) {σ : Assign} (hσ : σ.IsBinary) :
    |p.energy σ - objective m ρ σ| ≤ ((1 + u) ^ (K + 1) - 1) * m.totalWeights := by
  obtain ⟨hg, m₁, h1⟩ := flat_run hm hq hpl h
  have e1 := C110_energy (flat_rect m) rfl (flat_plain hpl) hu hr (flat_atMost hK hg hd) h1 ρ (σ := σ)
    fun l => by rcases hσ l with h | h <;> simp [h]
  have e2 := flat_energy hu hr hg hd ρ hσ
  have e3 := flat_weights hu hr hg hd
  have e4 : 0 ≤ m.weights := List.sum_nonneg (by simp)
  have e5 : (1 : ℚ) ≤ (1 + u) ^ K := one_le_pow₀ (by linarith)
  have e6 := mul_le_mul_of_nonneg_left e3 (show (0 : ℚ) ≤ (1 + u) ^ K - 1 by linarith)
  have e7 := abs_add_le (p.energy σ - (m.flat round).energy ρ σ) ((m.flat round).energy ρ σ - objective m ρ σ)
  rw [sub_add_sub_cancel] at e7
  have e8 : |(m.flat round).energy ρ σ - objective m ρ σ| ≤ u * (m.constraints.map fun c => c.2.mass).sum := e2
  have e9 : u * (m.constraints.map fun c => c.2.mass).sum ≤ u * m.totalWeights := by
    apply mul_le_mul_of_nonneg_left _ hu
    unfold LModel.totalWeights
    linarith
  rw [pow_succ]
  linarith

/-! ## Exactness -/

/-- The coefficients of a constraint are integer multiples of its strength. -/
theorem items_multiples {c : Constraint} (h : ∃ z : ℤ, c.weight = z * w) :
    ∀ it ∈ c.items, ∀ now label, ∃ z : ℤ, (it.row now label).weight = z * w := by
  obtain ⟨z, hz⟩ := h
  have pair : ∀ (a b : PVar) (k : ℤ) (now : ℚ) (label : String), ∃ z' : ℤ, ((Item.pair a b (k * (z * w))).row now label).weight = z' * w :=
    fun a b k _ _ => ⟨k * z, by simp [Item.row, Row.weight]; ring⟩
  have lin : ∀ (a : PVar) (k : ℤ) (now : ℚ) (label : String), ∃ z' : ℤ, ((Item.lin a (k * (z * w))).row now label).weight = z' * w :=
    fun a k _ _ => ⟨k * z, by simp [Item.row, Row.weight]; ring⟩
  intro it hit
  cases c with
  | nHot l s vs n =>
    obtain rfl : s = z * w := hz
    simp only [Constraint.items, List.mem_flatMap, List.mem_cons] at hit
    obtain ⟨v, hv, rfl | hit⟩ := hit
    · have := lin v (-1 * (1 - 2 * n))
      push_cast at this
      convert this using 6
      ring
    · obtain ⟨w, hw, h, rfl⟩ := mem_pairItems hit
      exact_mod_cast pair v w (-2)
  | zeroOrOneHot l s vs =>
    obtain rfl : s = z * w := hz
    simp only [Constraint.items, List.mem_flatMap] at hit
    obtain ⟨v, hv, hit⟩ := hit
    obtain ⟨w, hw, h, rfl⟩ := mem_pairItems hit
    exact_mod_cast pair v w (-2)
  | equality l s v1 v2 =>
    obtain rfl : s = z * w := hz
    simp only [Constraint.items, List.mem_append, List.mem_flatMap, List.mem_map] at hit
    rcases hit with ((⟨v, hv, rfl⟩ | ⟨v, hv, hit⟩) | ⟨v, hv, hit⟩) | ⟨v, hv, w, hw, rfl⟩
    · exact_mod_cast lin v (-1)
    · obtain ⟨w, hw, h, rfl⟩ := mem_pairItems hit
      exact_mod_cast pair v w (-2)
    · obtain ⟨w, hw, h, rfl⟩ := mem_pairItems hit
      exact_mod_cast pair v w (-2)
    · exact_mod_cast pair v w 2

theorem mass_nonneg (c : Constraint) : 0 ≤ c.mass := by
  have key : ∀ n : Nat, (0 : ℚ) ≤ n * ((n : ℚ) - 1) := fun n => by
    cases n with
    | zero => simp
    | succ n =>
      push_cast
      rw [add_sub_cancel_right]
      positivity
  cases c with
  | nHot l s vs n => exact mul_nonneg (abs_nonneg _) (add_nonneg (mul_nonneg (abs_nonneg _) (Nat.cast_nonneg _)) (key _))
  | zeroOrOneHot l s vs => exact mul_nonneg (abs_nonneg _) (key _)
  | equality l s v1 v2 => exact mul_nonneg (abs_nonneg _) (by positivity)

theorem itemsR_exact {c : Constraint} (hg : c.Good) (hd : c.Distinct) (hw : ∃ z : ℤ, c.weight = z * w) (hr : Keeps w top round)
    (ht : c.mass ≤ top) : c.itemsR round = c.items := by
  unfold Constraint.itemsR
  conv_rhs => rw [← List.map_id c.items]
  apply List.map_congr_left
  intro it hit
  obtain ⟨z, hz⟩ := items_multiples hw it hit 0 ""
  have hs : it.size ≤ top := by
    refine le_trans ?_ ht
    rw [← items_mass hg hd]
    exact List.single_le_sum (by
      intro x hx
      obtain ⟨it', _, rfl⟩ := List.mem_map.mp hx
      exact it'.size_nonneg) _ (List.mem_map_of_mem hit)
  rw [← Item.row_weight 0 "", hz] at hs
  have hk := hr z hs
  cases it with
  | lin v q =>
    simp only [Item.row, Row.weight, mul_one] at hz
    simp [Item.rounded, hz, hk]
  | pair v v' q =>
    simp only [Item.row, Row.weight, mul_one] at hz
    simp [Item.rounded, hz, hk]

theorem totalWeights_mass {c : String × Constraint} (hc : c ∈ m.constraints) : c.2.mass ≤ m.totalWeights := by
  have e4 : 0 ≤ m.weights := List.sum_nonneg (by simp)
  have : c.2.mass ≤ (m.constraints.map fun c => c.2.mass).sum :=
    List.single_le_sum (by
      intro x hx
      obtain ⟨c', _, rfl⟩ := List.mem_map.mp hx
      exact mass_nonneg _) _ (List.mem_map_of_mem (f := fun c : String × Constraint => c.2.mass) hc)
  unfold LModel.totalWeights
  linarith

theorem flat_congr {round' : ℚ → ℚ} (h : ∀ c ∈ m.constraints, c.2.itemsR round = c.2.itemsR round') : m.flat round = m.flat round' := by
  have : m.penaltyRows round = m.penaltyRows round' := by
    unfold LModel.penaltyRows
    apply List.flatMap_congr
    intro c hc
    rw [h c hc]
  unfold LModel.flat
  rw [this]

theorem flat_multiples (hw : m.Multiples w) (hs : ∀ c ∈ m.constraints, ∃ z : ℤ, c.2.weight = z * w) : (m.flat id).Multiples w := by
  refine ⟨hw.1, fun r hr => ?_⟩
  rw [flat_active] at hr
  rcases List.mem_append.mp hr with hr | hr
  · exact hw.2 r hr
  · obtain ⟨c, hc, hr⟩ := List.mem_flatMap.mp hr
    rw [itemsR_id] at hr
    obtain ⟨it, hit, rfl⟩ := List.mem_map.mp hr
    exact items_multiples (hs c hc) it hit _ _

/-- If the weights, and the strengths of the constraints, are multiples of some `w`, and the sum of the absolute weights
and of the absolute coefficients of the penalties stays in the range where floats hold these multiples, then rounding
changes nothing at all. -/
theorem C126_exact (hm : m.Rect) (hq : m.mtype = .qubo) (hpl : m.Plain) (hd : ∀ c ∈ m.constraints, c.2.Distinct)
    (hw : ∀ r ∈ m.active, ∃ z : ℤ, r.weight = z * w) (hs : ∀ c ∈ m.constraints, ∃ z : ℤ, c.2.weight = z * w)
    (hr : Keeps w top round) (ht : m.totalWeights ≤ top) :
    (toPhysicalRC round env clks ids ph).run m = (toPhysical env clks ids ph).run m := by
  obtain ⟨q, hoff⟩ := hpl.1
  have hitems : ∀ c ∈ m.constraints, c.2.Good → c.2.itemsR round = c.2.items := fun c hc hg =>
    itemsR_exact hg (hd c hc) (hs c hc) hr (le_trans (totalWeights_mass hc) ht)
  rw [toPhysicalRC_run, toPhysical_run, mergeLoopR_exact _ (good_zipIdx (P := fun c => c.Good → c.itemsR round = c.items) hitems)]
  cases h2 : (m.constraints.zipIdx.forM (mergeConstraint env clks ids)).run m with
  | error e a₁ => rfl
  | ok _ a₁ =>
    obtain ⟨hg, ha⟩ := loop_merged hm hq hpl h2
    simp only
    have hweights : (m.flat id).weights ≤ top := by
      have := flat_weights (m := m) (u := 0) (le_refl 0) relative_id hg hd
      rw [add_zero, one_mul] at this
      exact le_trans this ht
    have hmult : ∀ r ∈ (m.flat id).active, ∃ z : ℤ, r.weight = z * w := by
      intro r hr
      rw [flat_active] at hr
      rcases List.mem_append.mp hr with hr | hr
      · exact hw r hr
      · obtain ⟨c, hc, hr⟩ := List.mem_flatMap.mp hr
        rw [itemsR_id] at hr
        obtain ⟨it, hit, rfl⟩ := List.mem_map.mp hr
        exact items_multiples (hs c hc) it hit _ _
    have e3 : (m.flat id).weights = _ := weights_pairs (m.flat id).rows
    have h1 := abs_sum_nonneg (linPairs (m.flat id).rows) fun p => p.2
    have h2 := abs_sum_nonneg (quadPairs (m.flat id).rows) fun p => p.2
    rw [groupR_ok ha.len ha.plain, group_plain ha.len ha.plain, ha.lin, ha.quad,
      sumsR_exact hr (linPairs (m.flat id).rows) (fun p hp => by
        obtain ⟨r, hr, e⟩ := mem_linPairs hp
        rw [e]
        exact hmult r hr) (by rw [e3] at hweights; linarith),
      sumsR_exact hr (quadPairs (m.flat id).rows) (fun p hp => by
        obtain ⟨r, hr, e⟩ := mem_quadPairs hp
        rw [e]
        exact hmult r hr) (by rw [e3] at hweights; linarith)]
    simp only [ha.offset, hoff, Coef.resolve, Coef.toExpr, PExpr.resolveR, PExpr.resolve]
    rfl

/-! ## The solver -/

theorem sampleOf_binary {ls : List String} (hq : p.mtype = .qubo) {x : List ℤ} (hx : IsSpins x) :
    (p.sampleOf ls x).assign.IsBinary := by
  intro l
  unfold Sample.assign
  cases hd : dget (p.sampleOf ls x) l with
  | none => simp
  | some a =>
    have hm := dget_mem hd
    unfold Physical.sampleOf at hm
    rw [hq] at hm
    obtain ⟨b, hb, rfl⟩ := List.mem_map.mp (List.of_mem_zip hm).2
    rcases hx b hb with rfl | rfl <;> simp

theorem annealedC_binary {ls : List String} (hp : p.Ready ls) (hq : p.mtype = .qubo) (hs : prepareC conv p = .ok s) (hr : rng.Ok)
    {st : Option Sample} (hi : InitOk ls st) (hu : 0 ≤ u) (hround : Relative u ar.round)
    (hc : ToSpins ar.round (p.toBqm 1) (conv (p.toBqm 1))) (hsum : SumsUp ar.round ar.energy s.bqm ls)
    (hD : p.DegreeAtMost D) {g g' : γ} {a : Annealed} (h : annealingR ar rng exp s o st g = .ok (a, g')) :
    (changeVartype p.mtype.vtype a.sample).assign.IsBinary := by
  have ht : p.mtype.vtype ≠ .spin := by rw [hq]; decide
  obtain ⟨s', h1, harr, hmod, horig, hbqm⟩ := prepareC_ok hp hc ht
  rw [h1] at hs
  cases hs
  obtain ⟨s₀, hs₀, hok, hm₀⟩ := prepare_ok hp
  have hb₀ : s₀.bqm = (p.toBqm 1).toSpin := by rw [hok.bqm, hok.original, hm₀, if_neg ht]
  have hn : ∀ v, s.bqm.neighbours v = s₀.bqm.neighbours v := by
    intro v
    unfold Bqm.neighbours
    rw [hbqm, hb₀, hc.quad]
    rfl
  have hdeg : ∀ v, (s.bqm.neighbours v).length ≤ D := fun v => by
    rw [hn]; exact prepared_degree hok (hm₀ ▸ hD) v
  obtain ⟨x, e, e1, e2, e3, -⟩ := run_near harr (flipNear_drift harr hu hround hdeg _) hr
    (by
      have := energyWithin_relative hu hround hsum
      unfold driftBound
      simpa using this) hi h
  have hsmp : changeVartype p.mtype.vtype a.sample = p.sampleOf ls x := by
    have := sampleOf_eq hok e3.length
    rw [hm₀, decode_eq hp e3.length] at this
    rw [e1, this]
  rw [hsmp]
  exact sampleOf_binary hq e3.spins

/-- All steps in floats, for QUBO models with constraints: the energies that the solver reports differ from the energy of
the logical model plus the penalties, at the sample reported, by at most the bounds of the conversion, the run, and
`to_physical` together. -/
theorem C126_reported (hm : Made env KnownKeys m) (hq : m.mtype = .qubo) (hpl : m.Plain)
    (hd : ∀ c ∈ m.constraints, c.2.Distinct) (hu : 0 ≤ u) (hround : Relative u ar.round) (hK : m.SharedAtMost K)
    (hp : (toPhysicalRC ar.round env clks ids ph).run m = .ok p m') (hs : prepare p = .ok s) (hr : rng.Ok)
    (hc : ToSpins ar.round (p.toBqm 1) (conv (p.toBqm 1)))
    (hsum : SumsUp ar.round ar.energy (conv (p.toBqm 1)) p.labels) (hD : p.DegreeAtMost D)
    (hst : StatesOk p p.varsSet init)
    (h : (solveC ar conv rng seeded fresh exp p numReads o seed).run init = .ok l init') (ρ : PEnv) :
    ∀ a ∈ l, |a.energy - objective m ρ a.sample.assign| ≤
      (1 + u) * driftBound u D (spinScale u p.labels p)
        (((1 + u) ^ (1 + p.labels.length + p.quad.length) - 1) * spinScale u p.labels p) a.acceptanceHist.sum +
      u * |p.energy a.sample.assign| + (1 + u) * spinError u p.labels p +
      ((1 + u) ^ (K + 1) - 1) * m.totalWeights := by
  have hrect := made_rect (fun _ _ h => h) hm
  obtain ⟨hg, m₁, h1⟩ := flat_run hrect hq hpl hp
  obtain ⟨hready, hvars⟩ := physicalR_ready (flat_rect m) rfl (flat_plain hpl) (flat_ordered (made_ordered hm) hg) h1 hs
  have hpq : p.mtype = .qubo := (toPhysicalR_ok (flat_rect m).1 rfl (flat_plain hpl) h1).2.1.trans hq
  have htv : p.mtype.vtype ≠ .spin := by rw [hpq]; decide
  obtain ⟨s', hs', hall⟩ := solveC_reads (ls := p.labels) (fun l0 h1 st h2 v hv =>
    hst l0 h1 st h2 v ((hvars v).mpr hv)) h
  obtain ⟨s₁, h1, harr, hmod, horig, hbqm⟩ := prepareC_ok hready hc htv
  rw [h1] at hs'
  cases hs'
  intro a ha
  obtain ⟨st, g, g', b, hi, hrun, rfl⟩ := hall a ha
  have hv : s'.original.vartype = p.mtype.vtype := by rw [horig]; rfl
  have hsum' : SumsUp ar.round ar.energy s'.bqm p.labels := by rw [hbqm]; exact hsum
  have e1 := C117_energy hready htv h1 hr hi hu hround hc hsum' hD hrun
  have e2 := annealedC_binary hready hpq h1 hr hi hu hround hc hsum' hD hrun
  have e3 := C126_energy hrect hq hpl hd hu hround hK hp ρ e2
  simp only [hv]
  have e4 := abs_add_le (b.energy - p.energy (changeVartype p.mtype.vtype b.sample).assign)
    (p.energy (changeVartype p.mtype.vtype b.sample).assign - objective m ρ (changeVartype p.mtype.vtype b.sample).assign)
  rw [sub_add_sub_cancel] at e4
  linarith

/-- The floats of Python, from the logical model with its constraints to the answer: if the offset, the weights, and the
strengths of the constraints are integers, and the absolute values of the offset, the weights, and the coefficients of
the penalties add up to at most `2^51`, every reported energy is the energy of the logical model plus the penalties at
the reported sample, as computed without rounding. -/
theorem C126_integers (hm : Made env KnownKeys m) (hq : m.mtype = .qubo) (hpl : m.Plain)
    (hd : ∀ c ∈ m.constraints, c.2.Distinct) (hw : m.Multiples 1) (hst' : ∀ c ∈ m.constraints, ∃ z : ℤ, c.2.weight = z)
    (hround : ar.round = nearest 53) (htop : |m.offset.eval fun _ => 0| + m.totalWeights ≤ 2 ^ 51)
    (hp : (toPhysicalRC ar.round env clks ids ph).run m = .ok p m') (hs : prepare p = .ok s)
    (hc : ToSpins ar.round (p.toBqm 1) (conv (p.toBqm 1)))
    (hsum : ∀ b, SumsUp ar.round ar.energy b p.labels) (hr : rng.Ok)
    (hst : StatesOk p p.varsSet init) (h : (solveC ar conv rng seeded fresh exp p numReads o seed).run init = .ok l init')
    {ρ : PEnv} (hρ : ρ.Extends ph) : ∀ a ∈ l, a.energy = objective m ρ a.sample.assign := by
  have hrect := made_rect (fun _ _ h => h) hm
  have hoff := abs_nonneg (m.offset.eval fun _ => 0)
  have hkeep : Keeps 1 (2 ^ 53) ar.round := by
    rw [hround]
    simpa using nearest_keeps (p := 53) (by norm_num) 0
  have hstr : ∀ c ∈ m.constraints, ∃ z : ℤ, c.2.weight = z * 1 := fun c hc => by
    obtain ⟨z, hz⟩ := hst' c hc
    exact ⟨z, by rw [hz, mul_one]⟩
  obtain ⟨hg, m₁, h1⟩ := flat_run hrect hq hpl hp
  have hitems : ∀ c ∈ m.constraints, c.2.itemsR ar.round = c.2.items := fun c hc =>
    itemsR_exact (hg c hc) (hd c hc) (hstr c hc) hkeep (by
      have := totalWeights_mass hc
      linarith)
  have hflat : m.flat ar.round = m.flat id := flat_congr fun c hc => by rw [hitems c hc, itemsR_id]
  rw [hflat] at h1
  have hweights : (m.flat id).weights ≤ m.totalWeights := by
    have := flat_weights (m := m) (u := 0) (le_refl 0) relative_id hg hd
    rwa [add_zero, one_mul] at this
  have hall := integersC_of (flat_rect m) (flat_ordered (made_ordered hm) hg) rfl (flat_plain hpl) (flat_multiples hw hstr)
    hround (by
      show |m.offset.eval fun _ => 0| + _ ≤ _
      linarith) h1 hs hc hsum hr hst h hρ
  have hpq : p.mtype = .qubo := (toPhysicalR_ok (flat_rect m).1 rfl (flat_plain hpl) h1).2.1.trans hq
  obtain ⟨hready, hvars⟩ := physicalR_ready (flat_rect m) rfl (flat_plain hpl) (flat_ordered (made_ordered hm) hg) h1 hs
  obtain ⟨s', hs', hreads⟩ := solveC_reads (ls := p.labels) (fun l0 h1 st h2 v hv =>
    hst l0 h1 st h2 v ((hvars v).mpr hv)) h
  intro a ha
  have hb : a.sample.assign.IsBinary := by
    obtain ⟨st, g, g', b, hi, hrun, rfl⟩ := hreads a ha
    obtain ⟨s₁, h1, harr, hmod, horig, hbqm⟩ := prepareC_ok hready hc (by rw [hpq]; decide)
    rw [h1] at hs'
    cases hs'
    have hv : s'.original.vartype = p.mtype.vtype := by rw [horig]; rfl
    simp only [hv]
    exact annealedC_binary (D := p.quad.length) hready hpq h1 hr hi (by norm_num) (hround ▸ nearest_relative 53) hc
      (hsum _) (fun v => List.length_filter_le _ _) hrun
  have e := flat_energy (m := m) (le_refl 0) relative_id hg hd ρ hb
  rw [zero_mul] at e
  rw [hall a ha]
  exact sub_eq_zero.mp (abs_nonpos_iff.mp e)

/-- The penalty method in floats: if every constraint is stronger than the largest difference of logical energies and
twice the error of `to_physical`, an assignment with the lowest energy of the physical model in floats satisfies all
constraints, and its logical energy exceeds the lowest one of such assignments by at most twice the error. -/
theorem C126_feasible (hm : m.Rect) (hq : m.mtype = .qubo) (hpl : m.Plain) (hd : ∀ c ∈ m.constraints, c.2.Distinct)
    (hu : 0 ≤ u) (hr : Relative u round) (hK : m.SharedAtMost K) (h : (toPhysicalRC round env clks ids ph).run m = .ok p m')
    {ρ : PEnv} (hstrong : ∀ c ∈ m.constraints, ∀ σ τ : Assign, σ.IsBinary → τ.IsBinary →
      m.energy ρ σ - m.energy ρ τ + 2 * (((1 + u) ^ (K + 1) - 1) * m.totalWeights) < c.2.weight)
    {τ : Assign} (hb : τ.IsBinary) (hf : Feasible m τ) {σ : Assign} (hσ : σ.IsBinary) (hmin : IsMinimiser p.energy σ) :
    Feasible m σ ∧ ∀ τ' : Assign, τ'.IsBinary → Feasible m τ' →
      m.energy ρ σ ≤ m.energy ρ τ' + 2 * (((1 + u) ^ (K + 1) - 1) * m.totalWeights) := by
  have herr := fun {σ : Assign} (hσ : σ.IsBinary) => abs_le.mp (C126_energy hm hq hpl hd hu hr hK h ρ hσ)
  generalize ((1 + u) ^ (K + 1) - 1) * m.totalWeights = δ at *
  have hnear : ∀ τ' : Assign, τ'.IsBinary → objective m ρ σ ≤ objective m ρ τ' + 2 * δ := by
    intro τ' hb'
    have h1 := herr hσ
    have h2 := herr hb'
    have h3 := hmin τ' hb'
    linarith [h1.1, h2.2]
  have hδ : 0 ≤ δ := by
    have := herr hb
    linarith [this.1, this.2]
  have hw : ∀ c ∈ m.constraints, 0 ≤ c.2.weight := fun c hc => by
    have := hstrong c hc τ τ hb hb
    linarith
  have hfe : Feasible m σ := by
    by_contra hn
    simp only [Feasible, not_forall] at hn
    obtain ⟨c, hc, hn⟩ := hn
    have h1 := sum_le_of_mem (fun a ha => penalty_le (σ := σ) (hw a ha) (hf a ha)) hc
      (penalty_violated (hw c hc) (hf c hc) hn)
    have h2 := hstrong c hc τ σ hb hσ
    have h3 := hnear τ hb
    unfold objective at h3
    linarith
  refine ⟨hfe, fun τ' hb' hf' => ?_⟩
  have h1 := hnear τ' hb'
  have h2 : (m.constraints.map fun c => c.2.penalty σ).sum = (m.constraints.map fun c => c.2.penalty τ').sum := by
    congr 1
    exact List.map_congr_left fun c hc => penalty_satisfied (hfe c hc) (hf' c hc)
  unfold objective at h1
  rw [h2] at h1
  linarith

/-! ## Examples and counterexamples -/

/-- The calls that make a QUBO model with one interaction of two variables and a one-hot constraint on them. -/
def _root_.Sawatabi.Ex.tightOps (a s : ℚ) : List Op :=
  [.variables "x" [2], .add 2 (.tuple [some Ex.b0, some Ex.b1]) (.str "") (.num a) (.num 1) .none .none,
    .addConstraint (.nHot "c" s [Ex.b0, Ex.b1] 1)]

def _root_.Sawatabi.Ex.tight (a s : ℚ) : LModel := (Ex.tightOps a s).foldl (Op.step ⟨0, fun _ => "t"⟩) (LModel.new .qubo "101")

theorem _root_.Sawatabi.Ex.tight_made (a s : ℚ) : Made ⟨0, fun _ => "t"⟩ KnownKeys (Ex.tight a s) :=
  made_ops _ (.new _ _) (by simp [Ex.tightOps]) fun _ op h => by
    simp only [Ex.tightOps, List.mem_cons, List.not_mem_nil, or_false] at h
    rcases h with rfl | rfl | rfl <;> trivial

def _root_.Sawatabi.Ex.physicalRC (m : LModel) : Res LModel Physical :=
  (toPhysicalRC (nearest 53) ⟨0, fun _ => "t"⟩ (fun _ _ => 0) (fun _ => "1") []).run m

/-- What the model consists of. -/
structure _root_.Sawatabi.Ex.IsTight (m : LModel) (a s : ℚ) : Prop where
  rows : m.rows.map (fun r => (r.removed, r.coef, r.scale, r.inter)) = [(false, .num a, .num 1, .quad Ex.b0 Ex.b1)]
  offset : m.offset = .num 0
  constraints : m.constraints = [("c", .nHot "c" s [Ex.b0, Ex.b1] 1)]
  mtype : m.mtype = .qubo

theorem tight_small : Ex.IsTight (Ex.tight 3 5) 3 5 :=
  ⟨by decide +kernel, by decide +kernel, by decide +kernel, by decide +kernel⟩

theorem tight_large : Ex.IsTight (Ex.tight (2 ^ 53 - 1) (2 ^ 53)) (2 ^ 53 - 1) (2 ^ 53) :=
  ⟨by decide +kernel, by decide +kernel, by decide +kernel, by decide +kernel⟩

variable {a t : ℚ}

theorem _root_.Sawatabi.Ex.IsTight.energy (h : Ex.IsTight m a t) (ρ : PEnv) (σ : Assign) :
    m.energy ρ σ = - (a * (σ "x[0]" * σ "x[1]")) := by
  have h3 : m.rows.map (Row.term ρ σ) = (m.rows.map fun r => (r.removed, r.coef, r.scale, r.inter)).map fun t =>
      if t.1 then 0 else t.2.1.eval ρ * t.2.2.1.eval ρ * t.2.2.2.value σ := by
    rw [List.map_map]; rfl
  unfold LModel.energy
  rw [h3, h.rows, h.offset]
  simp [Coef.eval, Inter.value, Ex.b0, Ex.b1]

theorem _root_.Sawatabi.Ex.IsTight.plain (h : Ex.IsTight m a t) : m.Plain := by
  refine ⟨⟨0, h.offset⟩, fun r hr => ?_⟩
  have : (r.removed, r.coef, r.scale, r.inter) ∈ m.rows.map fun r => (r.removed, r.coef, r.scale, r.inter) :=
    List.mem_map_of_mem (List.mem_filter.mp hr).1
  rw [h.rows, List.mem_singleton] at this
  simp only [Prod.mk.injEq] at this
  exact ⟨_, _, this.2.1, this.2.2.1⟩

theorem _root_.Sawatabi.Ex.IsTight.distinct (h : Ex.IsTight m a t) : ∀ c ∈ m.constraints, c.2.Distinct := by
  rw [h.constraints]
  intro c hc
  rw [List.mem_singleton] at hc
  subst hc
  show ([Ex.b0, Ex.b1].map (·.label)).Nodup
  decide

theorem _root_.Sawatabi.Ex.IsTight.shared (h : Ex.IsTight m a t) : m.SharedAtMost 2 := by
  intro i
  have h1 : (m.active.filter fun r => decide (i.Same r.inter)).length ≤ 1 := by
    refine le_trans (List.length_filter_le _ _) (le_trans (List.length_filter_le _ _) ?_)
    have := congrArg List.length h.rows
    rw [List.length_map] at this
    rw [this]
    rfl
  have h2 : (m.constraints.filter fun c => i.ends.all fun l => c.2.over.contains l).length ≤ 1 := by
    refine le_trans (List.length_filter_le _ _) ?_
    rw [h.constraints]
    rfl
  omega

theorem _root_.Sawatabi.Ex.IsTight.feasible (h : Ex.IsTight m a t) : Feasible m fun v => if v = "x[1]" then 1 else 0 := by
  intro c hcm
  rw [h.constraints, List.mem_singleton] at hcm
  subst hcm
  simp only [Constraint.Satisfied]
  decide +kernel

/-- The small model meets all hypotheses, and everything is exact. -/
example : (Ex.tight 3 5).Rect ∧ Ex.IsTight (Ex.tight 3 5) 3 5 ∧ (Ex.tight 3 5).totalWeights = 23 ∧
    (∃ m', Ex.physicalRC (Ex.tight 3 5) = .ok ⟨.qubo, [("x[0]", 5), ("x[1]", 5)], [(("x[0]", "x[1]"), -7)], 0,
      ["x[0]", "x[1]"], [("x[0]", 0), ("x[1]", 1)], [(0, "x[0]"), (1, "x[1]")]⟩ m') ∧
    (∀ c ∈ (Ex.tight 3 5).constraints, ∀ σ τ : Assign, σ.IsBinary → τ.IsBinary →
      (Ex.tight 3 5).energy (fun _ => 0) σ - (Ex.tight 3 5).energy (fun _ => 0) τ +
        2 * (((1 + 1 / 2 ^ 53) ^ (2 + 1) - 1) * (Ex.tight 3 5).totalWeights) < c.2.weight) := by
  have hw : (Ex.tight 3 5).totalWeights = 23 := by decide +kernel
  refine ⟨made_rect (fun _ _ h => h) (Ex.tight_made 3 5), tight_small, hw, ?_, ?_⟩
  · exact Ex.exists_ok_of_okAnd (p := fun a _ => decide (a = ⟨.qubo, [("x[0]", 5), ("x[1]", 5)], [(("x[0]", "x[1]"), -7)], 0,
      ["x[0]", "x[1]"], [("x[0]", 0), ("x[1]", 1)], [(0, "x[0]"), (1, "x[1]")]⟩)) (by decide +kernel) fun a s => by simp
  · intro c hc σ τ hσ hτ
    rw [tight_small.constraints, List.mem_singleton] at hc
    subst hc
    rw [tight_small.energy, tight_small.energy, hw]
    simp only [Constraint.weight]
    rcases hσ "x[0]" with h1 | h1 <;> rcases hσ "x[1]" with h2 | h2 <;> rcases hτ "x[0]" with h3 | h3 <;>
      rcases hτ "x[1]" with h4 | h4 <;> rw [h1, h2, h3, h4] <;> norm_num

/-- Without the margin for the error the claim is false: here the strength of the constraint is greater than the
difference of any two logical energies, but in floats an assignment that violates the constraint is a minimiser. -/
theorem C126_feasible_refuted : ¬ ∀ (m : LModel) (p : Physical) (m' : LModel) (σ τ : Assign),
    Made ⟨0, fun _ => "t"⟩ KnownKeys m → m.mtype = .qubo → m.Plain → (∀ c ∈ m.constraints, c.2.Distinct) →
    Strong m (fun _ => 0) → Ex.physicalRC m = .ok p m' → τ.IsBinary → Feasible m τ → σ.IsBinary →
    IsMinimiser p.energy σ → Feasible m σ := by
  intro hall
  obtain ⟨m', h⟩ : ∃ m', Ex.physicalRC (Ex.tight (2 ^ 53 - 1) (2 ^ 53)) = .ok ⟨.qubo, [("x[0]", 2 ^ 53), ("x[1]", 2 ^ 53)],
      [(("x[0]", "x[1]"), - 2 ^ 53)], 0, ["x[0]", "x[1]"], [("x[0]", 0), ("x[1]", 1)], [(0, "x[0]"), (1, "x[1]")]⟩ m' :=
    Ex.exists_ok_of_okAnd (p := fun a _ => decide (a = ⟨.qubo, [("x[0]", 2 ^ 53), ("x[1]", 2 ^ 53)],
      [(("x[0]", "x[1]"), - 2 ^ 53)], 0, ["x[0]", "x[1]"], [("x[0]", 0), ("x[1]", 1)], [(0, "x[0]"), (1, "x[1]")]⟩))
      (by decide +kernel) fun a s => by simp
  have hs : Strong (Ex.tight (2 ^ 53 - 1) (2 ^ 53)) fun _ => 0 := by
    intro c hc σ τ hσ hτ
    rw [tight_large.constraints, List.mem_singleton] at hc
    subst hc
    rw [tight_large.energy, tight_large.energy]
    simp only [Constraint.weight]
    rcases hσ "x[0]" with h1 | h1 <;> rcases hσ "x[1]" with h2 | h2 <;> rcases hτ "x[0]" with h3 | h3 <;>
      rcases hτ "x[1]" with h4 | h4 <;> rw [h1, h2, h3, h4] <;> norm_num
  have := hall _ _ m' (fun _ => 1) _ (Ex.tight_made _ _) tight_large.mtype tight_large.plain tight_large.distinct hs h
    (fun v => by
      show (if v = "x[1]" then (1 : ℚ) else 0) = 0 ∨ _
      by_cases hv : v = "x[1]" <;> simp [hv]) tight_large.feasible (fun v => .inr rfl) (by
      intro τ' hb'
      simp only [Physical.energy, List.map_cons, List.map_nil, List.sum_cons, List.sum_nil]
      rcases hb' "x[0]" with h1 | h1 <;> rcases hb' "x[1]" with h2 | h2 <;> rw [h1, h2] <;> norm_num)
  have h1 := this ("c", .nHot "c" (2 ^ 53) [Ex.b0, Ex.b1] 1) (by rw [tight_large.constraints]; simp)
  simp only [Constraint.Satisfied] at h1
  revert h1
  decide +kernel

/-- A run in floats, all steps, with a constraint. -/
def _root_.Sawatabi.Ex.solvedRC (m : LModel) : Option (List (ℚ × Sample)) :=
  match Ex.physicalRC m with
  | .error _ _ => none
  | .ok p _ =>
    match (solveC (Ex.floats 53) (Ex.toSpins (nearest 53)) Ex.rng id 0 Ex.exp p 2 Ex.options none).run none with
    | .error _ _ => none
    | .ok l _ => some (l.map fun a => (a.energy, a.sample))

/-- Runs on the small and on the large model. The reported energies are the objective at the samples. -/
example : Ex.solvedRC (Ex.tight 3 5) = some [(-5, [("x[0]", 0), ("x[1]", 1)]), (-5, [("x[0]", 1), ("x[1]", 0)])] ∧
    objective (Ex.tight 3 5) (fun _ => 0) (Sample.assign [("x[0]", 0), ("x[1]", 1)]) = -5 ∧
    Ex.solvedRC (Ex.tight (2 ^ 53 - 1) (2 ^ 53)) =
      some [(- 2 ^ 53, [("x[0]", 1), ("x[1]", 0)]), (- 2 ^ 53, [("x[0]", 0), ("x[1]", 1)])] := by decide +kernel

end Props
end Sawatabi
