import Verif.Lemmas.RoundingSpin
import Verif.Props.RoundingPhysical

/-!
# C117: the conversion of QUBO models to spins in floating point
-/

namespace Sawatabi
namespace Props

variable {p : Physical} {ls : List String} {s : Problem} {γ : Type} {ar : Arith} {conv : Bqm → Bqm} {rng : Rng γ}
  {exp : ℚ → Except Err ℚ} {o : Options} {u w top : ℚ} {D : Nat} {g g' : γ} {a : Annealed} {seeded : Nat → γ} {fresh : γ}
  {numReads : Int} {seed : Option Int} {init init' : Option (List Sample)} {l : List Annealed}
  {env : Env} {clks : Nat → Nat → ℚ} {ids : Nat → String} {ph : List (String × ℚ)} {m m' : LModel}

/-! ## The coefficients -/

/-- The energy in the converted coefficients differs from the energy in the binary ones by at most the bound, for all
spins. -/
theorem C117_conversion (hp : p.Ready ls) (hu : 0 ≤ u) (hround : Relative u ar.round)
    (hc : ToSpins ar.round (p.toBqm 1) (conv (p.toBqm 1))) {σ : Assign} (hσ : ∀ v, σ v = 1 ∨ σ v = -1) :
    |(conv (p.toBqm 1)).energy σ - (p.toBqm 1).energy σ.toBinary| ≤
      ((1 + u) ^ (ls.length + p.quad.length) - 1) * p.mass := by
  have h := hc.energy_error (hp.wf 1) hu hround (σ := σ) fun v => by rcases hσ v with h | h <;> simp [h]
  rw [Bqm.toSpin_energy (hp.wf 1), toBqm_mass, Bqm.On.length (hp.on 1) hp.nodup] at h
  have : (p.toBqm 1).quad.length = p.quad.length := by simp [Physical.toBqm]
  rwa [this] at h

/-! ## Runs -/

theorem solveC_run (init : Option (List Sample)) :
    (solveC ar conv rng seeded fresh exp p numReads o seed).run init =
      match checkArgs p numReads o init with
      | .error e => .error e init
      | .ok () => match chooseRng seeded fresh seed with
        | .error e => .error e init
        | .ok g => match (prepareC conv p >>= fun s => (readsR ar rng exp s o (converted p init) (List.range numReads.toNat) g).map fun rs =>
            rs.map fun a => { a with sample := changeVartype s.original.vartype a.sample }) with
          | .error e => .error e (converted p init)
          | .ok l => .ok l (converted p init) := by
  unfold solveC converted
  simp only [Py.run_bind, Py.run_get]
  cases h1 : checkArgs p numReads o init with
  | error e => simp only [Py.run_liftE]
  | ok u =>
    simp only [Py.run_liftE]
    cases h2 : chooseRng seeded fresh seed with
    | error e => simp only
    | ok g =>
      simp only
      by_cases hv : p.mtype.vtype ≠ .spin
      · simp only [if_pos hv, Py.run_bind, Py.run_modify, Py.run_liftE]
        cases prepareC conv p with
        | error e => rfl
        | ok s =>
          simp only [Except.bind_ok, Py.run_bind, Py.run_get, Py.run_liftE]
          cases readsR ar rng exp s o (init.map fun l => l.map spinInit) (List.range numReads.toNat) g <;> rfl
      · simp only [if_neg hv, Py.run_bind, Py.run_liftE]
        cases prepareC conv p with
        | error e => rfl
        | ok s =>
          simp only [Except.bind_ok, Py.run_bind, Py.run_get, Py.run_liftE]
          cases readsR ar rng exp s o init (List.range numReads.toNat) g <;> rfl

theorem solveC_of_prepareC (h : prepareC conv p = prepare p) (init : Option (List Sample)) :
    (solveC ar conv rng seeded fresh exp p numReads o seed).run init =
      (solveR ar rng seeded fresh exp p numReads o seed).run init := by
  rw [solveC_run, solveR_run, h]
  rfl

theorem solveC_reads (hst : StatesOk p ls init)
    (h : (solveC ar conv rng seeded fresh exp p numReads o seed).run init = .ok l init') :
    ∃ s, prepareC conv p = .ok s ∧ ∀ a ∈ l, ∃ st g g' b, InitOk ls st ∧ annealingR ar rng exp s o st g = .ok (b, g') ∧
      a = { b with sample := changeVartype s.original.vartype b.sample } := by
  rw [solveC_run] at h
  cases h1 : checkArgs p numReads o init with
  | error e => rw [h1] at h; cases h
  | ok u =>
    rw [h1] at h
    cases h2 : chooseRng seeded fresh seed with
    | error e => rw [h2] at h; cases h
    | ok g =>
      rw [h2] at h
      cases h3 : prepareC conv p with
      | error e => rw [h3] at h; cases h
      | ok s =>
        rw [h3] at h
        simp only [Except.bind_ok] at h
        cases h4 : readsR ar rng exp s o (converted p init) (List.range numReads.toNat) g with
        | error e => rw [h4] at h; cases h
        | ok rs =>
          rw [h4] at h
          cases h
          obtain ⟨-, hr⟩ := readsR_get h4
          refine ⟨s, rfl, fun a ha => ?_⟩
          obtain ⟨b, hb, rfl⟩ := List.mem_map.mp ha
          obtain ⟨j, hj⟩ := List.getElem?_of_mem hb
          obtain ⟨r, st, g1, g2, e1, e2, e3⟩ := hr j b hj
          refine ⟨st, g1, g2, b, ?_, e2, rfl⟩
          rcases e3 with ⟨_, rfl⟩ | ⟨l0, v, f1, f2, rfl⟩
          · trivial
          · exact statesOk_spins hst l0 f1 v (List.mem_of_getElem? f2)

/-- For Ising models nothing is converted. -/
theorem C117_ising (ht : p.mtype.vtype = .spin) (init : Option (List Sample)) :
    (solveC ar conv rng seeded fresh exp p numReads o seed).run init =
      (solveR ar rng seeded fresh exp p numReads o seed).run init :=
  solveC_of_prepareC (prepareC_spin ht) init

/-- The error of one converted energy. -/
def spinError (u : ℚ) (ls : List String) (p : Physical) : ℚ := ((1 + u) ^ (ls.length + p.quad.length) - 1) * p.mass

/-- The bound on the converted coefficients. -/
def spinScale (u : ℚ) (ls : List String) (p : Physical) : ℚ := (1 + u) ^ (ls.length + p.quad.length) * p.mass

/-- For QUBO models in floats, with a conversion in floats: the energy reported by `annealing` differs from the energy of
the sample reported by at most an explicit bound. Its terms are the error of the conversion, the drift by the accepted
flips, and the last rounding. -/
theorem C117_energy (hp : p.Ready ls) (ht : p.mtype.vtype ≠ .spin) (hs : prepareC conv p = .ok s) (hr : rng.Ok)
    {st : Option Sample} (hi : InitOk ls st) (hu : 0 ≤ u) (hround : Relative u ar.round)
    (hc : ToSpins ar.round (p.toBqm 1) (conv (p.toBqm 1))) (hsum : SumsUp ar.round ar.energy s.bqm ls)
    (hD : p.DegreeAtMost D) (h : annealingR ar rng exp s o st g = .ok (a, g')) :
    |a.energy - p.energy (changeVartype p.mtype.vtype a.sample).assign| ≤
      (1 + u) * driftBound u D (spinScale u ls p) (((1 + u) ^ (1 + ls.length + p.quad.length) - 1) * spinScale u ls p)
        a.acceptanceHist.sum +
      u * |p.energy (changeVartype p.mtype.vtype a.sample).assign| + (1 + u) * spinError u ls p := by
  obtain ⟨s', h1, harr, hmod, horig, hbqm⟩ := prepareC_ok hp hc ht
  rw [h1] at hs
  cases hs
  obtain ⟨s₀, hs₀, hok, hm₀⟩ := prepare_ok hp
  have hb₀ : s₀.bqm = (p.toBqm 1).toSpin := by rw [hok.bqm, hok.original, hm₀, if_neg ht]
  have hn : ∀ v, s.bqm.neighbours v = s₀.bqm.neighbours v := by
    intro v
    unfold Bqm.neighbours
    rw [hbqm, hb₀, hc.quad]
    rfl
  have hdeg : ∀ v, (s.bqm.neighbours v).length ≤ D := fun v => by
    rw [hn]; exact prepared_degree hok (hm₀ ▸ hD) v
  have hspins := C109_energy_spins harr hr hi hu hround hsum hdeg h
  obtain ⟨x, e, e1, e2, e3, -⟩ := run_near harr (flipNear_drift harr hu hround hdeg _) hr
    (by
      have := energyWithin_relative hu hround hsum
      unfold driftBound
      simpa using this) hi h
  have hE := energyAt_eq hok e3.length e3.spins
  have hsmp : changeVartype p.mtype.vtype a.sample = p.sampleOf ls x := by
    have := sampleOf_eq hok e3.length
    rw [hm₀, decode_eq hp e3.length] at this
    rw [e1, this]
  rw [hm₀, hb₀] at hE
  unfold Physical.energyAt at hE
  rw [← hsmp] at hE
  have hlen : (p.toBqm 1).variables.length = ls.length := Bqm.On.length (hp.on 1) hp.nodup
  have hql : (p.toBqm 1).quad.length = p.quad.length := by simp [Physical.toBqm]
  have hconv := hc.energy_error (hp.wf 1) hu hround (σ := spinAssign ls x) (spinAssign_abs e3.spins)
  have hmass := hc.mass (hp.wf 1) hu hround
  rw [hlen, hql, toBqm_mass] at hconv hmass
  rw [← hbqm] at hconv hmass
  have hll : s.bqm.linear.length = ls.length := by
    have := congrArg List.length hc.labels
    rw [← hbqm, hlen] at this
    simpa [dkeys] using this
  have hqq : s.bqm.quad.length = p.quad.length := by
    rw [hbqm, hc.quad, List.length_map, hql]
  have ho : s.original.offset = p.offset := by rw [horig]; simp [Physical.toBqm]
  rw [e1, zip_assign hp.nodup e3.length, hll, hqq, ho] at hspins
  have hpow : (1 : ℚ) ≤ (1 + u) ^ (1 + ls.length + p.quad.length) := one_le_pow₀ (by linarith)
  have hmono := driftBound_mono (D := D) hu hmass (mul_le_mul_of_nonneg_left hmass
    (show (0 : ℚ) ≤ (1 + u) ^ (1 + ls.length + p.quad.length) - 1 by linarith)) a.acceptanceHist.sum
  unfold spinError spinScale
  generalize driftBound u D s.bqm.mass _ a.acceptanceHist.sum = X at hspins hmono
  generalize driftBound u D ((1 + u) ^ (ls.length + p.quad.length) * p.mass) _ a.acceptanceHist.sum = Y at hmono ⊢
  generalize ((1 + u) ^ (ls.length + p.quad.length) - 1) * p.mass = δ at hconv ⊢
  generalize p.energy (changeVartype p.mtype.vtype a.sample).assign = E at hE ⊢
  generalize s.bqm.energy (spinAssign ls x) = C at hspins hconv
  generalize (p.toBqm 1).toSpin.energy (spinAssign ls x) = B at hE hconv
  have d1 : |-C + 2 * p.offset - E| ≤ δ := by
    rw [show -C + 2 * p.offset - E = -(C - B) by linarith, abs_neg]
    exact hconv
  have d2 : |-C + 2 * p.offset| ≤ |E| + δ := by
    have := abs_add_le (-C + 2 * p.offset - E) E
    rw [sub_add_cancel] at this
    linarith
  have d3 := abs_add_le (a.energy - (-C + 2 * p.offset)) (-C + 2 * p.offset - E)
  rw [sub_add_sub_cancel] at d3
  have d4 := mul_le_mul_of_nonneg_left d2 hu
  have d5 := mul_le_mul_of_nonneg_left hmono (show (0 : ℚ) ≤ 1 + u by linarith)
  nlinarith

/-- The same for every sample that `solve` returns, for all models made by calls. -/
theorem C117_reported (hp : p.FromCalls) (hs : prepare p = .ok s) (ht : p.mtype = .qubo) (hr : rng.Ok) (hu : 0 ≤ u)
    (hround : Relative u ar.round) (hc : ToSpins ar.round (p.toBqm 1) (conv (p.toBqm 1)))
    (hsum : SumsUp ar.round ar.energy (conv (p.toBqm 1)) p.labels) (hD : p.DegreeAtMost D)
    (hst : StatesOk p p.varsSet init)
    (h : (solveC ar conv rng seeded fresh exp p numReads o seed).run init = .ok l init') :
    ∀ a ∈ l, |a.energy - p.energy a.sample.assign| ≤
      (1 + u) * driftBound u D (spinScale u p.labels p)
        (((1 + u) ^ (1 + p.labels.length + p.quad.length) - 1) * spinScale u p.labels p) a.acceptanceHist.sum +
      u * |p.energy a.sample.assign| + (1 + u) * spinError u p.labels p := by
  have hready := fromCalls_ready hp hs
  have htv : p.mtype.vtype ≠ .spin := by rw [ht]; decide
  obtain ⟨s', hs', hall⟩ := solveC_reads (ls := p.labels) (fun l0 h1 st h2 v hv =>
    hst l0 h1 st h2 v ((fromCalls_vars hp v).mpr ((hready.mem v).mp hv))) h
  obtain ⟨s₁, h1, harr, hmod, horig, hbqm⟩ := prepareC_ok hready hc htv
  rw [h1] at hs'
  cases hs'
  intro a ha
  obtain ⟨st, g, g', b, hi, hrun, rfl⟩ := hall a ha
  have hv : s'.original.vartype = p.mtype.vtype := by rw [horig]; rfl
  have := C117_energy hready htv h1 hr hi hu hround hc (by rw [hbqm]; exact hsum) hD hrun
  simp only [hv]
  exact this

/-! ## Exactness -/

/-- If the coefficients are multiples of `w` and the floats hold the multiples of `w / 4` up to their absolute sum, the
conversion in floats is the exact one, in whatever order dimod adds. -/
theorem C117_exact (hp : p.Ready ls) (hc : ToSpins ar.round (p.toBqm 1) (conv (p.toBqm 1))) (hm : p.Multiples w)
    (hround : Keeps (w / 4) top ar.round) (htop : p.mass ≤ top) (init : Option (List Sample)) :
    conv (p.toBqm 1) = (p.toBqm 1).toSpin ∧ prepareC conv p = prepare p ∧
    (solveC ar conv rng seeded fresh exp p numReads o seed).run init =
      (solveR ar rng seeded fresh exp p numReads o seed).run init := by
  have hb : (p.toBqm 1).Multiples w := by
    obtain ⟨⟨z, hz⟩, h2, h3⟩ := hm
    refine ⟨⟨z, by simp [Physical.toBqm, hz]⟩, ?_, ?_⟩
    · intro kv hkv
      simp only [Physical.toBqm, List.mem_map] at hkv
      obtain ⟨e, he, rfl⟩ := hkv
      simpa using h2 e he
    · intro kv hkv
      simp only [Physical.toBqm, List.mem_map] at hkv
      obtain ⟨e, he, rfl⟩ := hkv
      simpa using h3 e he
  have h := hc.exact (hp.wf 1) hb hround (by rw [toBqm_mass]; exact htop)
  exact ⟨h, prepareC_exact h, solveC_of_prepareC (prepareC_exact h) init⟩

/-- Integers, for rectangular models with ordered pairs, all steps in floats. -/
theorem integersC_of (hrect : m.Rect) (ho : AllOrdered m.rows) (hcons : m.constraints = []) (hpl : m.Plain) (hw : m.Multiples 1)
    (hround : ar.round = nearest 53) (htop : |m.offset.eval fun _ => 0| + m.weights ≤ 2 ^ 51)
    (hp : (toPhysicalR ar.round env clks ids ph).run m = .ok p m') (hs : prepare p = .ok s)
    (hc : ToSpins ar.round (p.toBqm 1) (conv (p.toBqm 1)))
    (hsum : ∀ b, SumsUp ar.round ar.energy b p.labels) (hr : rng.Ok)
    (hst : StatesOk p p.varsSet init) (h : (solveC ar conv rng seeded fresh exp p numReads o seed).run init = .ok l init')
    {ρ : PEnv} (hρ : ρ.Extends ph) : ∀ a ∈ l, a.energy = m.energy ρ a.sample.assign := by
  have hoff := abs_nonneg (m.offset.eval fun _ => 0)
  have hkeep : Keeps 1 (2 ^ 53) ar.round := by
    rw [hround]
    simpa using nearest_keeps (p := 53) (by norm_num) 0
  have hkeep' : Keeps (1 / 4) (2 ^ 51) ar.round := by
    rw [hround]
    have := nearest_keeps (p := 53) (by norm_num) (-2)
    have e1 : (2 : ℚ) ^ (-2 : ℤ) = 1 / 4 := by norm_num
    rw [e1] at this
    have e2 : (2 : ℚ) ^ 53 * (1 / 4) = 2 ^ 51 := by norm_num
    rwa [e2] at this
  have hexact : (toPhysical env clks ids ph).run m = .ok p m' := by
    rw [← C110_exact hrect hcons hpl hw.2 hkeep (by linarith), hp]
  obtain ⟨hmult, hmass⟩ := physical_multiples hrect hcons hpl hw hexact
  obtain ⟨hready, -⟩ := physicalR_ready hrect hcons hpl ho hp hs
  rw [(C117_exact hready hc hmult hkeep' (le_trans hmass htop) init).2.2] at h
  exact integers_of hrect ho hcons hpl hw hround htop hp (fun s _ => hsum s.bqm) hr hst h hρ

/-- The floats of Python, from the logical model to the answer, all steps in floats: if the offset and the weights are
integers, and their absolute values add up to at most `2^51`, every reported energy is the energy of the logical model
at the reported sample, as computed without rounding. -/
theorem C117_integers (hm : Made env KnownKeys m) (hcons : m.constraints = []) (hpl : m.Plain) (hw : m.Multiples 1)
    (hround : ar.round = nearest 53) (htop : |m.offset.eval fun _ => 0| + m.weights ≤ 2 ^ 51)
    (hp : (toPhysicalR ar.round env clks ids ph).run m = .ok p m') (hs : prepare p = .ok s)
    (hc : ToSpins ar.round (p.toBqm 1) (conv (p.toBqm 1)))
    (hsum : ∀ b, SumsUp ar.round ar.energy b p.labels) (hr : rng.Ok)
    (hst : StatesOk p p.varsSet init) (h : (solveC ar conv rng seeded fresh exp p numReads o seed).run init = .ok l init')
    {ρ : PEnv} (hρ : ρ.Extends ph) : ∀ a ∈ l, a.energy = m.energy ρ a.sample.assign :=
  integersC_of (made_rect (fun _ _ h => h) hm) (made_ordered hm) hcons hpl hw hround htop hp hs hc hsum hr hst h hρ

/-! ## Examples and counterexamples -/

/-- A conversion that adds from left to right. -/
def _root_.Sawatabi.Ex.toSpins (round : ℚ → ℚ) (b : Bqm) : Bqm where
  vartype := .spin
  linear := b.variables.map fun v => (v, roundedSum round (b.bias v / 2) ((b.neighbours v).map fun e => e.2 / 4))
  quad := b.quad.map fun kv => (kv.1, kv.2 / 4)
  offset := roundedSum round b.offset ((b.variables.map fun v => b.bias v / 2) ++ b.quad.map fun kv => kv.2 / 4)

theorem summed_roundedSum (round : ℚ → ℚ) (l : List ℚ) :
    ∀ (l' : List ℚ) (q : ℚ), Summed round l' q → Summed round (l' ++ l) (roundedSum round q l) := by
  induction l with
  | nil => intro l' q h; simpa [roundedSum] using h
  | cons x l ih =>
    intro l' q h
    have := ih _ _ (h.add (.one x))
    rwa [List.append_assoc] at this

theorem toSpins_ok (round : ℚ → ℚ) (b : Bqm) : ToSpins round b (Ex.toSpins round b) where
  vartype := rfl
  labels := by simp [Ex.toSpins, dkeys, List.map_map, Function.comp_def]
  quad := rfl
  linear v hv := by
    have hn : (dkeys (Ex.toSpins round b).linear).Nodup := by
      rw [show dkeys (Ex.toSpins round b).linear = b.variables by simp [Ex.toSpins, dkeys, List.map_map, Function.comp_def]]
      exact physicalVars_nodup _ _
    have : (Ex.toSpins round b).bias v = roundedSum round (b.bias v / 2) ((b.neighbours v).map fun e => e.2 / 4) := by
      unfold Bqm.bias
      rw [dget_of_mem hn (List.mem_map.mpr ⟨v, hv, rfl⟩)]
      rfl
    rw [this]
    exact summed_roundedSum round _ _ _ (.one _)
  offset := summed_roundedSum round _ _ _ (.one _)

/-- A QUBO model with a large and a small coefficient; all its energies are integers of at most 53 digits. -/
def _root_.Sawatabi.Ex.steepQubo : Physical :=
  ⟨.qubo, [("x[0]", 2 ^ 53 - 3), ("x[1]", 1)], [(("x[0]", "x[1]"), 1)], 0, ["x[0]", "x[1]"], [("x[0]", 0), ("x[1]", 1)],
    [(0, "x[0]"), (1, "x[1]")]⟩

/-- A run in floats with a conversion in floats. -/
def _root_.Sawatabi.Ex.annealedC (d : Nat) (p : Physical) (o : Options) : Except Err (Annealed × Nat) :=
  prepareC (Ex.toSpins (nearest d)) p >>= fun s => annealingR (Ex.floats d) Ex.rng Ex.exp s o none 0

theorem steepQubo_ready : Ex.steepQubo.Ready ["x[0]", "x[1]"] := by
  refine ⟨by decide +kernel, by decide +kernel, by decide +kernel, by decide +kernel, fun l => ?_, by decide +kernel, by decide +kernel⟩
  rw [show Ex.steepQubo.linear = [("x[0]", 2 ^ 53 - 3), ("x[1]", 1)] by decide +kernel,
    show Ex.steepQubo.quad = [(("x[0]", "x[1]"), 1)] by decide +kernel]
  simp only [dkeys, List.map_cons, List.map_nil, List.mem_cons, List.not_mem_nil, or_false, exists_eq_left, eq_comm]
  tauto

theorem steepQubo_multiples : Ex.steepQubo.Multiples 1 :=
  ⟨⟨0, by decide +kernel⟩, by
    intro kv hkv
    rw [show Ex.steepQubo.linear = [("x[0]", 2 ^ 53 - 3), ("x[1]", 1)] by decide +kernel] at hkv
    simp only [List.mem_cons, List.not_mem_nil, or_false] at hkv
    rcases hkv with rfl | rfl
    · exact ⟨2 ^ 53 - 3, by norm_num⟩
    · exact ⟨1, by norm_num⟩, by
    intro kv hkv
    rw [show Ex.steepQubo.quad = [(("x[0]", "x[1]"), 1)] by decide +kernel, List.mem_singleton] at hkv
    exact ⟨1, by rw [hkv]; norm_num⟩⟩

/-- With `2^53` for the limit `2^51` the claim is false, although all energies of the model are then floats: the
conversion rounds. A run on a model with the coefficients `2^53 - 3`, `1`, and `1` reports an energy that differs by one
from that of the sample; with the exact conversion it reports the energy of the sample. -/
theorem C117_integers_refuted : ¬ ∀ (p : Physical) (ls : List String) (conv : Bqm → Bqm) (s : Problem) (a : Annealed) (g' : Nat),
    p.Ready ls → p.mtype = .qubo → p.Multiples 1 → p.mass ≤ 2 ^ 53 →
    ToSpins (nearest 53) (p.toBqm 1) (conv (p.toBqm 1)) → prepareC conv p = .ok s →
    SumsUp (nearest 53) (Ex.floats 53).energy s.bqm ls →
    annealingR (Ex.floats 53) Ex.rng Ex.exp s Ex.options none 0 = .ok (a, g') →
    a.energy = p.energy (changeVartype p.mtype.vtype a.sample).assign := by
  intro hall
  have hdec : (Ex.annealedC 53 Ex.steepQubo Ex.options).toOption.map (fun r =>
      r.1.energy - Ex.steepQubo.energy (changeVartype .binary r.1.sample).assign) = some (-1) := by
    decide +kernel
  cases h1 : Ex.annealedC 53 Ex.steepQubo Ex.options with
  | error e => rw [h1] at hdec; cases hdec
  | ok r =>
    rw [h1] at hdec
    have h2 : r.1.energy - Ex.steepQubo.energy (changeVartype .binary r.1.sample).assign = -1 := Option.some.inj hdec
    unfold Ex.annealedC at h1
    rw [bind_eq_ok] at h1
    obtain ⟨s, h3, h4⟩ := h1
    have := hall Ex.steepQubo _ _ s r.1 r.2 steepQubo_ready rfl steepQubo_multiples (by decide +kernel) (toSpins_ok _ _) h3
      (floats_sumsUp 53 _ steepQubo_ready.nodup) h4
    rw [show Ex.steepQubo.mtype.vtype = .binary from rfl] at this
    rw [this, sub_self] at h2
    norm_num at h2

/-- The same run with the exact conversion; the bound of `C117_energy` for the run above, which is sharp up to a factor
of 64. -/
example : (Ex.annealed 53 Ex.steepQubo Ex.options).toOption.map (fun r =>
      (r.1.energy - Ex.steepQubo.energy (changeVartype .binary r.1.sample).assign, r.1.acceptanceHist.sum)) = some (0, 3) ∧
    Ex.steepQubo.mass = 2 ^ 53 - 1 ∧
    (1 + 1 / 2 ^ 53) * driftBound (1 / 2 ^ 53) 1 (spinScale (1 / 2 ^ 53) ["x[0]", "x[1]"] Ex.steepQubo)
      (((1 + 1 / 2 ^ 53) ^ (1 + 2 + 1) - 1) * spinScale (1 / 2 ^ 53) ["x[0]", "x[1]"] Ex.steepQubo) 3 +
      1 / 2 ^ 53 * (2 ^ 53 - 1) + (1 + 1 / 2 ^ 53) * spinError (1 / 2 ^ 53) ["x[0]", "x[1]"] Ex.steepQubo < 64 := by
  decide +kernel

/-- The hypotheses of `C117_energy` and `C117_conversion` hold for this model and 53 digits. -/
example : ToSpins (nearest 53) (Ex.steepQubo.toBqm 1) (Ex.toSpins (nearest 53) (Ex.steepQubo.toBqm 1)) ∧
    Ex.steepQubo.DegreeAtMost 1 ∧ Relative (1 / 2 ^ 53) (nearest 53) ∧
    SumsUp (nearest 53) (Ex.floats 53).energy (Ex.toSpins (nearest 53) (Ex.steepQubo.toBqm 1)) ["x[0]", "x[1]"] ∧
    Ex.toSpins (nearest 53) (Ex.steepQubo.toBqm 1) ≠ (Ex.steepQubo.toBqm 1).toSpin := by
  refine ⟨toSpins_ok _ _, fun v => ?_, nearest_relative 53, floats_sumsUp 53 _ steepQubo_ready.nodup, fun h => ?_⟩
  · rw [show Ex.steepQubo.quad = [(("x[0]", "x[1]"), 1)] by decide +kernel]
    exact List.length_filter_le _ _
  · have := congrArg Bqm.offset h
    revert this
    decide +kernel

/-- Runs of `annealing` on the QUBO example in floats with 3 and with 53 digits; the model has integer coefficients. -/
example : (Ex.annealedC 3 Ex.physQubo Ex.options).toOption.map (fun r =>
      (r.1.energy, Ex.physQubo.energy (changeVartype .binary r.1.sample).assign, r.1.acceptanceHist.sum)) = some (10, 9, 9) ∧
    (Ex.annealedC 53 Ex.physQubo Ex.options).toOption.map (fun r =>
      (r.1.energy, Ex.physQubo.energy (changeVartype .binary r.1.sample).assign, r.1.acceptanceHist.sum)) = some (9, 9, 9) ∧
    Ex.physQubo.mass = 21 := by decide +kernel

end Props
end Sawatabi
