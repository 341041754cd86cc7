import Verif.Props.Samplers
import Verif.Props.SolverSchedule
import Verif.Lemmas.Ordered

/-!
# The solvers on physical models that come from public calls (C43-C48, C50, C51, C57)

The theorems about the annealing assume that every used variable has its own index. If `solve` gets past its preparation
this holds for every physical model that `to_physical` returns, whatever calls were made before.
-/

namespace Sawatabi.Props

variable {p : Physical} {s : Problem} {γ : Type} {rng : Rng γ} {exp : ℚ → Except Err ℚ} {o : Options}
  {seeded : Nat → γ} {fresh : γ} {numReads : Int} {seed : Option Int} {init init' : Option (List Sample)}
  {l : List Annealed}

theorem fromCalls_ready (hp : p.FromCalls) (hs : prepare p = .ok s) : p.Ready p.labels := by
  obtain ⟨env, clks, ids, ph, m, m', hm, hph, h⟩ := hp
  have := toPhysical_prepared (made_ordered hm) hph h hs
  rwa [← index_values h] at this

theorem fromCalls_keyed (hp : p.FromCalls) : Keyed p := by
  obtain ⟨env, clks, ids, ph, m, m', hm, hph, h⟩ := hp
  exact toPhysical_keyed (made_ordered hm) hph h

theorem fromCalls_vars (hp : p.FromCalls) (v : String) : v ∈ p.varsSet ↔ p.Uses v := by
  obtain ⟨env, clks, ids, ph, m, m', hm, hph, h⟩ := hp
  exact varsSet_iff h v

theorem fromCalls_solve (hp : p.FromCalls) (hst : StatesOk p p.varsSet init)
    (h : (solve rng seeded fresh exp p numReads o seed).run init = .ok l init') : p.Ready p.labels ∧ StatesOk p p.labels init := by
  obtain ⟨_, _, g, s, rs, _, hs, _⟩ := solve_ok h
  have hready := fromCalls_ready hp hs
  refine ⟨hready, fun l0 hl0 st hst0 v hv0 => ?_⟩
  exact hst l0 hl0 st hst0 v ((fromCalls_vars hp v).mpr ((hready.mem v).mp hv0))

theorem initOk_labels (hp : p.FromCalls) (hs : prepare p = .ok s) {st : Option Sample} (hi : InitOk p.varsSet st) :
    InitOk p.labels st := by
  cases st with
  | none => trivial
  | some st =>
    intro v hv
    exact hi v ((fromCalls_vars hp v).mpr (((fromCalls_ready hp hs).mem v).mp hv))

theorem made_ops {env : Env} {P : LModel → Op → Prop} (ops : List Op) {m : LModel} (h : Made env P m)
    (hn : ∀ op ∈ ops, ∀ clk o, op ≠ .merge clk o) (hP : ∀ m, ∀ op ∈ ops, P m op) :
    Made env P (ops.foldl (Op.step env) m) := by
  induction ops generalizing m with
  | nil => exact h
  | cons op ops ih =>
    refine ih (.step m op h (hP m op List.mem_cons_self) fun clk o e => absurd e (hn op List.mem_cons_self clk o))
      (fun op' h => hn op' (List.mem_cons_of_mem _ h)) fun m op' h => hP m op' (List.mem_cons_of_mem _ h)

/-- The calls that make the QUBO example. -/
def Ex.quboOps : List Op := [.variables "x" [3], .add 10 (.var Ex.b0) (.str "") (.num 3) (.num 2) .none .none,
  .add 11 (.tuple [some Ex.b0, some Ex.b1]) (.str "") (.expr (.ph "p")) (.num 1) .none .none,
  .add 12 (.var Ex.b2) (.str "") (.num (-4)) (.num 1) .none .none, .setOffset (.num 9)]

/-- The calls that make the Ising example, with a raising call in between. -/
def Ex.isingOps : List Op := [.variables "x" [2],
  .add 10 (.var Ex.x0) (.str "") (.num 3) (.num 2) (.dict [("a", .num 7)]) .none,
  .add 10 (.var Ex.x0) (.str "") (.num 3) (.num 2) .none .none,
  .add 11 (.tuple [some Ex.x1, some Ex.x0]) (.str "") (.num (-1)) (.num 1) .none .none,
  .add 12 (.var Ex.x1) (.str "gone") (.num 5) (.num 1) .none .none, .remove .none (.str "gone")]

theorem Ex.qubo_made : Made ⟨0, fun _ => ""⟩ AnyCall Ex.qubo := by
  have : Ex.qubo = Ex.quboOps.foldl (Op.step ⟨0, fun _ => ""⟩) (LModel.new .qubo "202") := by decide +kernel
  rw [this]
  exact made_ops _ (.new _ _) (by simp [Ex.quboOps]) fun _ _ _ => trivial

theorem Ex.ising_made : Made ⟨0, fun _ => ""⟩ AnyCall Ex.ising := by
  have : Ex.ising = Ex.isingOps.foldl (Op.step ⟨0, fun _ => ""⟩) (LModel.new .ising "101") := by decide +kernel
  rw [this]
  exact made_ops _ (.new _ _) (by simp [Ex.isingOps]) fun _ _ _ => trivial

/-- The hypotheses of the theorems below hold for the examples. -/
example : Ex.physQubo.FromCalls :=
  ⟨_, fun _ _ => 0, fun _ => "1", [("p", 2)], Ex.qubo, _, Ex.qubo_made, by simp, rfl⟩

theorem Ex.ising_calls : Ex.physIsing.FromCalls :=
  ⟨_, fun _ _ => 0, fun _ => "1", [], Ex.ising, _, Ex.ising_made, by simp, rfl⟩

example : ¬ Empty Ex.physQubo ∧ (prepare Ex.physQubo).isOk = true ∧ Ex.physQubo.labels = ["x[0]", "x[1]", "x[2]"] := by
  refine ⟨?_, ?_, ?_⟩
  · unfold Empty; decide +kernel
  all_goals decide +kernel

/-! ## Energies and samples -/

/-- The energy reported with a sample is the energy of the sample. -/
theorem C43_reported_energy (hp : p.FromCalls) (hr : rng.Ok) (hst : StatesOk p p.varsSet init)
    (h : (solve rng seeded fresh exp p numReads o seed).run init = .ok l init') :
    ∀ a ∈ l, a.energy = p.energy a.sample.assign :=
  C43_reported_energy_partial (fromCalls_solve hp hst h).1 hr (fromCalls_solve hp hst h).2 h

/-- Entry `k` of the energy history is the energy of the state before sweep `k`, relative to the same constant
`2 * offset` as the returned energy of the final state. The states are those that the sweeps go through. -/
theorem C44_energy_history (hp : p.FromCalls) (hs : prepare p = .ok s) (hr : rng.Ok) {st : Option Sample}
    (hi : InitOk p.varsSet st) {g g' : γ} {a : Annealed} (h : annealing rng exp s o st g = .ok (a, g')) :
    ∃ x t0 t rands, RunOf rng exp s o st g a g' x t0 t rands ∧ t0.x = x ∧ a.energy = p.energyAt p.labels t.x ∧
      ∀ k < o.numSweeps.toNat, ∃ tk, (List.range k).foldlM (sweepStep rng exp s o rands) t0 = .ok tk ∧
        a.energyHist[k]? = some (p.energyAt p.labels tk.x - 2 * p.offset) :=
  C44_energy_history_partial (fromCalls_ready hp hs) hs hr (initOk_labels hp hs hi) h

/-- The first entry belongs to the initial state; without sweeps there is no entry. -/
theorem C44_initial_energy (hp : p.FromCalls) (hs : prepare p = .ok s) (hr : rng.Ok) {st : Sample}
    (hi : st.SpinsOn p.varsSet) {g g' : γ} {a : Annealed} (h : annealing rng exp s o (some st) g = .ok (a, g')) :
    a.energyHist.head? = if o.numSweeps = 0 then none
      else some (p.energyAt p.labels (p.labels.map fun l => (dget st l).getD 0) - 2 * p.offset) :=
  C44_initial_energy_partial (fromCalls_ready hp hs) hs hr (initOk_labels (st := some st) hp hs hi) h

/-- The difference used for accepting a flip is the change of the energy. -/
theorem C45_flip_difference (hp : p.FromCalls) (hs : prepare p = .ok s) {x : List ℤ} (hx : x.length = p.labels.length)
    (hsp : IsSpins x) {i : Nat} (hi : i < p.labels.length) {xi : ℤ} (hxi : x[i]? = some xi) :
    calcDiff s i x = .ok (p.energyAt p.labels (x.set i (xi * -1)) - p.energyAt p.labels x) :=
  C45_flip_difference_partial (fromCalls_ready hp hs) hs hx hsp hi hxi

/-- Every sample gives each variable of the physical model, and nothing else, a value of its domain. -/
theorem C46_samples (hp : p.FromCalls) (hr : rng.Ok) (hst : StatesOk p p.varsSet init)
    (h : (solve rng seeded fresh exp p numReads o seed).run init = .ok l init') :
    ∀ a ∈ l, (dkeys a.sample).Nodup ∧ (∀ v, v ∈ dkeys a.sample ↔ p.Uses v) ∧ ∀ kv ∈ a.sample, p.mtype.vtype.Domain kv.2 := by
  obtain ⟨h1, h2⟩ := fromCalls_solve hp hst h
  intro a ha
  obtain ⟨e1, e2, e3⟩ := C46_samples_partial h1 hr h2 h a ha
  exact ⟨by rw [e1]; exact h1.nodup, e2, e3⟩

/-- After `k` sweeps at most `k * num_variables` of the `num_sweeps * num_variables` numbers are used. -/
theorem C47_used (hp : p.FromCalls) (hs : prepare p = .ok s) (hr : rng.Ok) {st : Option Sample}
    (hi : InitOk p.varsSet st) {g g' : γ} {a : Annealed} {x : List ℤ} {t0 t : Outer γ} {rands : List ℚ}
    (h : RunOf rng exp s o st g a g' x t0 t rands) :
    rands.length = o.numSweeps.toNat * p.labels.length ∧
    ∀ k ≤ o.numSweeps.toNat, ∀ tk, (List.range k).foldlM (sweepStep rng exp s o rands) t0 = .ok tk →
      tk.used ≤ k * p.labels.length :=
  C47_used_partial (fromCalls_ready hp hs) hs hr (initOk_labels hp hs hi) h

/-- The annealing never raises IndexError (unless `math.exp` did): it never reads past the random numbers. -/
theorem C47_no_index_error (hp : p.FromCalls) (hs : prepare p = .ok s) (hr : rng.Ok) {st : Option Sample}
    (hi : InitOk p.varsSet st) (he : ∀ q, exp q ≠ .error .indexError) (hm : o.pickup ≠ .other) (g : γ) :
    annealing rng exp s o st g ≠ .error .indexError :=
  C47_no_index_error_partial (fromCalls_ready hp hs) hs hr (initOk_labels hp hs hi) he hm g

/-- Without reverse options the temperature of sweep `k` is `initial_temperature * cooling_rate ^ k`. -/
theorem C48_forward (hp : p.FromCalls) (hr : rng.Ok) (hst : StatesOk p p.varsSet init) (hf : o.reverse = .none)
    (h : (solve rng seeded fresh exp p numReads o seed).run init = .ok l init') :
    ∀ a ∈ l, a.temperatureHist = (List.range o.numSweeps.toNat).map fun k => o.initialTemperature * o.coolingRate ^ k :=
  C48_forward_partial (fromCalls_solve hp hst h).1 hr (fromCalls_solve hp hst h).2 hf h

/-- These temperatures are positive if both parameters are. -/
theorem C48_positive (hp : p.FromCalls) (hr : rng.Ok) (hst : StatesOk p p.varsSet init) (hf : o.reverse = .none)
    (h : (solve rng seeded fresh exp p numReads o seed).run init = .ok l init') (hT : 0 < o.initialTemperature)
    (hc : 0 < o.coolingRate) : ∀ a ∈ l, ∀ T ∈ a.temperatureHist, 0 < T :=
  C48_positive_partial (fromCalls_solve hp hst h).1 hr (fromCalls_solve hp hst h).2 hf h hT hc

/-- One entry per sweep in each history, at most one acceptance per variable in each sweep, one result per read. -/
theorem C50_statistics (hp : p.FromCalls) (hr : rng.Ok) (hst : StatesOk p p.varsSet init)
    (h : (solve rng seeded fresh exp p numReads o seed).run init = .ok l init') :
    l.length = numReads.toNat ∧ ∀ a ∈ l, (a.energyHist.length : ℤ) = o.numSweeps ∧ (a.temperatureHist.length : ℤ) = o.numSweeps ∧
      (a.acceptanceHist.length : ℤ) = o.numSweeps ∧ ∀ c ∈ a.acceptanceHist, c ≤ a.sample.length := by
  obtain ⟨h1, h2⟩ := fromCalls_solve hp hst h
  obtain ⟨e1, e2⟩ := C50_statistics_partial h1 hr h2 h
  refine ⟨e1, fun a ha => ?_⟩
  obtain ⟨f1, f2, f3, f4⟩ := e2 a ha
  have := congrArg List.length (C46_samples_partial h1 hr h2 h a ha).1
  rw [dkeys, List.length_map] at this
  exact ⟨f1, f2, f3, by rw [this]; exact f4⟩

/-- A flip that does not raise the energy is always made, and uses no random number. -/
theorem C51_downhill (hp : p.FromCalls) (hs : prepare p = .ok s) {rands : List ℚ} {T : ℚ} {t : Inner}
    (hx : t.x.length = p.labels.length) (hsp : IsSpins t.x) {i : Nat} (hi : i < p.labels.length) {xi : ℤ} (hxi : t.x[i]? = some xi)
    (hd : p.energyAt p.labels (t.x.set i (xi * -1)) ≤ p.energyAt p.labels t.x) :
    innerStep exp s rands T t i = .ok ⟨t.x.set i (xi * -1),
      t.energy + (p.energyAt p.labels (t.x.set i (xi * -1)) - p.energyAt p.labels t.x), t.used, t.acceptances + 1⟩ :=
  C51_downhill_partial (fromCalls_ready hp hs) hs hx hsp hi hxi hd

/-- A flip that raises the energy by `d` is made exactly if the next random number is below `exp (-d / T)` (below 0 at
temperature 0). -/
theorem C51_uphill (hp : p.FromCalls) (hs : prepare p = .ok s) {rands : List ℚ} {T : ℚ} {t t' : Inner}
    (hx : t.x.length = p.labels.length) (hsp : IsSpins t.x) {i : Nat} (hi : i < p.labels.length) {xi : ℤ} (hxi : t.x[i]? = some xi)
    (hd : p.energyAt p.labels t.x < p.energyAt p.labels (t.x.set i (xi * -1))) (h : innerStep exp s rands T t i = .ok t') :
    ∃ r q, rands[t.used]? = some r ∧
      ((T = 0 ∧ q = 0) ∨ (T ≠ 0 ∧ exp (-(p.energyAt p.labels (t.x.set i (xi * -1)) - p.energyAt p.labels t.x) / T) = .ok q)) ∧
      t' = if r < q then ⟨t.x.set i (xi * -1), t.energy + (p.energyAt p.labels (t.x.set i (xi * -1)) - p.energyAt p.labels t.x),
          t.used + 1, t.acceptances + 1⟩
        else { t with used := t.used + 1 } :=
  C51_uphill_partial (fromCalls_ready hp hs) hs hx hsp hi hxi hd h

/-- If a run ends above its initial state, an uphill flip was accepted in some sweep. -/
theorem C51_climb (hp : p.FromCalls) (hs : prepare p = .ok s) (hr : rng.Ok) {st : Option Sample}
    (hi : InitOk p.varsSet st) {g g' : γ} {a : Annealed} {x : List ℤ} {t0 t : Outer γ} {rands : List ℚ}
    (h : RunOf rng exp s o st g a g' x t0 t rands) (hlt : p.energyAt p.labels x < a.energy) :
    ∃ k < o.numSweeps.toNat, ∃ tk, (List.range k).foldlM (sweepStep rng exp s o rands) t0 = .ok tk ∧
      ∃ (y : List ℤ) (i : Nat) (yi : ℤ), y[i]? = some yi ∧ p.energyAt p.labels y < p.energyAt p.labels (y.set i (yi * -1)) ∧
        tk.temperature ≠ 0 ∧ ∃ r ∈ rands, ∃ q, r < q ∧
          exp (-(p.energyAt p.labels (y.set i (yi * -1)) - p.energyAt p.labels y) / tk.temperature) = .ok q :=
  C51_climb_partial (fromCalls_ready hp hs) hs hr (initOk_labels hp hs hi) h hlt

/-- At initial temperature 0 (without reverse options) a run never ends above its initial state. -/
theorem C51_greedy (hp : p.FromCalls) (hs : prepare p = .ok s) (hr : rng.Ok) {st : Sample} (hi : st.SpinsOn p.varsSet)
    (hf : o.reverse = .none) (h0 : o.initialTemperature = 0) {g g' : γ} {a : Annealed}
    (h : annealing rng exp s o (some st) g = .ok (a, g')) :
    a.energy ≤ p.energyAt p.labels (p.labels.map fun l => (dget st l).getD 0) :=
  C51_greedy_partial (fromCalls_ready hp hs) hs hr (initOk_labels (st := some st) hp hs hi) hf h0 h

/-- Without sweeps, sample `j` is initial state `j`. -/
theorem C52_zero_sweeps (hp : p.FromCalls) (hr : rng.Ok) {l0 : List Sample} (hst : StatesOk p p.varsSet (some l0)) (hl0 : l0 ≠ [])
    (hz : o.numSweeps = 0) (h : (solve rng seeded fresh exp p numReads o seed).run (some l0) = .ok l init') :
    l.length = l0.length ∧ ∀ (j : Nat) (a : Annealed) (st : Sample), l[j]? = some a → l0[j]? = some st →
      ∀ v, p.Uses v → dget a.sample v = dget st v := by
  obtain ⟨h1, h2⟩ := fromCalls_solve hp hst h
  obtain ⟨e1, e2⟩ := C52_zero_sweeps_partial h1 hr h2 hl0 hz h
  exact ⟨e1, fun j a st ha hj v hv => (e2 j a st ha hj).2 v ((h1.mem v).mpr hv)⟩

/-! ## The exact solver -/

/-- **C55** for every physical model that `to_physical` returns: when `solve` succeeds, for an `exp` that never raises. The first
condition fails if a deleted variable is used or two variables have the same label. -/
theorem C55_from_calls (hp : p.FromCalls) (hr : rng.Ok) (hst : StatesOk p p.varsSet init) (he : ∀ q, ∃ r, exp q = .ok r) :
    (∃ l init', (solve rng seeded fresh exp p numReads o seed).run init = .ok l init') ↔ p.Ready p.labels ∧
      checkArgs p numReads o init = .ok () ∧ (∀ k, seed = some k → 0 ≤ k) ∧
      (0 < numReads → 0 ≤ o.numSweeps ∧ (0 < o.numSweeps → o.reverse = .none ∨ o.reverse.isTruthy = true)) := by
  constructor
  · rintro ⟨l, init', h⟩
    obtain ⟨h1, h2⟩ := fromCalls_solve hp hst h
    exact ⟨h1, (C55_exact h1 hr h2 he).mp ⟨l, init', h⟩⟩
  · rintro ⟨h1, h2⟩
    refine (C55_exact h1 hr (fun l0 hl0 st hst0 v hv0 => ?_) he).mpr h2
    exact hst l0 hl0 st hst0 v ((fromCalls_vars hp v).mpr ((h1.mem v).mp hv0))

example : Ex.physIsing.FromCalls ∧ Ex.rng.Ok ∧ StatesOk Ex.physIsing Ex.physIsing.varsSet none ∧ (∀ q, ∃ r, Ex.exp q = .ok r) ∧
    checkArgs Ex.physIsing 2 Ex.options none = .ok () :=
  ⟨Ex.ising_calls, Ex.rng_ok, fun _ h => (by cases h), fun _ => ⟨_, rfl⟩, by decide +kernel⟩

/-- The exact solver succeeds on every non-empty model, and returns each assignment of the variables of the model once,
with its energy in the model. -/
theorem C57_all_assignments (hp : p.FromCalls) (hne : ¬ Empty p) (log : List Bqm) :
    ∃ res log', (localSolve none p).run log = .ok res log' ∧
    (∀ r ∈ res, r.2 = p.energy r.1.assign ∧ (dkeys r.1).Nodup ∧ (∀ v, v ∈ dkeys r.1 ↔ p.Uses v) ∧
      ∀ kv ∈ r.1, p.mtype.vtype.Domain kv.2) ∧
    (∀ f : String → ℤ, (∀ v, p.Uses v → p.mtype.vtype.Domain (f v)) → ∃ r ∈ res, ∀ v, p.Uses v → dget r.1 v = some (f v)) ∧
    (∀ r ∈ res, ∀ r' ∈ res, (∀ v, dget r.1 v = dget r'.1 v) → r = r') ∧ (res.map (·.1)).Nodup := by
  have hk := fromCalls_keyed hp
  obtain ⟨res, log', h⟩ := C57_success_partial (log := log) hne hk
  obtain ⟨h1, h2⟩ := C57_all_assignments_partial hne hk h
  obtain ⟨h3, _, h4⟩ := C57_once_partial hne hk h
  exact ⟨res, log', h, h1, h2, h4, h3⟩

/-- So its best sample minimises the energy of the model over all assignments. -/
theorem C57_ground_state (hp : p.FromCalls) (hne : ¬ Empty p) {log log' : List Bqm} {res : List (Sample × ℚ)}
    (h : (localSolve none p).run log = .ok res log') :
    ∃ best ∈ res, (∀ r ∈ res, best.2 ≤ r.2) ∧ best.2 = p.energy best.1.assign ∧
      ∀ f : String → ℤ, (∀ v, p.Uses v → p.mtype.vtype.Domain (f v)) → best.2 ≤ p.energy fun v => (f v : ℚ) :=
  C57_ground_state_partial hne (fromCalls_keyed hp) h

end Sawatabi.Props
