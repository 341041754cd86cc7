import Verif.Props.SolverMade
import Verif.Props.Npp

/-!
# Theorems about the solvers on concrete models

Each theorem of Props/SolverMade.lean, and some of Props/SolverArgs.lean and Props/Npp.lean, applied to the models of the
examples.
-/

namespace Sawatabi.Props

theorem exists_of_isOk {ε α : Type} {x : Except ε α} (h : x.isOk = true) : ∃ a, x = .ok a := by
  cases x with
  | error e => cases h
  | ok a => exact ⟨a, rfl⟩

theorem Ex.qubo_calls : Ex.physQubo.FromCalls :=
  ⟨_, fun _ _ => 0, fun _ => "1", [("p", 2)], Ex.qubo, _, Ex.qubo_made, by simp, rfl⟩

/-- Two states for `Ex.physQubo`. -/
def Ex.states : List Sample := [[("x[2]", 0), ("x[0]", 1), ("x[1]", 0)], [("x[2]", 1), ("x[0]", 1), ("x[1]", 0)]]

theorem Ex.states_ok : StatesOk Ex.physQubo Ex.physQubo.varsSet (some Ex.states) := by
  intro l hl st hst v hv
  cases hl
  rw [show Ex.physQubo.varsSet = ["x[0]", "x[2]", "x[1]"] by decide +kernel] at hv
  simp only [Ex.states, List.mem_cons, List.not_mem_nil, or_false] at hst hv
  rw [show Ex.physQubo.mtype = .qubo by decide +kernel]
  rcases hst with rfl | rfl <;> rcases hv with rfl | rfl | rfl <;> exact ⟨_, rfl, by first | exact .inl rfl | exact .inr rfl⟩

theorem Ex.qubo_runs (o : Options) (h : checkArgs Ex.physQubo 2 o (some Ex.states) = .ok ()) (h0 : 0 ≤ o.numSweeps)
    (hr : o.reverse = .none ∨ o.reverse.isTruthy = true) :
    ∃ l init', (solve Ex.rng id 7 Ex.exp Ex.physQubo 2 o (some 3)).run (some Ex.states) = .ok l init' := by
  refine (C55_from_calls Ex.qubo_calls Ex.rng_ok Ex.states_ok fun _ => ⟨_, rfl⟩).mpr ⟨?_, h, ?_, fun _ => ⟨h0, fun _ => hr⟩⟩
  · obtain ⟨s, hs⟩ : ∃ s, prepare Ex.physQubo = .ok s := exists_of_isOk (by decide +kernel)
    exact fromCalls_ready Ex.qubo_calls hs
  · intro k hk; cases hk; decide

/-- Energies, samples, temperatures and statistics of a run. -/
example : ∃ l init', (solve Ex.rng id 7 Ex.exp Ex.physQubo 2 Ex.options (some 3)).run (some Ex.states) = .ok l init' ∧
    (∀ a ∈ l, a.energy = Ex.physQubo.energy a.sample.assign) ∧ (∀ a ∈ l, ∀ kv ∈ a.sample, kv.2 = 0 ∨ kv.2 = 1) ∧
    (∀ a ∈ l, a.temperatureHist = [100, 50, 25]) ∧ (∀ a ∈ l, ∀ T ∈ a.temperatureHist, 0 < T) ∧
    (∀ a ∈ l, a.acceptanceHist.length = 3) ∧ l.length = 2 ∧
    (solve Ex.rng id 7 Ex.exp Ex.physQubo 2 Ex.options (some 3)).run init' = .ok l init' := by
  obtain ⟨l, init', h⟩ := Ex.qubo_runs Ex.options (by decide +kernel) (by decide) (.inl rfl)
  refine ⟨l, init', h, C43_reported_energy Ex.qubo_calls Ex.rng_ok Ex.states_ok h, fun a ha kv hkv => ?_, fun a ha => ?_,
    C48_positive Ex.qubo_calls Ex.rng_ok Ex.states_ok rfl h (by decide +kernel) (by decide +kernel), fun a ha => ?_,
    (C50_statistics Ex.qubo_calls Ex.rng_ok Ex.states_ok h).1, C53_again h⟩
  · have := (C46_samples Ex.qubo_calls Ex.rng_ok Ex.states_ok h a ha).2.2 kv hkv
    rwa [show Ex.physQubo.mtype = .qubo by decide +kernel] at this
  · rw [C48_forward Ex.qubo_calls Ex.rng_ok Ex.states_ok rfl h a ha]
    decide +kernel
  · have : (a.acceptanceHist.length : ℤ) = 3 := ((C50_statistics Ex.qubo_calls Ex.rng_ok Ex.states_ok h).2 a ha).2.2.1
    exact_mod_cast this

/-- The states of the caller after it. -/
example : ∃ l init', (solve Ex.rng id 7 Ex.exp Ex.physQubo 2 Ex.options (some 3)).run (some Ex.states) = .ok l init' ∧
    init' = some [[("x[2]", -1), ("x[0]", 1), ("x[1]", -1)], [("x[2]", 1), ("x[0]", 1), ("x[1]", -1)]] ∧ init' ≠ some Ex.states := by
  obtain ⟨l, init', h⟩ := Ex.qubo_runs Ex.options (by decide +kernel) (by decide) (.inl rfl)
  refine ⟨l, init', h, C53_qubo_exact (by decide +kernel) h, fun he => ?_⟩
  exact (C53_unchanged_iff (by decide +kernel) h).mp he Ex.states rfl [("x[2]", 0), ("x[0]", 1), ("x[1]", 0)]
    (by simp [Ex.states]) ("x[2]", 0) (by simp) rfl

example : ((solve Ex.rng id 7 Ex.exp Ex.physIsing 1 Ex.options (some 3)).run (some [[("x[0]", 1), ("x[1]", -1)]])).state =
    some [[("x[0]", 1), ("x[1]", -1)]] := C53_ising_unchanged (by decide +kernel)

example (fresh : Nat) : (solve Ex.rng id 7 Ex.exp Ex.physQubo 2 Ex.options (some 3)).run (some Ex.states) =
    (solve Ex.rng id fresh Ex.exp Ex.physQubo 2 Ex.options (some 3)).run (some Ex.states) := C54_seed_partial (by decide) fresh

/-- No sweeps. -/
example : ∃ l init', (solve Ex.rng id 7 Ex.exp Ex.physQubo 2 { Ex.options with numSweeps := 0 } (some 3)).run (some Ex.states) =
    .ok l init' ∧ ∀ a, l[1]? = some a → dget a.sample "x[2]" = some 1 := by
  obtain ⟨l, init', h⟩ := Ex.qubo_runs { Ex.options with numSweeps := 0 } (by decide +kernel) (by decide) (.inl rfl)
  refine ⟨l, init', h, fun a ha => ?_⟩
  rw [(C52_zero_sweeps Ex.qubo_calls Ex.rng_ok Ex.states_ok (by simp [Ex.states]) rfl h).2 1 a _ ha rfl "x[2]"
    ((fromCalls_vars Ex.qubo_calls _).mp (by decide +kernel))]
  rfl

/-! ## One read -/

/-- A state of spins. -/
def Ex.spins : Sample := [("x[0]", 1), ("x[1]", 1)]

theorem Ex.spins_ok : Ex.spins.SpinsOn Ex.physIsing.varsSet := by
  intro v hv
  rw [show Ex.physIsing.varsSet = ["x[0]", "x[1]"] by decide +kernel] at hv
  simp only [List.mem_cons, List.not_mem_nil, or_false] at hv
  rcases hv with rfl | rfl <;> exact ⟨1, rfl, by decide⟩

/-- The energies before each sweep, and the descent at temperature 0. -/
example : ∃ s a g, prepare Ex.physIsing = .ok s ∧
    annealing Ex.rng Ex.exp s { Ex.options with initialTemperature := 0 } (some Ex.spins) 5 = .ok (a, g) ∧
    a.energyHist.head? = some (Ex.physIsing.energyAt ["x[0]", "x[1]"] [1, 1] - 2 * Ex.physIsing.offset) ∧
    a.energy ≤ Ex.physIsing.energyAt ["x[0]", "x[1]"] [1, 1] := by
  obtain ⟨s, hs⟩ : ∃ s, prepare Ex.physIsing = .ok s := exists_of_isOk (by decide +kernel)
  have hl : Ex.physIsing.labels = ["x[0]", "x[1]"] := by decide +kernel
  obtain ⟨a, g, h⟩ : ∃ a g, annealing Ex.rng Ex.exp s { Ex.options with initialTemperature := 0 } (some Ex.spins) 5 = .ok (a, g) := by
    have : ((prepare Ex.physIsing).bind fun s =>
        annealing Ex.rng Ex.exp s { Ex.options with initialTemperature := 0 } (some Ex.spins) 5).isOk = true := by decide +kernel
    rw [hs] at this
    obtain ⟨⟨a, g⟩, h⟩ := exists_of_isOk this
    exact ⟨a, g, h⟩
  refine ⟨s, a, g, hs, h, ?_, ?_⟩
  · rw [C44_initial_energy Ex.ising_calls hs Ex.rng_ok Ex.spins_ok h, hl]
    rfl
  · have := C51_greedy Ex.ising_calls hs Ex.rng_ok Ex.spins_ok rfl rfl h
    rwa [hl] at this

/-- The difference made by one turn, and a step downhill. -/
example : ∃ s, prepare Ex.physIsing = .ok s ∧
    calcDiff s 1 [1, 1] = .ok (Ex.physIsing.energyAt ["x[0]", "x[1]"] [1, -1] - Ex.physIsing.energyAt ["x[0]", "x[1]"] [1, 1]) ∧
    ∀ rng : Rng Nat, rng.Ok → annealing rng Ex.exp s Ex.options (some Ex.spins) 5 ≠ .error .indexError := by
  obtain ⟨s, hs⟩ : ∃ s, prepare Ex.physIsing = .ok s := exists_of_isOk (by decide +kernel)
  have hl : Ex.physIsing.labels = ["x[0]", "x[1]"] := by decide +kernel
  refine ⟨s, hs, ?_, fun rng hr => ?_⟩
  · have := C45_flip_difference Ex.ising_calls hs (x := [1, 1]) (i := 1) (xi := 1) (by rw [hl]; rfl) (by unfold IsSpins; decide)
      (by rw [hl]; decide) rfl
    rwa [hl] at this
  · exact C47_no_index_error Ex.ising_calls hs hr (st := some Ex.spins) Ex.spins_ok (fun q h => by cases h) (by decide) 5

/-! ## The exact solver and number partitioning -/

example : ∃ res log', (localSolve none Ex.physQubo).run [] = .ok res log' ∧ (res.map (·.1)).Nodup := by
  obtain ⟨res, log', h, _, _, _, hn⟩ := C57_all_assignments Ex.qubo_calls (by unfold Empty; decide +kernel) []
  exact ⟨res, log', h, hn⟩

example : ∃ res log' best, (localSolve none Ex.physQubo).run [] = .ok res log' ∧ best ∈ res ∧
    ∀ f : String → ℤ, (∀ v, f v = 0 ∨ f v = 1) → best.2 ≤ Ex.physQubo.energy fun v => (f v : ℚ) := by
  have hne : ¬ Empty Ex.physQubo := by unfold Empty; decide +kernel
  obtain ⟨res, log', h, _⟩ := C57_all_assignments Ex.qubo_calls hne []
  obtain ⟨best, hb, _, _, h4⟩ := C57_ground_state Ex.qubo_calls hne h
  exact ⟨res, log', best, h, hb, fun f hf => h4 f fun v _ => by rw [show Ex.physQubo.mtype = .qubo by decide +kernel]; exact hf v⟩

open Npp in
/-- What the theorems say about one answer: the sides are complementary, there is no perfect partition, and no partition
has a smaller difference. -/
example : (∀ i, (i ∈ [3, 4] ∨ i ∈ [0, 1, 2] ↔ i < 5) ∧ ¬ (i ∈ [3, 4] ∧ i ∈ [0, 1, 2])) ∧
    (¬ ∃ side, 2 * sideSum [3, 1, 1, 2, 2] side = 9) ∧
    ∀ side, difference [3, 1, 1, 2, 2] (within [3, 4]) ≤ difference [3, 1, 1, 2, 2] side := by
  have h : Npp.solve [3, 1, 1, 2, 2] false = .ok (some (false, [[3, 4]], [[0, 1, 2]])) := by decide +kernel
  refine ⟨((C59_complementary h).2 0 _ _ rfl rfl).2.2, fun hs => ?_, C61_minimal h _ (by simp)⟩
  have := (C60_flag h).1.mpr hs
  cases this

end Sawatabi.Props
