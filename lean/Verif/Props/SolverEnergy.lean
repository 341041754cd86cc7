import Verif.Props.SolverBase
import Verif.Lemmas.RunErrors

/-!
# The annealing: energies and samples (C43, C44, C45, C46, C47, C50)
-/

namespace Sawatabi

/-- The sample, in the domain of the model, that a spin vector stands for. -/
def Physical.sampleOf (p : Physical) (ls : List String) (x : List ℤ) : Sample :=
  ls.zip (match p.mtype.vtype with | .spin => x | .binary => x.map fun a => (a + 1) / 2)

/-- The energy of the physical model at a spin vector. -/
def Physical.energyAt (p : Physical) (ls : List String) (x : List ℤ) : ℚ := p.energy (p.sampleOf ls x).assign

namespace Props

variable {p : Physical} {ls : List String} {s : Problem} {γ : Type} {rng : Rng γ} {exp : ℚ → Except Err ℚ} {o : Options}
  {seeded : Nat → γ} {fresh : γ} {numReads : Int} {seed : Option Int} {init init' : Option (List Sample)}
  {l : List Annealed}

theorem sampleOf_eq (h : s.Ok ls) {x : List ℤ} (hx : x.length = ls.length) :
    changeVartype s.model.mtype.vtype (decode s.model x) = s.model.sampleOf ls x := by
  rw [decode_eq h.ready hx]
  unfold Physical.sampleOf
  cases s.model.mtype.vtype with
  | spin => rfl
  | binary => exact changeVartype_zip ls x

theorem energyAt_eq (h : s.Ok ls) {x : List ℤ} (hx : x.length = ls.length) (hs : IsSpins x) :
    - s.bqm.energy (spinAssign ls x) = s.model.energyAt ls x - 2 * s.model.offset := by
  have h1 := h.sample_energy hx hs
  have hv : s.original.vartype = s.model.mtype.vtype := by rw [h.original]; rfl
  have ho : s.original.offset = s.model.offset := by rw [h.original]; simp [Physical.toBqm]
  rw [hv, sampleOf_eq h hx, ho] at h1
  unfold Physical.energyAt
  rw [h1]
  ring

/-! ## C43: the reported energy -/

/-- The energy reported with a sample is the energy of the sample. -/
theorem C43_reported_energy_partial (hp : p.Ready ls) (hr : rng.Ok) (hst : StatesOk p ls init)
    (h : (solve rng seeded fresh exp p numReads o seed).run init = .ok l init') :
    ∀ a ∈ l, a.energy = p.energy a.sample.assign := by
  obtain ⟨s, hs, rfl, hall⟩ := solve_reads hp hst h
  intro a ha
  obtain ⟨j, hj⟩ := List.getElem?_of_mem ha
  obtain ⟨st, g, g', b, x, t0, t, rands, hi, hrun, rfl, _⟩ := hall j a hj
  obtain ⟨_, _, _, _, hinv, _⟩ := run_facts hs hr hi hrun
  have ho : s.original.offset = s.model.offset := by rw [hs.original]; simp [Physical.toBqm]
  simp only [hrun.result]
  rw [hinv.inner.energy, energyAt_eq hs hinv.inner.length hinv.inner.spins, sampleOf_eq hs hinv.inner.length, ho]
  unfold Physical.energyAt
  ring

/-- For physical models made from logical models; a variable without index makes `solve` raise. -/
theorem C43_from_logical_partial {m m' : LModel} {env : Env} {clks : Nat → Nat → ℚ} {ids : Nat → String}
    {ph : List (String × ℚ)} (ho : AllOrdered m.rows) (hph : (ph.map (·.1)).Nodup)
    (hc : (toPhysical env clks ids ph).run m = .ok p m') (hr : rng.Ok)
    (hst : StatesOk p p.varsSet init)
    (h : (solve rng seeded fresh exp p numReads o seed).run init = .ok l init') :
    ∀ a ∈ l, a.energy = p.energy a.sample.assign := by
  obtain ⟨_, _, g, s, rs, _, hs, _⟩ := solve_ok h
  have hready := toPhysical_prepared ho hph hc hs
  refine C43_reported_energy_partial hready hr ?_ h
  intro l0 hl0 st hst0 v hv0
  exact hst l0 hl0 st hst0 v ((varsSet_iff hc v).mpr ((hready.mem v).mp hv0))

/-- The hypotheses hold for a run on the QUBO example: two reads from random states. -/
example : (Ex.solved Ex.physQubo 2 Ex.options (some 3) none).map (fun l => l.map (·.energy)) = some [7, 9] ∧
    StatesOk Ex.physQubo Ex.physQubo.varsSet none ∧ Ex.qubo.allLabels.Nodup :=
  ⟨by decide +kernel, fun _ h => (by simp at h), by decide +kernel⟩

/-! ## C45: the difference of a flip -/

/-- `calc_energy_diff` succeeds for every variable and state and is the change of the energy of the physical model. -/
theorem C45_flip_difference_partial (hp : p.Ready ls) (hs : prepare p = .ok s) {x : List ℤ} (hx : x.length = ls.length)
    (hsp : IsSpins x) {i : Nat} (hi : i < ls.length) {xi : ℤ} (hxi : x[i]? = some xi) :
    calcDiff s i x = .ok (p.energyAt ls (x.set i (xi * -1)) - p.energyAt ls x) := by
  obtain ⟨h, rfl⟩ := prepare_ok' hp hs
  rw [calcDiff_ok h.toArrays hx (List.getElem?_eq_getElem hi)]
  have hlt : i < x.length := by omega
  have hsp' : IsSpins (x.set i (xi * -1)) := by
    intro a ha
    rcases List.mem_or_eq_of_mem_set ha with h' | rfl
    · exact hsp a h'
    · rcases hsp xi (List.mem_of_getElem? hxi) with h' | h' <;> rw [h'] <;> simp
  have h1 := energyAt_eq h hx hsp
  have h2 := energyAt_eq h (x := x.set i (xi * -1)) (by simpa using hx) hsp'
  congr 1
  unfold Problem.delta
  rw [← spinAssign_flip h.ready.nodup hx (List.getElem?_eq_getElem hi) hxi, h1, h2]
  ring

example : (prepare Ex.physQubo >>= fun s => calcDiff s 0 [1, 1, -1]) = .ok 8 := by decide +kernel

/-! ## C44: the energy history -/

/-- Entry `k` of the energy history is the energy of the state before sweep `k`, relative to the same constant
`2 * offset` as the returned energy of the final state. The states are those that the sweeps go through. -/
theorem C44_energy_history_partial (hp : p.Ready ls) (hs : prepare p = .ok s) (hr : rng.Ok) {st : Option Sample}
    (hi : InitOk ls st) {g g' : γ} {a : Annealed} (h : annealing rng exp s o st g = .ok (a, g')) :
    ∃ x t0 t rands, RunOf rng exp s o st g a g' x t0 t rands ∧ t0.x = x ∧ a.energy = p.energyAt ls t.x ∧
      ∀ k < o.numSweeps.toNat, ∃ tk, (List.range k).foldlM (sweepStep rng exp s o rands) t0 = .ok tk ∧
        a.energyHist[k]? = some (p.energyAt ls tk.x - 2 * p.offset) := by
  obtain ⟨hok, rfl⟩ := prepare_ok' hp hs
  obtain ⟨x, t0, t, rands, hrun⟩ := annealing_iff.mp h
  obtain ⟨_, _, f3, h0, hinv, f6, f7, _⟩ := run_facts hok hr hi hrun
  have ho : s.original.offset = s.model.offset := by rw [hok.original]; simp [Physical.toBqm]
  refine ⟨x, t0, t, rands, hrun, f3, ?_, fun k hk => ?_⟩
  · simp only [hrun.result]
    rw [hinv.inner.energy, energyAt_eq hok hinv.inner.length hinv.inner.spins, ho]
    ring
  · obtain ⟨tk, e1, e2, _⟩ := (sweeps_prefix _ hrun.sweeps ⟨f6, f7⟩).2.2 k hk
    have hk' := (sweeps_inv hok hr k h0 e1).inner
    refine ⟨tk, e1, ?_⟩
    simp only [hrun.result]
    rw [e2, hk'.energy, energyAt_eq hok hk'.length hk'.spins]

/-- The first entry belongs to the initial state; without sweeps there is no entry. -/
theorem C44_initial_energy_partial (hp : p.Ready ls) (hs : prepare p = .ok s) (hr : rng.Ok) {st : Sample}
    (hi : st.SpinsOn ls) {g g' : γ} {a : Annealed} (h : annealing rng exp s o (some st) g = .ok (a, g')) :
    a.energyHist.head? = if o.numSweeps = 0 then none
      else some (p.energyAt ls (ls.map fun l => (dget st l).getD 0) - 2 * p.offset) := by
  obtain ⟨x, t0, t, rands, hrun, e1, e2, e3⟩ := C44_energy_history_partial (st := some st) hp hs hr hi h
  obtain ⟨hok, rfl⟩ := prepare_ok' hp hs
  have hx := (run_facts (init := some st) hok hr hi hrun)
  have hn := hrun.nonneg
  split
  · rename_i h0
    have hl := hx.2.2.2.2.1.energyHist
    have : a.energyHist = t.energyHist := by rw [hrun.result]
    rw [this]
    rw [h0] at hl
    rw [List.length_eq_zero_iff.mp hl]
    rfl
  · obtain ⟨tk, f1, f2⟩ := e3 0 (by omega)
    cases f1
    rw [List.head?_eq_getElem?, f2, e1, hx.2.2.2.2.2.2.2.2.2.1 st rfl]

example : (Ex.solved Ex.physQubo 1 Ex.options (some 3) none).map (fun l => l.map (·.energyHist)) = some [[-9, -11, -9]] := by
  decide +kernel

/-! ## C46: the samples -/

/-- Every sample gives each variable of the physical model, and nothing else, a value of its domain. -/
theorem C46_samples_partial (hp : p.Ready ls) (hr : rng.Ok) (hst : StatesOk p ls init)
    (h : (solve rng seeded fresh exp p numReads o seed).run init = .ok l init') :
    ∀ a ∈ l, dkeys a.sample = ls ∧ (∀ v, v ∈ dkeys a.sample ↔ v ∈ dkeys p.linear ∨ ∃ k ∈ dkeys p.quad, k.1 = v ∨ k.2 = v) ∧
      ∀ kv ∈ a.sample, p.mtype.vtype.Domain kv.2 := by
  obtain ⟨s, hs, rfl, hall⟩ := solve_reads hp hst h
  intro a ha
  obtain ⟨j, hj⟩ := List.getElem?_of_mem ha
  obtain ⟨st, g, g', b, x, t0, t, rands, hi, hrun, rfl, _⟩ := hall j a hj
  obtain ⟨_, _, _, _, hinv, _⟩ := run_facts hs hr hi hrun
  have hk : changeVartype s.model.mtype.vtype b.sample = s.model.sampleOf ls t.x := by
    rw [hrun.result]; exact sampleOf_eq hs hinv.inner.length
  have hkeys : dkeys (s.model.sampleOf ls t.x) = ls := by
    have := hinv.inner.length
    unfold Physical.sampleOf dkeys
    cases s.model.mtype.vtype <;> exact List.map_fst_zip (by simp [this])
  simp only [hk, hkeys]
  refine ⟨trivial, hp.mem, ?_⟩
  intro kv hkv
  have h2 := (List.of_mem_zip hkv).2
  cases ht : s.model.mtype.vtype with
  | spin => rw [ht] at h2; exact hinv.inner.spins _ h2
  | binary =>
    rw [ht] at h2
    obtain ⟨y, hy, e⟩ := List.mem_map.mp h2
    rw [← e]
    rcases hinv.inner.spins y hy with rfl | rfl <;> simp [VType.Domain]

example : (Ex.solved Ex.physQubo 2 Ex.options (some 3) (some [[("x[2]", 0), ("x[0]", 1), ("x[1]", 0)],
    [("x[2]", 1), ("x[0]", 1), ("x[1]", 0)]])).map (fun l => l.map (·.sample)) =
    some [[("x[0]", 0), ("x[1]", 1), ("x[2]", 1)], [("x[0]", 0), ("x[1]", 1), ("x[2]", 0)]] := by
  decide +kernel

/-! ## C47: the random numbers suffice -/

/-- After `k` sweeps at most `k * num_variables` of the `num_sweeps * num_variables` numbers are used. -/
theorem C47_used_partial (hp : p.Ready ls) (hs : prepare p = .ok s) (hr : rng.Ok) {st : Option Sample}
    (hi : InitOk ls st) {g g' : γ} {a : Annealed} {x : List ℤ} {t0 t : Outer γ} {rands : List ℚ}
    (h : RunOf rng exp s o st g a g' x t0 t rands) :
    rands.length = o.numSweeps.toNat * ls.length ∧
    ∀ k ≤ o.numSweeps.toNat, ∀ tk, (List.range k).foldlM (sweepStep rng exp s o rands) t0 = .ok tk → tk.used ≤ k * ls.length := by
  obtain ⟨hok, rfl⟩ := prepare_ok' hp hs
  obtain ⟨_, _, _, h0, _, _, _, hlen, _⟩ := run_facts hok hr hi h
  exact ⟨hlen, fun k _ tk hk => (sweeps_inv hok hr k h0 hk).used⟩

/-- The annealing never raises IndexError (unless `math.exp` did): it never reads past the random numbers. -/
theorem C47_no_index_error_partial (hp : p.Ready ls) (hs : prepare p = .ok s) (hr : rng.Ok) {st : Option Sample}
    (hi : InitOk ls st) (he : ∀ q, exp q ≠ .error .indexError) (hm : o.pickup ≠ .other) (g : γ) :
    annealing rng exp s o st g ≠ .error .indexError := by
  obtain ⟨h, rfl⟩ := prepare_ok' hp hs
  have hget : ∀ k, o.reverse.get k ≠ .error .indexError := by
    intro k
    unfold PyReverse.get
    cases o.reverse with
    | dict d =>
      simp only
      cases dget d k with
      | none => intro h; cases h
      | some q => intro h; cases h
    | none => intro h; cases h
    | truthy => intro h; cases h
    | falsy => intro h; cases h
  intro hc
  rcases annealing_fails h hr hi hc with ⟨_, hf⟩ | ⟨_, hf⟩ | ⟨k, t0, tk, rands, _, _, _, _, hf⟩
  · exact hget _ hf
  · cases hf
  · rcases hf with ⟨_, hf | hf⟩ | hf | ⟨_, d, _, hf⟩
    · exact hget _ hf
    · exact hget _ hf
    · exact hm hf
    · exact he _ hf

/-! ## C50: the statistics -/

/-- One entry per sweep in each history, at most one acceptance per variable in each sweep, one result per read. -/
theorem C50_statistics_partial (hp : p.Ready ls) (hr : rng.Ok) (hst : StatesOk p ls init)
    (h : (solve rng seeded fresh exp p numReads o seed).run init = .ok l init') :
    l.length = numReads.toNat ∧ ∀ a ∈ l, (a.energyHist.length : ℤ) = o.numSweeps ∧ (a.temperatureHist.length : ℤ) = o.numSweeps ∧
      (a.acceptanceHist.length : ℤ) = o.numSweeps ∧ ∀ c ∈ a.acceptanceHist, c ≤ ls.length := by
  constructor
  · obtain ⟨_, _, g, s, rs, _, h2, h3, rfl⟩ := solve_ok h
    rw [List.length_map, (reads_get h3).1, List.length_range]
  · obtain ⟨s, hs, rfl, hall⟩ := solve_reads hp hst h
    intro a ha
    obtain ⟨j, hj⟩ := List.getElem?_of_mem ha
    obtain ⟨st, g, g', b, x, t0, t, rands, hi, hrun, rfl, _⟩ := hall j a hj
    obtain ⟨_, _, _, _, hinv, _⟩ := run_facts hs hr hi hrun
    have := hrun.nonneg
    simp only [hrun.result]
    refine ⟨?_, ?_, ?_, hinv.acceptances⟩
    · rw [hinv.energyHist]; omega
    · rw [hinv.temperatureHist]; omega
    · rw [hinv.acceptanceHist]; omega

example : (Ex.solved Ex.physQubo 2 Ex.options none none).map (fun l => l.map (·.acceptanceHist)) = some [[3, 3, 3], [3, 3, 3]] := by
  decide +kernel

end Props
end Sawatabi
