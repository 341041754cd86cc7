import Verif.Model.DWave
import Verif.Props.IsingSolve

/-!
# From public calls to the samples of the D-Wave solver and of neal (C131)
-/

namespace Sawatabi.Props

variable {m m' : LModel} {env : Env} {clks : Nat → Nat → ℚ} {ids : Nat → String} {ph : List (String × ℚ)} {p : Physical}
  {lib : DWaveLibrary} {endpoint token : Option String} {solver : String} {embedding : EmbeddingArg} {c : CompositeArgs}
  {log log' : List DWaveEvent} {res : List (Sample × ℚ)} {kwargs : List (String × PyVal)}

/-! ## Access -/

/-- The solver connects once, for the solver asked for, with endpoint and token of the caller if both are given and with
neither otherwise; a dictionary of embedding parameters is passed on. -/
theorem C131_access (h : (dwaveInit lib endpoint token solver embedding).run log = .ok c log') :
    log' = log ++ [.connect c.sampler] ∧ c.sampler.solver = solver ∧
    (∀ e t, endpoint = some e → token = some t → c.sampler.endpoint = some e ∧ c.sampler.token = some t) ∧
    (endpoint = none ∨ token = none → c.sampler.endpoint = none ∧ c.sampler.token = none) ∧
    (∀ d, embedding = .dict d ↔ c.embedding = some d) ∧ lib.connect c.sampler = .ok () := by
  unfold dwaveInit at h
  simp only [Py.run_bind, Py.run_modify, Py.run_liftE] at h
  generalize ha : samplerArgs endpoint token solver = a at h
  cases hc : lib.connect a with
  | error e => rw [hc] at h; cases h
  | ok u =>
    rw [hc] at h
    have hsolver : a.solver = solver := by
      rw [← ha]; unfold samplerArgs; split <;> rfl
    have h1 : ∀ e t, endpoint = some e → token = some t → a.endpoint = some e ∧ a.token = some t := by
      rintro e t rfl rfl
      subst ha
      exact ⟨rfl, rfl⟩
    have h2 : endpoint = none ∨ token = none → a.endpoint = none ∧ a.token = none := by
      rintro (rfl | rfl)
      · subst ha; exact ⟨rfl, rfl⟩
      · cases endpoint <;> subst ha <;> exact ⟨rfl, rfl⟩
    cases embedding with
    | none => cases h; exact ⟨rfl, hsolver, h1, h2, fun d => ⟨fun e => (nomatch e), fun e => (nomatch e)⟩, hc⟩
    | other => cases h; exact ⟨rfl, hsolver, h1, h2, fun d => ⟨fun e => (nomatch e), fun e => (nomatch e)⟩, hc⟩
    | dict d0 =>
      cases h
      exact ⟨rfl, hsolver, h1, h2, fun d => ⟨fun e => by cases e; rfl, fun e => by cases e; rfl⟩, hc⟩

/-- A token given without an endpoint, and embedding parameters that are not a dictionary, are ignored. -/
theorem C131_given_refuted (lib : DWaveLibrary) (t solver : String) (log : List DWaveEvent) :
    (dwaveInit lib none (some t) solver .other).run log = (dwaveInit lib none none solver .none).run log := rfl

/-- An object that failed to connect has asked for nothing else. -/
theorem C131_connect_fails {e : Err} (h : (dwaveInit lib endpoint token solver embedding).run log = .error e log') :
    ∃ a, log' = log ++ [.connect a] ∧ lib.connect a = .error e := by
  unfold dwaveInit at h
  simp only [Py.run_bind, Py.run_modify, Py.run_liftE] at h
  generalize samplerArgs endpoint token solver = a at h
  cases hc : lib.connect a with
  | error e' => rw [hc] at h; cases h; exact ⟨a, rfl, hc⟩
  | ok u => rw [hc] at h; cases embedding <;> cases h

/-- `solve` asks for samples once, with the arguments of the caller and a model with the energies of the physical model; an
empty model raises and nothing is asked for. -/
theorem C131_sent (lib : DWaveLibrary) (c : CompositeArgs) (p : Physical) (kwargs : List (String × PyVal))
    (log : List DWaveEvent) :
    (Empty p → (dwaveSample lib c p kwargs).run log = .error .valueError log) ∧
    (¬ Empty p → ∃ b, ((dwaveSample lib c p kwargs).run log).state = log ++ [.sample c kwargs b] ∧
      b.vartype = p.mtype.vtype ∧ (∀ σ, b.energy σ = p.energy σ) ∧ (∀ v, v ∈ b.variables ↔ p.Uses v) ∧
      ∀ res, (∃ log', (dwaveSample lib c p kwargs).run log = .ok res log') ↔ lib.sample c kwargs b = .ok res) := by
  refine ⟨fun he => ?_, fun hne => ⟨p.toBqm (-1), ?_, ?_⟩⟩
  · unfold dwaveSample
    simp only [empty_iff.mpr he, if_true, Py.run_bind, Py.run_throw]
  · have he : p.isEmptyModel = false := by
      cases hb : p.isEmptyModel with
      | false => rfl
      | true => exact absurd (empty_iff.mp hb) hne
    unfold dwaveSample
    simp only [he, Bool.false_eq_true, if_false, Py.run_bind, Py.run_modify, Py.run_liftE]
    cases lib.sample c kwargs (p.toBqm (-1)) <;> rfl
  · have he : p.isEmptyModel = false := by
      cases hb : p.isEmptyModel with
      | false => rfl
      | true => exact absurd (empty_iff.mp hb) hne
    refine ⟨(C28_bqm_energy p fun _ => 0).2, fun σ => (C28_bqm_energy p σ).1, ?_, fun res => ?_⟩
    · intro v
      obtain ⟨k1, k2⟩ := toBqm_keys p (-1)
      rw [Bqm.mem_variables, k1, k2]
      rfl
    · unfold dwaveSample
      simp only [he, Bool.false_eq_true, if_false, Py.run_bind, Py.run_modify, Py.run_liftE]
      cases hs : lib.sample c kwargs (p.toBqm (-1)) with
      | error e =>
        refine ⟨?_, fun h => by cases h⟩
        rintro ⟨_, h⟩
        cases h
      | ok r =>
        refine ⟨?_, fun h => by cases h; exact ⟨_, rfl⟩⟩
        rintro ⟨_, h⟩
        cases h
        rfl

/-! ## Energies -/

/-- A sampler that gives to every variable a value of its domain, and reports the energy of the model it was asked about. -/
def Faithful (f : Bqm → Except Err (List (Sample × ℚ))) : Prop := ∀ b l, f b = .ok l → ∀ r ∈ l,
  (∀ v, v ∈ b.variables → v ∈ dkeys r.1) ∧ (∀ kv ∈ r.1, b.vartype.Domain kv.2) ∧ r.2 = b.energy r.1.assign

/-- A sampler that finds a ground state whenever it answers. -/
def Grounded (f : Bqm → Except Err (List (Sample × ℚ))) : Prop := ∀ b l, f b = .ok l → ∃ r ∈ l,
  ∀ g : String → ℤ, (∀ v, b.vartype.Domain (g v)) → r.2 ≤ b.energy fun v => (g v : ℚ)

/-- The objective of a model, QUBO or Ising: its energy plus the penalties at the bits. -/
def aim (m : LModel) (ρ : PEnv) (σ : Assign) : ℚ :=
  m.energy ρ σ + (m.constraints.map fun c => c.2.penalty (match m.mtype with | .qubo => σ | .ising => σ.toBinary)).sum

/-- The constant by which the physical model of an Ising model with constraints is off (C21). -/
def shift (m : LModel) : ℚ := match m.mtype with | .qubo => 0 | .ising => isingDrift m

theorem energy_aim (hm : Made env KnownKeys m) (hd : ∀ c ∈ m.constraints, c.2.Distinct)
    (h : (toPhysical env clks ids ph).run m = .ok p m') {ρ : PEnv} (hρ : ρ.Extends ph) (f : String → ℤ)
    (hf : ∀ v, m.mtype.vtype.Domain (f v)) : p.energy (fun v => (f v : ℚ)) = aim m ρ (fun v => (f v : ℚ)) + shift m := by
  cases hq : m.mtype with
  | qubo =>
    simp only [aim, shift, hq, add_zero]
    exact energy_objective hm (.inr ⟨hq, hd⟩) h hρ f hf
  | ising =>
    simp only [aim, shift, hq]
    exact energy_isingObjective hm hq hd h hρ f hf

/-- What the local solver and the D-Wave solver return is what the sampler answers for the model. -/
theorem sampled {f : Bqm → Except Err (List (Sample × ℚ))} {blog blog' : List Bqm}
    (h : (localSolve (some f) p).run blog = .ok res blog') : f (p.toBqm (-1)) = .ok res ∧ ¬ Empty p := by
  unfold localSolve at h
  simp only [Py.run_bind] at h
  cases he : p.isEmptyModel with
  | true => simp only [he, if_true, Py.run_throw] at h; cases h
  | false =>
    simp only [he, Bool.false_eq_true, if_false, Py.run_modify, Py.run_bind, Py.run_liftE] at h
    cases hf : f (p.toBqm (-1)) with
    | error e => rw [hf] at h; cases h
    | ok l =>
      rw [hf] at h
      cases h
      exact ⟨rfl, fun e => by rw [empty_iff.mpr e] at he; cases he⟩

theorem sampled_dwave (h : (dwaveSample lib c p kwargs).run log = .ok res log') :
    lib.sample c kwargs (p.toBqm (-1)) = .ok res ∧ ¬ Empty p := by
  have : (localSolve (some (lib.sample c kwargs)) p).run [] = .ok res [p.toBqm (-1)] := by
    unfold dwaveSample at h
    unfold localSolve
    simp only [Py.run_bind] at h ⊢
    cases he : p.isEmptyModel with
    | true => simp only [he, if_true, Py.run_throw] at h; cases h
    | false =>
      simp only [he, Bool.false_eq_true, if_false, Py.run_modify, Py.run_bind, Py.run_liftE] at h ⊢
      cases hf : lib.sample c kwargs (p.toBqm (-1)) with
      | error e => rw [hf] at h; cases h
      | ok l => rw [hf] at h; cases h; rfl
  exact sampled this

/-- The samples of a faithful sampler: every variable of the physical model has a value of its domain, and the reported energy
is the objective of the logical model, up to the constant of Ising models with constraints. -/
theorem sampled_objective {f : Bqm → Except Err (List (Sample × ℚ))} (hF : Faithful f) (hm : Made env KnownKeys m)
    (hd : ∀ c ∈ m.constraints, c.2.Distinct) (h : (toPhysical env clks ids ph).run m = .ok p m') {ρ : PEnv}
    (hρ : ρ.Extends ph) (hs : f (p.toBqm (-1)) = .ok res) :
    ∀ r ∈ res, (∀ v, p.Uses v → v ∈ dkeys r.1) ∧ ∀ g : String → ℤ, (∀ v, m.mtype.vtype.Domain (g v)) →
      (∀ v, m.mtype.vtype.Domain (complete g r.1 v)) ∧ r.2 = aim m ρ (fun v => (complete g r.1 v : ℚ)) + shift m := by
  intro r hr
  obtain ⟨h1, h2, h3⟩ := hF _ _ hs r hr
  have hu : ∀ v, p.Uses v → v ∈ dkeys r.1 := by
    intro v hv
    obtain ⟨k1, k2⟩ := toBqm_keys p (-1)
    refine h1 v ?_
    rw [Bqm.mem_variables, k1, k2]
    exact hv
  refine ⟨hu, fun g hg => ?_⟩
  have hdom : ∀ v, m.mtype.vtype.Domain (complete g r.1 v) := by
    rw [(C28_bqm_energy p fun _ => 0).2, physical_mtype h] at h2
    exact complete_domain h2 hg
  refine ⟨hdom, ?_⟩
  rw [h3, (C28_bqm_energy p _).1, energy_complete g hu]
  exact energy_aim hm hd h hρ _ hdom

/-- If the sampler moreover finds a ground state, the samples with the least reported energy are those that minimise the
objective over all assignments. -/
theorem sampled_best {f : Bqm → Except Err (List (Sample × ℚ))} (hF : Faithful f) (hG : Grounded f) (hm : Made env KnownKeys m)
    (hd : ∀ c ∈ m.constraints, c.2.Distinct) (h : (toPhysical env clks ids ph).run m = .ok p m') {ρ : PEnv}
    (hρ : ρ.Extends ph) (hs : f (p.toBqm (-1)) = .ok res) :
    (∃ best ∈ res, ∀ r ∈ res, best.2 ≤ r.2) ∧ ∀ best ∈ res, (∀ r ∈ res, best.2 ≤ r.2) ↔
      ∀ g g' : String → ℤ, (∀ v, m.mtype.vtype.Domain (g v)) → (∀ v, m.mtype.vtype.Domain (g' v)) →
        aim m ρ (fun v => (complete g best.1 v : ℚ)) ≤ aim m ρ fun v => (g' v : ℚ) := by
  have ho := sampled_objective hF hm hd h hρ hs
  obtain ⟨b, hb, hall⟩ := hG _ _ hs
  rw [(C28_bqm_energy p fun _ => 0).2, physical_mtype h] at hall
  have hall' : ∀ g : String → ℤ, (∀ v, m.mtype.vtype.Domain (g v)) → b.2 ≤ aim m ρ (fun v => (g v : ℚ)) + shift m :=
    fun g hg => by
      rw [← energy_aim hm hd h hρ g hg, ← (C28_bqm_energy p _).1]
      exact hall g hg
  have hone : ∀ v : String, m.mtype.vtype.Domain ((fun _ => 1 : String → ℤ) v) := fun _ => by
    cases m.mtype with
    | ising => exact .inl rfl
    | qubo => exact .inr rfl
  have hle : ∀ r ∈ res, b.2 ≤ r.2 := fun r hr => by
    obtain ⟨e1, e2⟩ := (ho r hr).2 _ hone
    rw [e2]
    exact hall' _ e1
  refine ⟨⟨b, hb, hle⟩, fun best hbest => ⟨fun hmin g g' hg hg' => ?_, fun hmin r hr => ?_⟩⟩
  · have h1 := hmin b hb
    have h2 := hall' g' hg'
    have h3 := ((ho best hbest).2 g hg).2
    linarith
  · obtain ⟨e1, e2⟩ := (ho r hr).2 _ hone
    have h3 := ((ho best hbest).2 _ hone).2
    have h4 := hmin _ _ hone e1
    linarith

/-- **C131** for `DWaveSolver.solve`. -/
theorem C131_dwave (hF : Faithful (lib.sample c kwargs)) (hm : Made env KnownKeys m)
    (hd : ∀ c ∈ m.constraints, c.2.Distinct) (h : (toPhysical env clks ids ph).run m = .ok p m') {ρ : PEnv}
    (hρ : ρ.Extends ph) (hs : (dwaveSample lib c p kwargs).run log = .ok res log') :
    ∀ r ∈ res, (∀ v, p.Uses v → v ∈ dkeys r.1) ∧ ∀ g : String → ℤ, (∀ v, m.mtype.vtype.Domain (g v)) →
      (∀ v, m.mtype.vtype.Domain (complete g r.1 v)) ∧ r.2 = aim m ρ (fun v => (complete g r.1 v : ℚ)) + shift m :=
  sampled_objective hF hm hd h hρ (sampled_dwave hs).1

/-- **C131** for `DWaveSolver.solve`, if a ground state is found. -/
theorem C131_dwave_best (hF : Faithful (lib.sample c kwargs)) (hG : Grounded (lib.sample c kwargs)) (hm : Made env KnownKeys m)
    (hd : ∀ c ∈ m.constraints, c.2.Distinct) (h : (toPhysical env clks ids ph).run m = .ok p m') {ρ : PEnv}
    (hρ : ρ.Extends ph) (hs : (dwaveSample lib c p kwargs).run log = .ok res log') :
    (∃ best ∈ res, ∀ r ∈ res, best.2 ≤ r.2) ∧ ∀ best ∈ res, (∀ r ∈ res, best.2 ≤ r.2) ↔
      ∀ g g' : String → ℤ, (∀ v, m.mtype.vtype.Domain (g v)) → (∀ v, m.mtype.vtype.Domain (g' v)) →
        aim m ρ (fun v => (complete g best.1 v : ℚ)) ≤ aim m ρ fun v => (g' v : ℚ) :=
  sampled_best hF hG hm hd h hρ (sampled_dwave hs).1

/-- **C131** for `LocalSolver(exact=False).solve`. -/
theorem C131_local {f : Bqm → Except Err (List (Sample × ℚ))} {blog blog' : List Bqm} (hF : Faithful f)
    (hm : Made env KnownKeys m) (hd : ∀ c ∈ m.constraints, c.2.Distinct)
    (h : (toPhysical env clks ids ph).run m = .ok p m') {ρ : PEnv} (hρ : ρ.Extends ph)
    (hs : (localSolve (some f) p).run blog = .ok res blog') :
    ∀ r ∈ res, (∀ v, p.Uses v → v ∈ dkeys r.1) ∧ ∀ g : String → ℤ, (∀ v, m.mtype.vtype.Domain (g v)) →
      (∀ v, m.mtype.vtype.Domain (complete g r.1 v)) ∧ r.2 = aim m ρ (fun v => (complete g r.1 v : ℚ)) + shift m :=
  sampled_objective hF hm hd h hρ (sampled hs).1

/-- **C131** for `LocalSolver(exact=False).solve`, if a ground state is found. -/
theorem C131_local_best {f : Bqm → Except Err (List (Sample × ℚ))} {blog blog' : List Bqm} (hF : Faithful f) (hG : Grounded f)
    (hm : Made env KnownKeys m) (hd : ∀ c ∈ m.constraints, c.2.Distinct)
    (h : (toPhysical env clks ids ph).run m = .ok p m') {ρ : PEnv} (hρ : ρ.Extends ph)
    (hs : (localSolve (some f) p).run blog = .ok res blog') :
    (∃ best ∈ res, ∀ r ∈ res, best.2 ≤ r.2) ∧ ∀ best ∈ res, (∀ r ∈ res, best.2 ≤ r.2) ↔
      ∀ g g' : String → ℤ, (∀ v, m.mtype.vtype.Domain (g v)) → (∀ v, m.mtype.vtype.Domain (g' v)) →
        aim m ρ (fun v => (complete g best.1 v : ℚ)) ≤ aim m ρ fun v => (g' v : ℚ) :=
  sampled_best hF hG hm hd h hρ (sampled hs).1

/-! ## An example -/

/-- A sampler that tries everything (dimod's, with the energies by definition). -/
def Ex.tries (b : Bqm) : Except Err (List (Sample × ℚ)) :=
  .ok ((allSamples b.vartype b.variables).map fun s => (s, b.energy s.assign))

def Ex.library : DWaveLibrary := ⟨fun _ => .ok (), fun _ _ => Ex.tries⟩

theorem Ex.tries_faithful : Faithful Ex.tries := by
  intro b l h r hr
  cases h
  obtain ⟨s, hs, rfl⟩ := List.mem_map.mp hr
  obtain ⟨x, hx, rfl, hd⟩ := (mem_allSamples _ _ s).mp hs
  have hkeys : dkeys (b.variables.zip x) = b.variables := List.map_fst_zip (by omega)
  exact ⟨fun v hv => by rw [hkeys]; exact hv, fun kv hkv => hd _ (List.of_mem_zip hkv).2, rfl⟩

theorem Ex.tries_grounded : Grounded Ex.tries := by
  intro b l h
  cases h
  have hmin : ∀ l : List (Sample × ℚ), l ≠ [] → ∃ x ∈ l, ∀ r ∈ l, x.2 ≤ r.2 := by
    intro l hl
    induction l with
    | nil => exact absurd rfl hl
    | cons r l ih =>
      by_cases hr : l = []
      · subst hr; exact ⟨r, List.mem_cons_self, by simp⟩
      · obtain ⟨x, hx, hle⟩ := ih hr
        rcases le_total r.2 x.2 with hc | hc
        · exact ⟨r, List.mem_cons_self, List.forall_mem_cons.mpr ⟨le_refl _, fun y hy => hc.trans (hle y hy)⟩⟩
        · exact ⟨x, List.mem_cons_of_mem _ hx, List.forall_mem_cons.mpr ⟨hc, hle⟩⟩
  have hne : (allSamples b.vartype b.variables).map (fun s => (s, b.energy s.assign)) ≠ [] := by
    intro h0
    have := congrArg List.length h0
    rw [List.length_map, allSamples_length, List.length_nil] at this
    exact absurd this (by positivity)
  obtain ⟨x, hx, hle⟩ := hmin _ hne
  refine ⟨x, hx, fun g hg => ?_⟩
  have hs : b.variables.zip (b.variables.map g) ∈ allSamples b.vartype b.variables :=
    (mem_allSamples _ _ _).mpr ⟨_, by simp, rfl, fun a ha => by
      obtain ⟨v, _, rfl⟩ := List.mem_map.mp ha
      exact hg v⟩
  refine (hle _ (List.mem_map.mpr ⟨_, hs, rfl⟩)).trans (le_of_eq ?_)
  have hv : ∀ v ∈ b.variables, Sample.assign (b.variables.zip (b.variables.map g)) v = (g v : ℚ) := by
    intro v hv
    rw [Sample.assign, zip_get b.variables_nodup hv]
    rfl
  show b.energy _ = b.energy _
  unfold Bqm.energy
  congr 1
  · congr 2
    apply List.map_congr_left
    intro kv hkv
    rw [hv kv.1 ((b.mem_variables _).mpr (.inl (List.mem_map.mpr ⟨_, hkv, rfl⟩)))]
  · congr 1
    apply List.map_congr_left
    intro kv hkv
    rw [hv kv.1.1 ((b.mem_variables _).mpr (.inr ⟨kv.1, List.mem_map.mpr ⟨_, hkv, rfl⟩, .inl rfl⟩)),
      hv kv.1.2 ((b.mem_variables _).mpr (.inr ⟨kv.1, List.mem_map.mpr ⟨_, hkv, rfl⟩, .inr rfl⟩))]

/-- The access data goes where it should. -/
example : (dwaveInit Ex.library (some "e") (some "t") "s" (.dict [("k", .num 1)])).run [] =
    .ok ⟨⟨some "e", some "t", "s"⟩, some [("k", .num 1)]⟩ [.connect ⟨some "e", some "t", "s"⟩] := rfl

/-- The Ising model with a one-hot constraint: the best sample is `x[0] = 1, x[1] = -1`, with the energy -6 shifted by 5. -/
example (c : CompositeArgs) : Made ⟨0, fun _ => "t"⟩ KnownKeys Ex.spinModel ∧ ¬ Empty Ex.spinPhysical ∧
    shift Ex.spinModel = 5 ∧ aim Ex.spinModel (fun _ => 0) (fun v => if v = "x[0]" then 1 else -1) = -6 ∧
    ∃ res log', (dwaveSample Ex.library c Ex.spinPhysical [("num_reads", .num 10)]).run [] = .ok res log' ∧
      ([("x[0]", 1), ("x[1]", -1)], -1) ∈ res ∧ ∀ r ∈ res, -1 ≤ r.2 := by
  refine ⟨Ex.spin_made, by unfold Empty; decide +kernel, by decide +kernel, by decide +kernel, _, _, rfl, ?_⟩
  decide +kernel

end Sawatabi.Props
