import Verif.Lemmas.PhysicalCalls

/-!
# Physical models that are written by hand (C115)
-/

namespace Sawatabi.Props

variable {p p₀ : Physical} {s : Problem} {γ : Type} {rng : Rng γ} {exp : ℚ → Except Err ℚ} {o : Options}
  {seeded : Nat → γ} {fresh : γ} {numReads : Int} {seed : Option Int} {init init' : Option (List Sample)}
  {l : List Annealed} {log : List Bqm}

/-! ## Calls -/

/-- After any calls of `add_interaction` each coefficient is the one given last, and nothing else has changed. -/
theorem C115_calls (p : Physical) (calls : List PhysCall) :
    (∀ v, dget (p.after calls).linear v = PhysCall.lastLinear v calls (dget p.linear v)) ∧
    (∀ a b, dget (p.after calls).quad (a, b) = PhysCall.lastPair a b calls (dget p.quad (a, b))) ∧
    (p.after calls).offset = p.offset ∧ (p.after calls).mtype = p.mtype ∧
    (p.after calls).labelToIndex = p.labelToIndex ∧ (p.after calls).indexToLabel = p.indexToLabel :=
  have h := after_rest calls p
  ⟨after_linear calls p, after_quad calls p, h.2.1, h.1, h.2.2.2.1, h.2.2.2.2⟩

/-- A model made by hand has the coefficients given last, no others, and no offset. -/
theorem C115_new (t : MType) (calls : List PhysCall) :
    (∀ v, dget ((Physical.new t).after calls).linear v = PhysCall.lastLinear v calls none) ∧
    (∀ a b, dget ((Physical.new t).after calls).quad (a, b) = PhysCall.lastPair a b calls none) ∧
    ((Physical.new t).after calls).offset = 0 ∧ ((Physical.new t).after calls).mtype = t ∧
    ((Physical.new t).after calls).labelToIndex = [] ∧ ((Physical.new t).after calls).indexToLabel = [] :=
  C115_calls (Physical.new t) calls

/-- Only another body than 1 and 2 raises, and then the model stays as it is. -/
theorem C115_raises (c : PhysCall) (p : Physical) :
    (c = .other ∧ c.run.run p = .error .keyError p) ∨ (c ≠ .other ∧ c.run.run p = .ok () (p.after [c])) := by
  cases c with
  | other => exact .inl ⟨rfl, rfl⟩
  | linear l c => exact .inr ⟨by simp, rfl⟩
  | quadratic a b c => exact .inr ⟨by simp, rfl⟩

theorem occurs_iff (v : String) : p.Occurs v ↔ p.Uses v := by
  unfold Physical.Occurs Physical.Uses
  refine or_congr (dget_isSome_iff _ _) ?_
  constructor
  · rintro ⟨b, c, h | h⟩
    · exact ⟨_, (dget_isSome_iff _ _).mp ⟨c, h⟩, .inl rfl⟩
    · exact ⟨_, (dget_isSome_iff _ _).mp ⟨c, h⟩, .inr rfl⟩
  · rintro ⟨⟨a, b⟩, hk, h⟩
    obtain ⟨c, hc⟩ := (dget_isSome_iff _ _).mpr hk
    rcases h with rfl | rfl
    · exact ⟨b, c, .inl hc⟩
    · exact ⟨a, c, .inr hc⟩

/-! ## The model for dimod -/

/-- Without self-loops `to_bqm` succeeds, and its result has the energy, the variable type and the variables of the
model. -/
theorem C115_bqm (hp : p.ByHand) (hl : p.LoopFree) : ∃ b, p.anyBqm (-1) = .ok b ∧ (∀ σ, b.energy σ = p.energy σ) ∧
    b.vartype = p.mtype.vtype ∧ ∀ v, v ∈ b.variables ↔ p.Occurs v := by
  obtain ⟨p', h⟩ := merges_of (byHand_dicts hp) hl
  obtain ⟨k1, k2⟩ := toBqm_keys p' (-1)
  refine ⟨_, h.bqm (-1), fun σ => by rw [(C28_bqm_energy p' σ).1, h.energy], ?_, fun v => ?_⟩
  · rw [(C28_bqm_energy p' fun _ => 0).2, h.same]; rfl
  · rw [Bqm.mem_variables, k1, k2, occurs_iff, ← h.occurs]; rfl

/-- With a self-loop `to_bqm` raises, and so does each solver that uses it, before anything is sent. -/
theorem C115_loop {a : String} {c : ℚ} (h : dget p.quad (a, a) = some c) :
    (∀ s, p.anyBqm s = .error .valueError) ∧
    (∀ f, (anyLocalSolve f p).run log = .error .valueError log) ∧
    (∀ f, (anyDwaveSolve f p).run log = .error .valueError log) ∧
    (checkArgs p numReads o init = .ok () → (∃ g, chooseRng seeded fresh seed = .ok g) →
      (anySolve rng seeded fresh exp p numReads o seed).run init = .error .valueError init) := by
  have hb := looped_bqm h
  refine ⟨hb, fun f => ?_, fun f => ?_, fun hc hg => ?_⟩
  · unfold anyLocalSolve
    rw [hb]
    cases p.isEmptyModel <;> rfl
  · unfold anyDwaveSolve
    rw [hb]
    cases p.isEmptyModel <;> rfl
  · obtain ⟨g, hg⟩ := hg
    unfold anySolve
    simp only [Py.run_bind, Py.run_get, hc, Py.run_liftE, hg, hb]

/-- For physical models as `to_physical` makes them this is what was modelled before. -/
theorem C115_refines (hp : p.FromCalls) :
    (∀ s, p.anyBqm s = .ok (p.toBqm s)) ∧
    (∀ f, (anyLocalSolve f p).run log = (localSolve f p).run log) ∧
    (∀ f, (anyDwaveSolve f p).run log = (dwaveSolve f p).run log) ∧
    (anySolve rng seeded fresh exp p numReads o seed).run init = (solve rng seeded fresh exp p numReads o seed).run init := by
  have hk := fromCalls_keyed hp
  have hq : ∀ (l q : List ((String × String) × ℚ)), (∀ k ∈ dkeys l, k.1 < k.2) → (dkeys (q ++ l)).Nodup →
      l.foldlM dimodAdd q = .ok (q ++ l) := by
    intro l
    induction l with
    | nil => intro q _ _; simp [Except.pure_ok]
    | cons kv l ih =>
      intro q ho hn
      have hlt := ho kv.1 List.mem_cons_self
      have hnot : kv.1 ∉ dkeys q := by
        unfold dkeys at hn
        rw [List.map_append, List.map_cons] at hn
        intro hm
        exact (List.nodup_append.mp hn).2.2 _ hm _ List.mem_cons_self rfl
      have hstep : dimodAdd q kv = .ok (q ++ [kv]) := by
        unfold dimodAdd
        rw [if_neg (ne_of_lt hlt), orient_of_lt hlt, (dget_eq_none_iff _ _).mpr hnot, dset_of_not_mem _ hnot]
        simp
      rw [List.foldlM_cons, hstep, Except.bind_ok, ih _ (fun k hk => ho k (List.mem_cons_of_mem _ hk)) (by simpa using hn)]
      simp
  have hfold := hq p.quad [] hk.ordered (by simpa using hk.quad)
  rw [List.nil_append] at hfold
  have hm : p.Merges p := ⟨rfl, hfold, hk, fun _ => rfl, fun _ => Iff.rfl, Iff.rfl⟩
  exact ⟨hm.bqm, fun f => anyLocalSolve_eq hm f log, fun f => anyDwaveSolve_eq hm f log, anySolve_eq hm init⟩

/-! ## The exact solver -/

/-- The exact local solver answers for every non-empty model without self-loops: it returns all assignments of the
variables with their energies, and its best sample minimises the energy. -/
theorem C115_exact (hp : p.ByHand) (hl : p.LoopFree) (hne : ¬ Empty p) :
    ∃ res log', (anyLocalSolve none p).run log = .ok res log' ∧
      (∀ r ∈ res, r.2 = p.energy r.1.assign ∧ (dkeys r.1).Nodup ∧ (∀ v, v ∈ dkeys r.1 ↔ p.Occurs v) ∧
        ∀ kv ∈ r.1, p.mtype.vtype.Domain kv.2) ∧
      (∀ f : String → ℤ, (∀ v, p.Occurs v → p.mtype.vtype.Domain (f v)) →
        ∃ r ∈ res, ∀ v, p.Occurs v → dget r.1 v = some (f v)) ∧
      ∃ best ∈ res, ∀ f : String → ℤ, (∀ v, p.Occurs v → p.mtype.vtype.Domain (f v)) →
        best.2 ≤ p.energy fun v => (f v : ℚ) := by
  obtain ⟨p', h⟩ := merges_of (byHand_dicts hp) hl
  have hne' : ¬ Empty p' := fun e => hne (h.empty.mp e)
  have hu : ∀ v, p.Occurs v ↔ p'.Uses v := fun v => by rw [occurs_iff, h.occurs]
  have ht : p'.mtype = p.mtype := by rw [h.same]; rfl
  obtain ⟨res, log', hr⟩ := C57_success_partial (log := log) hne' h.keyed
  obtain ⟨h1, h2⟩ := C57_all_assignments_partial hne' h.keyed hr
  obtain ⟨b, hb, _, _, h3⟩ := C57_ground_state_partial hne' h.keyed hr
  simp only [h.energy, ht, ← hu] at h1 h2 h3
  exact ⟨res, log', by rw [anyLocalSolve_eq h]; exact hr, h1, h2, b, hb, h3⟩

/-! ## The solvers that use indices -/

theorem looped_not_ok (hl : ¬ p.LoopFree) (h : (anySolve rng seeded fresh exp p numReads o seed).run init = .ok l init') : False := by
  unfold Physical.LoopFree at hl
  push Not at hl
  obtain ⟨a, ha⟩ := hl
  obtain ⟨c, hc⟩ := Option.ne_none_iff_exists'.mp ha
  unfold anySolve at h
  simp only [Py.run_bind, Py.run_get, Py.run_liftE, looped_bqm hc] at h
  cases h1 : checkArgs p numReads o init with
  | error e => rw [h1] at h; cases h
  | ok u =>
    rw [h1] at h
    cases h2 : chooseRng seeded fresh seed with
    | error e => rw [h2] at h; cases h
    | ok g => rw [h2] at h; cases h

theorem prepare_unindexed (hidx : p.labelToIndex = []) (hne : ¬ Empty p) : prepare p = .error .keyError := by
  have hix : ∀ v, p.index v = .error .keyError := fun v => by
    unfold Physical.index
    rw [hidx]
    rfl
  obtain ⟨k1, k2⟩ := toBqm_keys p 1
  have hv : ∃ v, v ∈ (if (p.toBqm 1).vartype ≠ .spin then (p.toBqm 1).toSpin else p.toBqm 1).variables := by
    have : ∃ v, v ∈ (p.toBqm 1).variables := by
      simp only [Bqm.mem_variables, k1, k2]
      cases hq : p.linear with
      | cons kv r => exact ⟨kv.1, .inl List.mem_cons_self⟩
      | nil =>
        cases hq2 : p.quad with
        | nil => exact absurd ⟨hq, hq2⟩ hne
        | cons kv r => exact ⟨kv.1.1, .inr ⟨kv.1, List.mem_cons_self, .inl rfl⟩⟩
    obtain ⟨v, hv⟩ := this
    refine ⟨v, ?_⟩
    split
    · rw [Bqm.toSpin_mem]; exact hv
    · exact hv
  unfold prepare linearArray
  simp only
  cases hb : (if (p.toBqm 1).vartype ≠ .spin then (p.toBqm 1).toSpin else p.toBqm 1).variables with
  | nil =>
    rw [hb] at hv
    obtain ⟨v, hv⟩ := hv
    cases hv
  | cons v vs =>
    rw [List.foldlM_cons, hix]
    rfl

/-- With valid arguments and without self-loops it is the missing index that makes `SawatabiSolver` raise. -/
theorem C115_unindexed_error (t : MType) (calls : List PhysCall) (hl : ((Physical.new t).after calls).LoopFree)
    (hc : checkArgs ((Physical.new t).after calls) numReads o init = .ok ()) (hg : ∃ g, chooseRng seeded fresh seed = .ok g) :
    ∃ init', (anySolve rng seeded fresh exp ((Physical.new t).after calls) numReads o seed).run init = .error .keyError init' := by
  obtain ⟨p', hm⟩ := merges_of (after_dicts calls (new_dicts t)) hl
  obtain ⟨g, hg⟩ := hg
  have hidx : p'.labelToIndex = [] := by rw [hm.same]; exact (after_rest calls (Physical.new t)).2.2.2.1
  have he := merges_emptyModel hm
  have hne : ¬ Empty p' := by
    rw [← empty_iff, ← he, (checkArgs_iff.mp hc).1]
    simp
  have hc' : checkArgs p' numReads o init = .ok () := by
    rw [← hc]
    unfold checkArgs
    rw [he]
  rw [anySolve_eq hm, solve_run, hc', hg, prepare_unindexed hidx hne]
  exact ⟨_, rfl⟩

/-- `SawatabiSolver` and `OptiganSolver` cannot solve a model that was written by hand only: its labels have no indices.
With valid arguments the former raises, and so does the latter, before anything is sent. -/
theorem C115_unindexed_refuted (t : MType) (calls : List PhysCall) (hne : ¬ Empty ((Physical.new t).after calls)) :
    (¬ ∃ l init', (anySolve rng seeded fresh exp ((Physical.new t).after calls) numReads o seed).run init = .ok l init') ∧
    ∀ (c : OptiganSolver) (server : OptiganRequest → OptiganResponse) (n tmo : Int) (d : Bool) (sent : List OptiganRequest),
      ∃ e, (optiganSolve c server ((Physical.new t).after calls) n tmo d).run sent = .error e sent := by
  set p := (Physical.new t).after calls with hpdef
  have hidx : p.labelToIndex = [] := (after_rest calls (Physical.new t)).2.2.2.1
  have hd : p.Dicts := after_dicts calls (new_dicts t)
  constructor
  · rintro ⟨l, init', h⟩
    by_cases hl : p.LoopFree
    · obtain ⟨p', hm⟩ := merges_of hd hl
      rw [anySolve_eq hm] at h
      obtain ⟨_, _, g, s, rs, _, hs, _⟩ := solve_ok h
      have hidx' : p'.labelToIndex = [] := by rw [hm.same]; exact hidx
      have hno : ∀ v, ¬ p'.Uses v := by
        intro v hv
        obtain ⟨i, hi⟩ := prepare_indexed hs v hv
        rw [hidx'] at hi
        cases hi
      apply hne
      rw [← hm.empty]
      constructor
      · cases hq : p'.linear with
        | nil => rfl
        | cons kv r => exact absurd (.inl (by rw [hq]; exact List.mem_cons_self)) (hno kv.1)
      · cases hq : p'.quad with
        | nil => rfl
        | cons kv r => exact absurd (.inr ⟨kv.1, by rw [hq]; exact List.mem_cons_self, .inl rfl⟩) (hno kv.1.1)
    · exact looped_not_ok hl h
  · intro c server n tmo d sent
    have hpoly : p.toPolynomial = .error .keyError := by
      have hix : ∀ v, p.index v = .error .keyError := fun v => by
        unfold Physical.index
        rw [hidx]
        rfl
      unfold Physical.toPolynomial
      cases hq : p.linear with
      | cons kv r =>
        simp only [List.mapM_cons, hix, Except.bind_error]
      | nil =>
        cases hq2 : p.quad with
        | nil => exact absurd ⟨hq, hq2⟩ hne
        | cons kv r =>
          simp only [List.mapM_cons, List.mapM_nil, hix, Except.bind_error, Except.pure_ok, Except.bind_ok]
    unfold optiganSolve
    by_cases he : p.isEmptyModel = true
    · exact ⟨.valueError, by simp only [he, if_true]; rfl⟩
    · by_cases hi : p.mtype = .ising
      · exact ⟨.valueError, by simp only [he, hi, if_true]; rfl⟩
      · exact ⟨.keyError, by simp only [he, hi, if_false, hpoly]; rfl⟩

theorem fold_total {α : Type} {f : String → Except Err Nat} {w : String → Except Err α} :
    ∀ (vs : List String) (arr : List α), (∀ v ∈ vs, (∃ i, f v = .ok i ∧ i < arr.length) ∧ ∃ a, w v = .ok a) →
      ∃ r, vs.foldlM (fun arr v => do
        let i ← f v
        let a ← w v
        listSet arr i a) arr = .ok r := by
  intro vs
  induction vs with
  | nil => exact fun arr _ => ⟨arr, rfl⟩
  | cons v vs ih =>
    intro arr h
    obtain ⟨⟨i, h1, h2⟩, a, h3⟩ := h v List.mem_cons_self
    have hs : listSet arr i a = .ok (arr.set i a) := listSet_ok.mpr ⟨h2, rfl⟩
    obtain ⟨r, hr⟩ := ih (arr.set i a) fun v hv => by
      rw [List.length_set]
      exact h v (List.mem_cons_of_mem _ hv)
    exact ⟨r, by rw [List.foldlM_cons, h1, Except.bind_ok, h3, Except.bind_ok, hs]; exact hr⟩

/-- The preparation succeeds if each used label has an index below the number of variables. -/
theorem prepare_total (h : ∀ v, p.Uses v → ∃ i, dget p.labelToIndex v = some i ∧ i < (p.toBqm 1).variables.length) :
    ∃ s, prepare p = .ok s := by
  obtain ⟨k1, k2⟩ := toBqm_keys p 1
  have hb : ∃ b : Bqm, (if (p.toBqm 1).vartype ≠ .spin then (p.toBqm 1).toSpin else p.toBqm 1) = b ∧
      (∀ v, v ∈ b.variables ↔ p.Uses v) ∧ b.variables.length = (p.toBqm 1).variables.length := by
    refine ⟨_, rfl, fun v => ?_, ?_⟩
    · have : p.Uses v ↔ v ∈ (p.toBqm 1).variables := by rw [Bqm.mem_variables, k1, k2]; rfl
      rw [this]
      split
      · rw [Bqm.toSpin_mem]
      · rfl
    · split
      · exact ((List.perm_ext_iff_of_nodup (Bqm.variables_nodup _) (Bqm.variables_nodup _)).mpr
          fun v => Bqm.toSpin_mem _ _).length_eq
      · rfl
  obtain ⟨b, hb, hv, hlen⟩ := hb
  have hi : ∀ v ∈ b.variables, ∃ i, p.index v = .ok i ∧ i < b.variables.length := by
    intro v hm
    obtain ⟨i, h1, h2⟩ := h v ((hv v).mp hm)
    refine ⟨i, ?_, hlen ▸ h2⟩
    unfold Physical.index
    rw [h1]
  have hdict : ∀ v, ∃ d, adjDict p b v = .ok d := by
    intro v
    unfold adjDict
    have : ∀ (l : List (String × ℚ)) (d : List (Nat × ℚ)), (∀ e ∈ l, e.1 ∈ b.variables) →
        ∃ r, l.foldlM (fun d kv => do
          let i ← p.index kv.1
          return dset d i kv.2) d = Except.ok r := by
      intro l
      induction l with
      | nil => exact fun d _ => ⟨d, rfl⟩
      | cons e l ih =>
        intro d hl
        obtain ⟨i, h1, _⟩ := hi e.1 (hl e List.mem_cons_self)
        obtain ⟨r, hr⟩ := ih (dset d i e.2) fun e he => hl e (List.mem_cons_of_mem _ he)
        exact ⟨r, by rw [List.foldlM_cons, h1]; exact hr⟩
    exact this _ _ (neighbours_on (ls := b.variables) (fun _ => Iff.rfl))
  obtain ⟨l, hl⟩ := fold_total (f := p.index) (w := fun v => .ok (b.bias v)) b.variables (List.replicate b.variables.length 0)
    fun v hm => ⟨by rw [List.length_replicate]; exact hi v hm, _, rfl⟩
  obtain ⟨a, ha⟩ := fold_total (f := p.index) (w := adjDict p b) b.variables (List.replicate b.variables.length [])
    fun v hm => ⟨by rw [List.length_replicate]; exact hi v hm, hdict v⟩
  have hl : linearArray p b = .ok l := hl
  have ha : adjArray p b = .ok a := ha
  unfold prepare
  simp only [hb, hl, ha, Except.bind_ok]
  exact ⟨_, rfl⟩

theorem fromCalls_indexed (hp : p.FromCalls) {v : String} {i : Nat} (h : dget p.labelToIndex v = some i) : v ∈ p.varsSet := by
  obtain ⟨env, clks, ids, ph, m, m', hm, hph, hc⟩ := hp
  exact ((C25_index_iff hc v).mp ⟨i, h⟩).2.2

theorem after_uses (calls : List PhysCall) {v : String} (h : p.Uses v) : (p.after calls).Uses v := by
  rw [← occurs_iff] at h ⊢
  have hl : ∀ (calls : List PhysCall) (x : ℚ), ∃ c, PhysCall.lastLinear v calls (some x) = some c := by
    intro calls
    induction calls with
    | nil => exact fun x => ⟨x, rfl⟩
    | cons c calls ih =>
      intro x
      cases c with
      | linear l' c =>
        simp only [PhysCall.lastLinear]
        split <;> exact ih _
      | quadratic a b c => exact ih x
      | other => exact ih x
  have hq : ∀ (a b : String) (calls : List PhysCall) (x : ℚ), ∃ c, PhysCall.lastPair a b calls (some x) = some c := by
    intro a b calls
    induction calls with
    | nil => exact fun x => ⟨x, rfl⟩
    | cons c calls ih =>
      intro x
      cases c with
      | quadratic a' b' c =>
        simp only [PhysCall.lastPair]
        split <;> exact ih _
      | linear l' c => exact ih x
      | other => exact ih x
  rcases h with ⟨c, h⟩ | ⟨b, c, h | h⟩
  · exact .inl (by rw [after_linear, h]; exact hl calls c)
  · obtain ⟨c', h'⟩ := hq v b calls c
    exact .inr ⟨b, c', .inl (by rw [after_quad, h, h'])⟩
  · obtain ⟨c', h'⟩ := hq b v calls c
    exact .inr ⟨b, c', .inr (by rw [after_quad, h, h'])⟩

/-- If the preparation succeeds for an extended physical model, the extended model is ready for the annealing. -/
theorem extended_ready (hp : p₀.FromCalls) {calls : List PhysCall} {p' : Physical} (hm : (p₀.after calls).Merges p')
    (hs : prepare p' = .ok s) : p'.Ready p₀.labels := by
  obtain ⟨_, _, _, r4, r5⟩ := after_rest calls p₀
  have e1 : p'.labelToIndex = p₀.labelToIndex := by rw [hm.same]; exact r4
  have e2 : p'.indexToLabel = p₀.indexToLabel := by rw [hm.same]; exact r5
  have hidx := prepare_indexed hs
  have hu : ∀ v, p'.Uses v ↔ p₀.Uses v := by
    intro v
    constructor
    · intro h
      obtain ⟨i, hi⟩ := hidx v h
      rw [e1] at hi
      exact (fromCalls_vars hp v).mp (fromCalls_indexed hp hi)
    · exact fun h => (hm.occurs v).mpr (after_uses calls h)
  have hlt : ∀ v, p₀.Uses v → ∃ i, dget p₀.labelToIndex v = some i ∧ i < (p₀.toBqm 1).variables.length := by
    intro v hv
    unfold prepare at hs
    simp only [bind_eq_ok] at hs
    obtain ⟨arr, h1, _⟩ := hs
    obtain ⟨k1, k2⟩ := toBqm_keys p' 1
    obtain ⟨k3, k4⟩ := toBqm_keys p₀ 1
    have hmem : ∀ w, w ∈ (if (p'.toBqm 1).vartype ≠ .spin then (p'.toBqm 1).toSpin else p'.toBqm 1).variables ↔
        w ∈ (p₀.toBqm 1).variables := by
      intro w
      have : w ∈ (p₀.toBqm 1).variables ↔ w ∈ (p'.toBqm 1).variables := by
        rw [Bqm.mem_variables, Bqm.mem_variables, k1, k2, k3, k4]
        exact (hu w).symm
      rw [this]
      split
      · rw [Bqm.toSpin_mem]
      · rfl
    have hlen := ((List.perm_ext_iff_of_nodup (Bqm.variables_nodup _) (Bqm.variables_nodup _)).mpr hmem).length_eq
    obtain ⟨i, h3, h4⟩ := foldlM_listSet _ _ _ h1 v ((hmem v).mpr (by rw [Bqm.mem_variables, k3, k4]; exact hv))
    rw [List.length_replicate, hlen] at h4
    refine ⟨i, ?_, h4⟩
    have := index_ok_iff.mp h3
    rwa [e1] at this
  obtain ⟨s₀, hs₀⟩ := prepare_total hlt
  have hr := fromCalls_ready hp hs₀
  exact ⟨hm.keyed.linear, hm.keyed.quad, hm.keyed.ordered, hr.nodup, fun v => (hr.mem v).trans (hu v).symm,
    e1.trans hr.labelToIndex, e2.trans hr.indexToLabel⟩

/-- If interactions are added to a physical model that `to_physical` made, the energy reported with a sample is still
the energy of the sample, and the samples are well-formed. -/
theorem C115_extended (hp : p₀.FromCalls) {calls : List PhysCall} (hr : rng.Ok) (hst : StatesOk p₀ p₀.varsSet init)
    (h : (anySolve rng seeded fresh exp (p₀.after calls) numReads o seed).run init = .ok l init') :
    ∀ a ∈ l, a.energy = (p₀.after calls).energy a.sample.assign ∧ (dkeys a.sample).Nodup ∧
      (∀ v, v ∈ dkeys a.sample ↔ (p₀.after calls).Occurs v) ∧
      ∀ kv ∈ a.sample, (p₀.after calls).mtype.vtype.Domain kv.2 := by
  have hd : (p₀.after calls).Dicts := byHand_dicts ⟨p₀, calls, .inr hp, rfl⟩
  by_cases hl : (p₀.after calls).LoopFree
  · obtain ⟨p', hm⟩ := merges_of hd hl
    rw [anySolve_eq hm] at h
    obtain ⟨_, _, g, s, rs, _, hs, _⟩ := solve_ok h
    have hready := extended_ready hp hm hs
    have ht : p'.mtype = (p₀.after calls).mtype := by rw [hm.same]; rfl
    have ht₀ : p'.mtype = p₀.mtype := by rw [ht]; exact (after_rest calls p₀).1
    have hst' : StatesOk p' p₀.labels init := by
      intro l0 hl0 st hst0 v hv
      rw [ht₀]
      refine hst l0 hl0 st hst0 v ?_
      have : ∃ i, dget p₀.labelToIndex v = some i := by
        have := prepare_indexed hs v ((hready.mem v).mp hv)
        rw [hm.same] at this
        rwa [← (after_rest calls p₀).2.2.2.1]
      obtain ⟨i, hi⟩ := this
      exact fromCalls_indexed hp hi
    intro a ha
    have h1 := C43_reported_energy_partial hready hr hst' h a ha
    obtain ⟨h2, h3, h4⟩ := C46_samples_partial hready hr hst' h a ha
    rw [ht] at h4
    exact ⟨h1.trans (hm.energy _), by rw [h2]; exact hready.nodup,
      fun v => (h3 v).trans ((hm.occurs v).trans (occurs_iff v).symm), h4⟩
  · exact (looped_not_ok hl h).elim

/-- The preparation succeeds exactly if there are no self-loops and all labels have an index from the conversion. -/
theorem C115_extended_iff (hp : p₀.FromCalls) (hs : prepare p₀ = .ok s) (calls : List PhysCall) :
    (∃ b s', (p₀.after calls).anyBqm 1 = .ok b ∧ anyPrepare (p₀.after calls) b = .ok s') ↔
      (p₀.after calls).LoopFree ∧ ∀ v, (p₀.after calls).Occurs v → v ∈ p₀.labels := by
  have hd : (p₀.after calls).Dicts := byHand_dicts ⟨p₀, calls, .inr hp, rfl⟩
  have hready := fromCalls_ready hp hs
  constructor
  · rintro ⟨b, s', h1, h2⟩
    have hl : (p₀.after calls).LoopFree := by
      intro a
      cases hg : dget (p₀.after calls).quad (a, a) with
      | none => rfl
      | some c => rw [looped_bqm hg] at h1; cases h1
    obtain ⟨p', hm⟩ := merges_of hd hl
    rw [hm.bqm] at h1
    cases h1
    have h3 := anyPrepare_eq hm
    rw [h2] at h3
    refine ⟨hl, fun v hv => ?_⟩
    rw [occurs_iff, ← hm.occurs] at hv
    exact ((extended_ready hp hm h3).mem v).mpr hv
  · rintro ⟨hl, hv⟩
    obtain ⟨p', hm⟩ := merges_of hd hl
    obtain ⟨_, _, _, r4, r5⟩ := after_rest calls p₀
    have hr' : p'.Ready p₀.labels := ⟨hm.keyed.linear, hm.keyed.quad, hm.keyed.ordered, hready.nodup, fun v =>
      ⟨fun h => (hm.occurs v).mpr (after_uses calls ((hready.mem v).mp h)), fun h => hv v ((occurs_iff v).mpr ((hm.occurs v).mp h))⟩,
      (by rw [hm.same]; exact r4 : p'.labelToIndex = p₀.labelToIndex).trans hready.labelToIndex,
      (by rw [hm.same]; exact r5 : p'.indexToLabel = p₀.indexToLabel).trans hready.indexToLabel⟩
    obtain ⟨s', h1, _, _⟩ := prepare_ok hr'
    rw [anyPrepare_eq hm] at h1
    cases h2 : anyPrepare (p₀.after calls) (p'.toBqm 1) with
    | error e => rw [h2] at h1; cases h1
    | ok s' => exact ⟨_, s', hm.bqm 1, h2⟩

/-! ## Examples -/

/-- Calls that give a pair in both orders, a coefficient twice, and one with an unknown body. -/
def Ex.handCalls : List PhysCall := [.quadratic "x[1]" "x[0]" 3, .linear "x[0]" 5, .other, .quadratic "x[0]" "x[1]" (-1),
  .linear "x[0]" 2]

example : ((Physical.new .ising).after Ex.handCalls).ByHand := ⟨_, _, .inl ⟨_, rfl⟩, rfl⟩
example : ((Physical.new .ising).after Ex.handCalls).LoopFree ∧ ¬ Empty ((Physical.new .ising).after Ex.handCalls) := by
  constructor
  · intro a
    rw [after_quad]
    simp only [Ex.handCalls, PhysCall.lastPair, Physical.new, dget]
    by_cases h : "x[1]" = a
    · subst h; decide +kernel
    · by_cases h' : "x[0]" = a
      · subst h'; decide +kernel
      · simp [h, h']
  · unfold Empty; decide +kernel
example : ((Physical.new .ising).after Ex.handCalls).anyBqm (-1) = .ok ⟨.spin, [("x[0]", -2)], [(("x[0]", "x[1]"), -2)], 0⟩ := by
  decide +kernel
example : ((Physical.new .ising).after [.quadratic "a" "a" 1]).anyBqm (-1) = .error .valueError := by decide +kernel
example : Ex.physIsing.FromCalls := Ex.ising_calls
/-- A run on an extended model. -/
example : (match (anySolve Ex.rng id 7 Ex.exp (Ex.physIsing.after Ex.handCalls) 1 Ex.options (some 3)).run none with
    | .ok l _ => some (l.map Annealed.energy) | .error _ _ => none).isSome = true := by decide +kernel

end Sawatabi.Props
