import Verif.Lemmas.Sweeps

/-!
# Lemmas: whole runs of the annealing
-/

namespace Sawatabi

variable {p : Physical} {ls : List String} {s : Problem} {γ : Type} {rng : Rng γ} {exp : ℚ → Except Err ℚ} {o : Options}
  {rands : List ℚ}

/-- A sample that gives a spin to each of the labels. -/
def Sample.SpinsOn (st : Sample) (ls : List String) : Prop := ∀ l ∈ ls, ∃ a, dget st l = some a ∧ (a = 1 ∨ a = -1)

theorem spinsOf_ok (h : s.Arrays ls) {st : Sample} (hst : st.SpinsOn ls) :
    spinsOf s st = .ok (ls.map fun l => (dget st l).getD 0) := by
  unfold spinsOf
  obtain ⟨r, h1, h2, h3⟩ := fill_array h.ready (fun v => st.value v) (fun v => (dget st v).getD 0) s.bqm.variables
    (fun v hv => by
      obtain ⟨a, ha, _⟩ := hst v ((h.on v).mp hv)
      simp only [Sample.value, ha, Option.getD_some])
    (fun v hv => (h.on v).mp hv) (List.replicate s.size 1) (by rw [List.length_replicate, h.size])
  rw [h1]
  congr 1
  apply List.ext_getElem?
  intro i
  by_cases hi : i < ls.length
  · rw [h3 i ls[i] (List.getElem?_eq_getElem hi), if_pos ((h.on _).mpr (List.getElem_mem hi)), List.getElem?_map,
      List.getElem?_eq_getElem hi]
    rfl
  · rw [List.getElem?_eq_none (by omega), List.getElem?_eq_none (by simp; omega)]

/-- An initial state the annealing can start from. -/
def InitOk (ls : List String) : Option Sample → Prop
  | none => True
  | some st => st.SpinsOn ls

theorem initialSpins_ok (h : s.Arrays ls) (hr : rng.Ok) {init : Option Sample} (hi : InitOk ls init) (g : γ) :
    ∃ x g', initialSpins rng s init g = .ok (x, g') ∧ x.length = ls.length ∧ IsSpins x ∧
      ∀ st, init = some st → x = ls.map fun l => (dget st l).getD 0 := by
  unfold initialSpins
  cases init with
  | none =>
    refine ⟨_, _, rfl, by simp [hr.integers, h.size], ?_, by simp⟩
    intro a ha
    obtain ⟨b, _, rfl⟩ := List.mem_map.mp ha
    cases b <;> simp
  | some st =>
    simp only [spinsOf_ok h hi, Except.bind_ok, Except.pure_ok]
    refine ⟨_, _, rfl, by simp, ?_, by rintro _ ⟨⟩; rfl⟩
    intro a ha
    obtain ⟨l, hl, rfl⟩ := List.mem_map.mp ha
    obtain ⟨b, hb, hb'⟩ := hi l hl
    rw [hb]
    exact hb'

theorem startState_ok (h : s.Ok ls) {x : List ℤ} (hx : x.length = ls.length) (hs : IsSpins x) {g : γ} {t : Outer γ}
    (ht : startState s o x g = .ok t) :
    t.x = x ∧ t.energy = - s.bqm.energy (spinAssign ls x) ∧ t.used = 0 ∧ t.energyHist = [] ∧ t.temperatureHist = [] ∧
    t.acceptanceHist = [] ∧ t.rng = g ∧ t.reversing = decide (o.reverse ≠ .none) ∧
    (o.reverse.isTruthy = false ∧ t.temperature = o.initialTemperature ∧ t.target = 0 ∨
      o.reverse.isTruthy = true ∧ t.temperature = tinyTemperature ∧ o.reverse.get "reverse_temperature" = .ok t.target) := by
  unfold startState at ht
  rw [decode_eq h.ready hx, sampleEnergy_zip h.wf h.on h.ready.nodup hx, Except.bind_ok] at ht
  cases hrev : o.reverse.isTruthy with
  | false =>
    rw [hrev] at ht
    simp only [Bool.false_eq_true, if_false, Except.pure_ok, Except.bind_ok] at ht
    cases ht
    exact ⟨rfl, by simp, rfl, rfl, rfl, rfl, rfl, rfl, .inl ⟨rfl, rfl, rfl⟩⟩
  | true =>
    rw [hrev] at ht
    simp only [if_true, Except.pure_ok] at ht
    rw [bind_eq_ok] at ht
    obtain ⟨top, ht1, ht⟩ := ht
    cases ht
    exact ⟨rfl, by simp, rfl, rfl, rfl, rfl, rfl, rfl, .inr ⟨rfl, rfl, ht1⟩⟩

theorem startState_total (h : s.Ok ls) {x : List ℤ} (hx : x.length = ls.length) (g : γ)
    (ho : o.reverse.isTruthy = true → ∃ top, o.reverse.get "reverse_temperature" = .ok top) :
    ∃ t, startState s o x g = .ok t := by
  unfold startState
  rw [decode_eq h.ready hx, sampleEnergy_zip h.wf h.on h.ready.nodup hx, Except.bind_ok]
  cases hrev : o.reverse.isTruthy with
  | false => exact ⟨_, rfl⟩
  | true =>
    obtain ⟨top, ht⟩ := ho hrev
    simp only [if_true]
    rw [ht]
    exact ⟨_, rfl⟩

/-- The parts of one run. -/
structure RunOf (rng : Rng γ) (exp : ℚ → Except Err ℚ) (s : Problem) (o : Options) (init : Option Sample) (g : γ)
    (a : Annealed) (g' : γ) (x : List ℤ) (t0 t : Outer γ) (rands : List ℚ) : Prop where
  initial : ∃ gi ts, initialSpins rng s init g = .ok (x, gi) ∧ startState s o x gi = .ok ts ∧
    t0 = { ts with rng := (rng.random (o.numSweeps.toNat * s.size) ts.rng).2 } ∧
    rands = (rng.random (o.numSweeps.toNat * s.size) ts.rng).1
  nonneg : 0 ≤ o.numSweeps
  sweeps : (List.range o.numSweeps.toNat).foldlM (sweepStep rng exp s o rands) t0 = .ok t
  result : a = ⟨decode s.model t.x, t.energy + s.original.offset * 2, t.energyHist, t.temperatureHist, t.acceptanceHist⟩
  rng : g' = t.rng

theorem annealing_iff {init : Option Sample} {g g' : γ} {a : Annealed} :
    annealing rng exp s o init g = .ok (a, g') ↔ ∃ x t0 t rands, RunOf rng exp s o init g a g' x t0 t rands := by
  unfold annealing
  rw [bind_eq_ok]
  constructor
  · rintro ⟨⟨x, gi⟩, h1, h2⟩
    simp only at h2
    rw [bind_eq_ok] at h2
    obtain ⟨ts, h3, h2⟩ := h2
    by_cases hn : o.numSweeps < 0
    · rw [if_pos hn] at h2; cases h2
    · rw [if_neg hn] at h2
      simp only [bind_eq_ok, Except.pure_ok] at h2
      obtain ⟨t, h4, h5⟩ := h2
      cases h5
      exact ⟨x, _, t, _, ⟨gi, ts, h1, h3, rfl, rfl⟩, by omega, h4, rfl, rfl⟩
  · rintro ⟨x, t0, t, rands, ⟨gi, ts, h1, h3, rfl, rfl⟩, hn, h4, rfl, rfl⟩
    refine ⟨(x, gi), h1, ?_⟩
    simp only
    rw [bind_eq_ok]
    refine ⟨ts, h3, ?_⟩
    rw [if_neg (by omega)]
    simp only [bind_eq_ok, Except.pure_ok]
    exact ⟨t, h4, rfl⟩

/-- The facts about a run that the theorems use. -/
theorem run_facts (h : s.Ok ls) (hr : rng.Ok) {init : Option Sample} (hi : InitOk ls init) {g g' : γ} {a : Annealed}
    {x : List ℤ} {t0 t : Outer γ} {rands : List ℚ} (hrun : RunOf rng exp s o init g a g' x t0 t rands) :
    x.length = ls.length ∧ IsSpins x ∧ t0.x = x ∧ Outer.Inv s ls 0 t0 ∧ Outer.Inv s ls o.numSweeps.toNat t ∧
    t0.energyHist = [] ∧ t0.temperatureHist = [] ∧ rands.length = o.numSweeps.toNat * ls.length ∧
    (∀ r ∈ rands, 0 ≤ r ∧ r < 1) ∧
    (∀ st, init = some st → x = ls.map fun l => (dget st l).getD 0) ∧
    t0.reversing = decide (o.reverse ≠ .none) ∧ t0.used = 0 ∧
    (o.reverse.isTruthy = false ∧ t0.temperature = o.initialTemperature ∧ t0.target = 0 ∨
      o.reverse.isTruthy = true ∧ t0.temperature = tinyTemperature ∧
        o.reverse.get "reverse_temperature" = .ok t0.target) := by
  obtain ⟨gi, ts, h1, h2, h3, h4⟩ := hrun.initial
  obtain ⟨x', gi', e1, e2, e3, e4⟩ := initialSpins_ok h.toArrays hr hi g
  rw [h1] at e1
  cases e1
  obtain ⟨f1, f2, f3, f4, f5, f6, f7, f8, f9⟩ := startState_ok h e2 e3 h2
  have hinv : Outer.Inv s ls 0 t0 := by
    subst h3
    exact ⟨⟨by simp [f1, e2], by simp only [f1]; exact e3, by simp only [f1, f2]⟩, by simp [f3], by simp [f4], by simp [f5],
      by simp [f6], by simp [f6]⟩
  refine ⟨e2, e3, by rw [h3]; exact f1, hinv, sweeps_inv h hr _ hinv hrun.sweeps, by rw [h3]; exact f4, by rw [h3]; exact f5,
    by rw [h4, hr.random, h.size], by rw [h4]; exact hr.unit _ _, e4, by rw [h3]; exact f8, by rw [h3]; exact f3,
    by rw [h3]; exact f9⟩

/-- The energy of a physical model depends only on its variables. -/
theorem Physical.Ready.energy_congr (h : p.Ready ls) {σ τ : Assign} (he : ∀ l ∈ ls, σ l = τ l) : p.energy σ = p.energy τ := by
  unfold Physical.energy
  congr 1
  · congr 2
    apply List.map_congr_left
    intro kv hkv
    rw [he kv.1 ((h.mem _).mpr (.inl (List.mem_map.mpr ⟨_, hkv, rfl⟩)))]
  · congr 1
    apply List.map_congr_left
    intro kv hkv
    rw [he kv.1.1 ((h.mem _).mpr (.inr ⟨kv.1, List.mem_map.mpr ⟨_, hkv, rfl⟩, .inl rfl⟩)),
      he kv.1.2 ((h.mem _).mpr (.inr ⟨kv.1, List.mem_map.mpr ⟨_, hkv, rfl⟩, .inr rfl⟩))]

theorem changeVartype_zip (ls : List String) (x : List ℤ) :
    changeVartype .binary (ls.zip x) = ls.zip (x.map fun a => (a + 1) / 2) := by
  unfold changeVartype
  rw [List.zip_map_right]
  rfl

/-- The physical energy of a decoded and converted state. -/
theorem Problem.Ok.sample_energy (h : s.Ok ls) {x : List ℤ} (hx : x.length = ls.length) (hs : IsSpins x) :
    s.model.energy (changeVartype s.original.vartype (decode s.model x)).assign =
      - s.bqm.energy (spinAssign ls x) + s.original.offset * 2 := by
  rw [← h.energy, decode_eq h.ready hx]
  have hv : s.original.vartype = s.model.mtype.vtype := by rw [h.original]; rfl
  rw [hv]
  cases ht : s.model.mtype.vtype with
  | spin =>
    simp only [changeVartype]
    rw [zip_assign h.ready.nodup hx]
  | binary =>
    rw [changeVartype_zip, zip_assign h.ready.nodup (by simpa using hx)]
    apply h.ready.energy_congr
    intro l hl
    have hlt : ls.idxOf l < x.length := by rw [hx]; exact List.idxOf_lt_length_of_mem hl
    simp only [spinAssign, Assign.toBinary, List.getElem?_map, List.getElem?_eq_getElem hlt, Option.map_some,
      Option.getD_some]
    rcases hs _ (List.getElem_mem hlt) with h' | h' <;> rw [h'] <;> norm_num

/-- The reads of a solve. -/
theorem reads_get {init : Option (List Sample)} {rs : List Nat} {g : γ} {l : List Annealed}
    (h : reads rng exp s o init rs g = .ok l) :
    l.length = rs.length ∧ ∀ (j : Nat) (a : Annealed), l[j]? = some a → ∃ r st g1 g2, rs[j]? = some r ∧
      annealing rng exp s o st g1 = .ok (a, g2) ∧
      (((init = none ∨ init = some []) ∧ st = none) ∨ ∃ l0 v, init = some l0 ∧ l0[r]? = some v ∧ st = some v) := by
  induction rs generalizing g l with
  | nil => cases h; exact ⟨rfl, by simp⟩
  | cons r rs ih =>
    unfold reads at h
    have key : ∃ st, (((init = none ∨ init = some []) ∧ st = none) ∨ ∃ l0 v, init = some l0 ∧ l0[r]? = some v ∧ st = some v) ∧
        ∃ a g1 rest, annealing rng exp s o st g = .ok (a, g1) ∧ reads rng exp s o init rs g1 = .ok rest ∧ l = a :: rest := by
      have tail : ∀ st, ((do
          let (a, g) ← annealing rng exp s o st g
          let rest ← reads rng exp s o init rs g
          return a :: rest) : Except Err (List Annealed)) = .ok l →
          ∃ a g1 rest, annealing rng exp s o st g = .ok (a, g1) ∧ reads rng exp s o init rs g1 = .ok rest ∧ l = a :: rest := by
        intro st h
        rw [bind_eq_ok] at h
        obtain ⟨⟨a, g1⟩, h1, h2⟩ := h
        simp only [bind_eq_ok, Except.pure_ok] at h2
        obtain ⟨rest, h2, h3⟩ := h2
        cases h3
        exact ⟨a, g1, rest, h1, h2, rfl⟩
      cases hi : init with
      | none =>
        rw [hi] at h
        simp only [Except.pure_ok, Except.bind_ok] at h
        exact ⟨none, .inl ⟨.inl rfl, rfl⟩, by rw [hi] at tail; exact tail none h⟩
      | some l0 =>
        cases l0 with
        | nil =>
          rw [hi] at h
          simp only [Except.pure_ok, Except.bind_ok] at h
          exact ⟨none, .inl ⟨.inr rfl, rfl⟩, by rw [hi] at tail; exact tail none h⟩
        | cons b l0 =>
          rw [hi] at h
          simp only [Except.pure_ok] at h
          rw [bind_eq_ok] at h
          obtain ⟨v, hv, h⟩ := h
          exact ⟨some v, .inr ⟨_, v, rfl, listGet_ok.mp hv, rfl⟩, by rw [hi] at tail; exact tail (some v) h⟩
    obtain ⟨st, hst, a, g1, rest, h1, h2, rfl⟩ := key
    obtain ⟨e1, e2⟩ := ih h2
    refine ⟨by simp [e1], ?_⟩
    intro j b hb
    cases j with
    | zero =>
      simp only [List.getElem?_cons_zero, Option.some.injEq] at hb
      subst hb
      exact ⟨r, st, g, g1, rfl, h1, hst⟩
    | succ j =>
      simp only [List.getElem?_cons_succ] at hb ⊢
      exact e2 j b hb

/-- The initial states after the conversion in place. -/
def converted (p : Physical) (init : Option (List Sample)) : Option (List Sample) :=
  if p.mtype.vtype ≠ .spin then init.map fun l => l.map spinInit else init

/-- The whole of `solve`. -/
theorem solve_run {seeded : Nat → γ} {fresh : γ} {numReads : Int} {seed : Option Int} (init : Option (List Sample)) :
    (solve rng seeded fresh exp p numReads o seed).run init =
      match checkArgs p numReads o init with
      | .error e => .error e init
      | .ok () => match chooseRng seeded fresh seed with
        | .error e => .error e init
        | .ok g => match (prepare p >>= fun s => (reads rng exp s o (converted p init) (List.range numReads.toNat) g).map fun rs =>
            rs.map fun a => { a with sample := changeVartype s.original.vartype a.sample }) with
          | .error e => .error e (converted p init)
          | .ok l => .ok l (converted p init) := by
  unfold solve converted
  simp only [Py.run_bind, Py.run_get]
  cases h1 : checkArgs p numReads o init with
  | error e => simp only [Py.run_liftE]
  | ok u =>
    simp only [Py.run_liftE]
    cases h2 : chooseRng seeded fresh seed with
    | error e => simp only
    | ok g =>
      simp only
      by_cases hv : p.mtype.vtype ≠ .spin
      · simp only [if_pos hv, Py.run_bind, Py.run_modify, Py.run_liftE]
        cases prepare p with
        | error e => rfl
        | ok s =>
          simp only [Except.bind_ok, Py.run_bind, Py.run_get, Py.run_liftE]
          cases reads rng exp s o (init.map fun l => l.map spinInit) (List.range numReads.toNat) g <;> rfl
      · simp only [if_neg hv, Py.run_bind, Py.run_liftE]
        cases prepare p with
        | error e => rfl
        | ok s =>
          simp only [Except.bind_ok, Py.run_bind, Py.run_get, Py.run_liftE]
          cases reads rng exp s o init (List.range numReads.toNat) g <;> rfl

end Sawatabi
