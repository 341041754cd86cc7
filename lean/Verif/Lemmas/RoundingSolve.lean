import Verif.Lemmas.Rounding
import Verif.Props.SolverBase

/-!
# Lemmas about solve in floating point
-/

namespace Sawatabi

variable {γ : Type} {ar : Arith} {rng : Rng γ} {exp : ℚ → Except Err ℚ} {s : Problem} {o : Options} {p : Physical}
  {ls : List String}

theorem readsR_get {init : Option (List Sample)} {rs : List Nat} {g : γ} {l : List Annealed}
    (h : readsR ar rng exp s o init rs g = .ok l) :
    l.length = rs.length ∧ ∀ (j : Nat) (a : Annealed), l[j]? = some a → ∃ r st g1 g2, rs[j]? = some r ∧
      annealingR ar rng exp s o st g1 = .ok (a, g2) ∧
      (((init = none ∨ init = some []) ∧ st = none) ∨ ∃ l0 v, init = some l0 ∧ l0[r]? = some v ∧ st = some v) := by
  induction rs generalizing g l with
  | nil => cases h; exact ⟨rfl, by simp⟩
  | cons r rs ih =>
    unfold readsR at h
    have key : ∃ st, (((init = none ∨ init = some []) ∧ st = none) ∨ ∃ l0 v, init = some l0 ∧ l0[r]? = some v ∧ st = some v) ∧
        ∃ a g1 rest, annealingR ar rng exp s o st g = .ok (a, g1) ∧ readsR ar rng exp s o init rs g1 = .ok rest ∧ l = a :: rest := by
      have tail : ∀ st, ((do
          let (a, g) ← annealingR ar rng exp s o st g
          let rest ← readsR ar rng exp s o init rs g
          return a :: rest) : Except Err (List Annealed)) = .ok l →
          ∃ a g1 rest, annealingR ar rng exp s o st g = .ok (a, g1) ∧ readsR ar rng exp s o init rs g1 = .ok rest ∧ l = a :: rest := by
        intro st h
        rw [bind_eq_ok] at h
        obtain ⟨⟨a, g1⟩, h1, h2⟩ := h
        simp only [bind_eq_ok, Except.pure_ok] at h2
        obtain ⟨rest, h2, h3⟩ := h2
        cases h3
        exact ⟨a, g1, rest, h1, h2, rfl⟩
      cases hi : init with
      | none =>
        rw [hi] at h
        simp only [Except.pure_ok, Except.bind_ok] at h
        exact ⟨none, .inl ⟨.inl rfl, rfl⟩, by rw [hi] at tail; exact tail none h⟩
      | some l0 =>
        cases l0 with
        | nil =>
          rw [hi] at h
          simp only [Except.pure_ok, Except.bind_ok] at h
          exact ⟨none, .inl ⟨.inr rfl, rfl⟩, by rw [hi] at tail; exact tail none h⟩
        | cons b l0 =>
          rw [hi] at h
          simp only [Except.pure_ok] at h
          rw [bind_eq_ok] at h
          obtain ⟨v, hv, h⟩ := h
          exact ⟨some v, .inr ⟨_, v, rfl, listGet_ok.mp hv, rfl⟩, by rw [hi] at tail; exact tail (some v) h⟩
    obtain ⟨st, hst, a, g1, rest, h1, h2, rfl⟩ := key
    obtain ⟨e1, e2⟩ := ih h2
    refine ⟨by simp [e1], ?_⟩
    intro j b hb
    cases j with
    | zero =>
      simp only [List.getElem?_cons_zero, Option.some.injEq] at hb
      subst hb
      exact ⟨r, st, g, g1, rfl, h1, hst⟩
    | succ j =>
      simp only [List.getElem?_cons_succ] at hb ⊢
      exact e2 j b hb

theorem solveR_run {seeded : Nat → γ} {fresh : γ} {numReads : Int} {seed : Option Int} (init : Option (List Sample)) :
    (solveR ar rng seeded fresh exp p numReads o seed).run init =
      match checkArgs p numReads o init with
      | .error e => .error e init
      | .ok () => match chooseRng seeded fresh seed with
        | .error e => .error e init
        | .ok g => match (prepare p >>= fun s => (readsR ar rng exp s o (converted p init) (List.range numReads.toNat) g).map fun rs =>
            rs.map fun a => { a with sample := changeVartype s.original.vartype a.sample }) with
          | .error e => .error e (converted p init)
          | .ok l => .ok l (converted p init) := by
  unfold solveR converted
  simp only [Py.run_bind, Py.run_get]
  cases h1 : checkArgs p numReads o init with
  | error e => simp only [Py.run_liftE]
  | ok u =>
    simp only [Py.run_liftE]
    cases h2 : chooseRng seeded fresh seed with
    | error e => simp only
    | ok g =>
      simp only
      by_cases hv : p.mtype.vtype ≠ .spin
      · simp only [if_pos hv, Py.run_bind, Py.run_modify, Py.run_liftE]
        cases prepare p with
        | error e => rfl
        | ok s =>
          simp only [Except.bind_ok, Py.run_bind, Py.run_get, Py.run_liftE]
          cases readsR ar rng exp s o (init.map fun l => l.map spinInit) (List.range numReads.toNat) g <;> rfl
      · simp only [if_neg hv, Py.run_bind, Py.run_liftE]
        cases prepare p with
        | error e => rfl
        | ok s =>
          simp only [Except.bind_ok, Py.run_bind, Py.run_get, Py.run_liftE]
          cases readsR ar rng exp s o init (List.range numReads.toNat) g <;> rfl

theorem solveR_ok {seeded : Nat → γ} {fresh : γ}
    {numReads : Int} {seed : Option Int} {init init' : Option (List Sample)} {l : List Annealed}
    (h : (solveR ar rng seeded fresh exp p numReads o seed).run init = .ok l init') :
    checkArgs p numReads o init = .ok () ∧ init' = converted p init ∧ ∃ g s rs, chooseRng seeded fresh seed = .ok g ∧
      prepare p = .ok s ∧ readsR ar rng exp s o (converted p init) (List.range numReads.toNat) g = .ok rs ∧
      l = rs.map fun a => { a with sample := changeVartype s.original.vartype a.sample } := by
  rw [solveR_run] at h
  cases h1 : checkArgs p numReads o init with
  | error e => rw [h1] at h; cases h
  | ok u =>
    rw [h1] at h
    cases h2 : chooseRng seeded fresh seed with
    | error e => rw [h2] at h; cases h
    | ok g =>
      rw [h2] at h
      cases h3 : prepare p with
      | error e => rw [h3] at h; cases h
      | ok s =>
        rw [h3] at h
        simp only [Except.bind_ok] at h
        cases h4 : readsR ar rng exp s o (converted p init) (List.range numReads.toNat) g with
        | error e => rw [h4] at h; cases h
        | ok rs =>
          rw [h4] at h
          cases h
          exact ⟨rfl, rfl, g, s, rs, rfl, rfl, h4, rfl⟩

/-- Each read of a successful `solve` is a run of the annealing from an admissible state. -/
theorem solveR_reads {seeded : Nat → γ} {fresh : γ} {numReads : Int} {seed : Option Int} {init init' : Option (List Sample)}
    {l : List Annealed} (hst : StatesOk p ls init)
    (h : (solveR ar rng seeded fresh exp p numReads o seed).run init = .ok l init') :
    ∃ s, prepare p = .ok s ∧ ∀ a ∈ l, ∃ st g g' b, InitOk ls st ∧ annealingR ar rng exp s o st g = .ok (b, g') ∧
      a = { b with sample := changeVartype s.original.vartype b.sample } := by
  obtain ⟨_, _, g, s, rs, _, h2, h3, rfl⟩ := solveR_ok h
  obtain ⟨-, hr⟩ := readsR_get h3
  refine ⟨s, h2, fun a ha => ?_⟩
  obtain ⟨b, hb, rfl⟩ := List.mem_map.mp ha
  obtain ⟨j, hj⟩ := List.getElem?_of_mem hb
  obtain ⟨r, st, g1, g2, e1, e2, e3⟩ := hr j b hj
  refine ⟨st, g1, g2, b, ?_, e2, rfl⟩
  rcases e3 with ⟨_, rfl⟩ | ⟨l0, v, f1, f2, rfl⟩
  · trivial
  · exact Props.statesOk_spins hst l0 f1 v (List.mem_of_getElem? f2)

end Sawatabi
