import Verif.Props.SolverSchedule
import Mathlib.Algebra.Order.Field.Basic

/-!
# The annealing: initial states, arguments and seeds (C52, C53, C54, C55)
-/

namespace Sawatabi.Props

variable {p : Physical} {ls : List String} {s : Problem} {γ : Type} {rng : Rng γ} {exp : ℚ → Except Err ℚ} {o : Options}
  {seeded : Nat → γ} {fresh : γ} {numReads : Int} {seed : Option Int} {init init' : Option (List Sample)}
  {l : List Annealed}

theorem Except.throw_error {α : Type} (e : Err) : (throw e : Except Err α) = .error e := rfl

/-- What the argument checks let through. -/
theorem checkArgs_iff : checkArgs p numReads o init = .ok () ↔ p.isEmptyModel = false ∧
    (∀ l, init = some l → l = [] ∨ (l.length : ℤ) = numReads) ∧ o.pickup ≠ .other ∧
    (o.reverse.isTruthy = true → ∃ d P R, o.reverse = .dict d ∧ dget d "reverse_period" = some P ∧
      dget d "reverse_temperature" = some R) := by
  unfold checkArgs
  simp only [Except.throw_error, Except.bind_error, Except.pure_ok]
  cases hemp : p.isEmptyModel with
  | true => simp
  | false =>
    simp only [Bool.false_eq_true, if_false, true_and]
    have h2 : (if o.pickup = Pickup.other then (Except.error Err.valueError : Except Err Unit) else
        if o.reverse.isTruthy = true then
          match o.reverse with
          | PyReverse.dict d => if (dget d "reverse_period").isNone = true then Except.error Err.valueError else
              if (dget d "reverse_temperature").isNone = true then Except.error Err.valueError else Except.ok ()
          | _ => Except.error Err.typeError
        else Except.ok ()) = .ok () ↔ o.pickup ≠ .other ∧ (o.reverse.isTruthy = true → ∃ d P R, o.reverse = .dict d ∧
          dget d "reverse_period" = some P ∧ dget d "reverse_temperature" = some R) := by
      by_cases hpk : o.pickup = .other
      · simp [hpk]
      · simp only [hpk, if_false, ne_eq, not_false_eq_true, true_and]
        cases hrev : o.reverse with
        | none => simp [PyReverse.isTruthy]
        | truthy => simp [PyReverse.isTruthy]
        | falsy => simp [PyReverse.isTruthy]
        | dict d =>
          cases ht : (PyReverse.dict d).isTruthy with
          | false => simp
          | true =>
            simp only [if_true, PyReverse.dict.injEq, true_implies]
            cases h3 : dget d "reverse_period" <;> cases h4 : dget d "reverse_temperature" <;> simp [h3, h4]
    cases init with
    | none =>
      simp only [reduceCtorEq, false_implies, implies_true, true_and]
      exact h2
    | some l =>
      by_cases hl : l ≠ [] ∧ (l.length : ℤ) ≠ numReads
      · simp only [hl, if_true, ne_eq, not_false_eq_true, and_self, Option.some.injEq, forall_eq', reduceCtorEq, false_iff]
        rintro ⟨h | h, _⟩
        · exact h
        · exact h
      · have hl' : l = [] ∨ (l.length : ℤ) = numReads := by
          rw [not_and_or, not_not, not_not] at hl; exact hl
        simp only [hl, if_false, Option.some.injEq, forall_eq', hl', true_and]
        exact h2

/-! ## C52: initial states -/

theorem zip_get {ls : List String} {f : String → ℤ} (hn : ls.Nodup) {v : String} (hv : v ∈ ls) :
    dget (ls.zip (ls.map f)) v = some (f v) := by
  rw [dget_zip hn (getElem?_idxOf' hv), List.getElem?_map, getElem?_idxOf' hv]
  rfl

theorem converted_get {l0 l1 : List Sample} (h : converted p (some l0) = some l1) {j : Nat} {st : Sample}
    (hj : l0[j]? = some st) : l1[j]? = some (if p.mtype.vtype ≠ .spin then spinInit st else st) := by
  unfold converted at h
  split at h
  · rename_i hv
    cases h
    rw [List.getElem?_map, hj, if_pos hv]; rfl
  · rename_i hv
    cases h
    rw [hj, if_neg hv]

/-- Without sweeps, sample `j` is initial state `j`. -/
theorem C52_zero_sweeps_partial (hp : p.Ready ls) (hr : rng.Ok) {l0 : List Sample} (hst : StatesOk p ls (some l0)) (hl0 : l0 ≠ [])
    (hz : o.numSweeps = 0) (h : (solve rng seeded fresh exp p numReads o seed).run (some l0) = .ok l init') :
    l.length = l0.length ∧ ∀ (j : Nat) (a : Annealed) (st : Sample), l[j]? = some a → l0[j]? = some st →
      dkeys a.sample = ls ∧ ∀ v ∈ ls, dget a.sample v = dget st v := by
  constructor
  · have hlen := (C50_statistics_partial hp hr hst h).1
    obtain ⟨hc, _⟩ := solve_ok h
    have := ((checkArgs_iff.mp hc).2.1 l0 rfl).resolve_left hl0
    omega
  · intro j a st ha hj
    refine ⟨(C46_samples_partial hp hr hst h a (List.mem_of_getElem? ha)).1, fun v hv => ?_⟩
    obtain ⟨s, hs, rfl, hall⟩ := solve_reads hp hst h
    obtain ⟨st', g, g', b, x, t0, t, rands, hi, hrun, rfl, e⟩ := hall j a ha
    obtain ⟨e1, _, e3, _, _, _, _, _, _, e10, _⟩ := run_facts hs hr hi hrun
    have ht : t = t0 := by
      have := hrun.sweeps
      rw [hz] at this
      cases this; rfl
    have hst' : st' = some (if s.model.mtype.vtype ≠ .spin then spinInit st else st) := by
      rcases e with ⟨e | e, _⟩ | ⟨l1, w, f1, f2, rfl⟩
      · cases e
      · cases e; exact absurd rfl hl0
      · rw [converted_get f1 hj] at f2; exact f2.symm
    have hx := e10 _ hst'
    have hb : b.sample = decode s.model x := by rw [hrun.result, ht, e3]
    simp only
    rw [hb, sampleOf_eq hs e1, hx]
    obtain ⟨c, hc, hd⟩ := hst l0 rfl st (List.mem_of_getElem? hj) v hv
    unfold Physical.sampleOf
    cases hvt : s.model.mtype.vtype with
    | spin =>
      simp only [ne_eq, not_true_eq_false, if_false]
      rw [zip_get hs.ready.nodup hv, hc]; rfl
    | binary =>
      simp only [ne_eq, reduceCtorEq, not_false_eq_true, if_true, List.map_map]
      rw [zip_get hs.ready.nodup hv, hc]
      simp only [Function.comp_def, spinInit_get, hc, Option.map_some, Option.getD_some, Option.some.injEq]
      rw [hvt] at hd
      rcases hd with rfl | rfl <;> simp

/-- A non-empty list of initial states of another length than the number of reads is rejected, and left as it is. -/
theorem C52_wrong_number {l0 : List Sample} (hl0 : l0 ≠ []) (hn : (l0.length : ℤ) ≠ numReads) :
    (solve rng seeded fresh exp p numReads o seed).run (some l0) = .error .valueError (some l0) := by
  rw [solve_run]
  have : checkArgs p numReads o (some l0) = .error .valueError := by
    unfold checkArgs
    simp only [Except.throw_error, Except.bind_error, Except.pure_ok, ne_eq, hl0, hn, not_false_eq_true, and_self, if_true]
    split <;> rfl
  rw [this]

/-- An empty list is not rejected: it means no initial states. -/
theorem C52_empty_refuted : (Ex.solved Ex.physQubo 2 Ex.options (some 3) (some [])).map List.length = some 2 := by
  decide +kernel

theorem annealing_rng {st st' : Option Sample} (hst : st.isSome = st'.isSome) {g g₁ g₂ : γ} {a b : Annealed}
    (h1 : annealing rng exp s o st g = .ok (a, g₁)) (h2 : annealing rng exp s o st' g = .ok (b, g₂)) : g₁ = g₂ := by
  obtain ⟨x, t0, t, rands, hrun⟩ := annealing_iff.mp h1
  obtain ⟨y, u0, u, rands', hrun'⟩ := annealing_iff.mp h2
  rw [hrun.rng, hrun'.rng]
  obtain ⟨gi, ts, e1, e2, e3, e4⟩ := hrun.initial
  obtain ⟨gj, us, f1, f2, f3, f4⟩ := hrun'.initial
  have hrngs : ∀ {x : List ℤ} {g : γ} {t : Outer γ}, startState s o x g = .ok t → t.rng = g := by
    intro x g t ht
    unfold startState at ht
    rw [bind_eq_ok] at ht
    obtain ⟨e, _, ht⟩ := ht
    split at ht
    · rw [bind_eq_ok] at ht
      obtain ⟨top, _, ht⟩ := ht
      cases ht; rfl
    · cases ht; rfl
  have hg : gi = gj := by
    unfold initialSpins at e1 f1
    cases st with
    | none =>
      cases st' with
      | none => rw [f1] at e1; cases e1; rfl
      | some b => cases hst
    | some a =>
      cases st' with
      | none => cases hst
      | some b =>
        simp only [bind_eq_ok, Except.pure_ok] at e1 f1
        obtain ⟨_, _, e1⟩ := e1
        obtain ⟨_, _, f1⟩ := f1
        cases e1; cases f1; rfl
  subst hg
  apply sweeps_rng rfl rfl o.numSweeps.toNat _ hrun.sweeps hrun'.sweeps
  rw [e3, f3]
  simp only [hrngs e2, hrngs f2]

theorem reads_independent {i₁ i₂ : List Sample} (h1 : i₁ ≠ []) (h2 : i₂ ≠ []) (rs : List Nat) {g : γ} {l₁ l₂ : List Annealed}
    (hr1 : reads rng exp s o (some i₁) rs g = .ok l₁) (hr2 : reads rng exp s o (some i₂) rs g = .ok l₂) :
    ∀ (j r : Nat), rs[j]? = some r → i₁[r]? = i₂[r]? → l₁[j]? = l₂[j]? := by
  induction rs generalizing g l₁ l₂ with
  | nil => intro j r h; simp at h
  | cons r0 rs ih =>
    have key : ∀ {i : List Sample} {l : List Annealed}, i ≠ [] → reads rng exp s o (some i) (r0 :: rs) g = .ok l →
        ∃ v a g1 rest, i[r0]? = some v ∧ annealing rng exp s o (some v) g = .ok (a, g1) ∧
          reads rng exp s o (some i) rs g1 = .ok rest ∧ l = a :: rest := by
      intro i l hi h
      cases i with
      | nil => exact absurd rfl hi
      | cons b i =>
        unfold reads at h
        simp only [Except.pure_ok] at h
        rw [bind_eq_ok] at h
        obtain ⟨v, hv, h⟩ := h
        rw [Except.bind_ok] at h
        rw [bind_eq_ok] at h
        obtain ⟨⟨a, g1⟩, h3, h⟩ := h
        simp only [bind_eq_ok] at h
        obtain ⟨rest, h4, h⟩ := h
        cases h
        exact ⟨v, a, g1, rest, listGet_ok.mp hv, h3, h4, rfl⟩
    obtain ⟨v, a, g1, rest, a1, a2, a3, rfl⟩ := key h1 hr1
    obtain ⟨w, b, g2, rest', b1, b2, b3, rfl⟩ := key h2 hr2
    have hg := annealing_rng (st := some v) (st' := some w) rfl a2 b2
    subst hg
    intro j r hj he
    cases j with
    | zero =>
      simp only [List.getElem?_cons_zero, Option.some.injEq] at hj
      subst hj
      rw [a1, b1] at he
      cases he
      rw [a2] at b2
      cases b2
      rfl
    | succ j =>
      simp only [List.getElem?_cons_succ] at hj ⊢
      exact ih a3 b3 j r hj he

/-- Read `j` depends on initial state `j` only, not on the initial states of the other reads (same seed). -/
theorem C52_independent {i₁ i₂ : List Sample} {l₁ l₂ : List Annealed} {c₁ c₂ : Option (List Sample)} (h1 : i₁ ≠ []) (h2 : i₂ ≠ [])
    (hr1 : (solve rng seeded fresh exp p numReads o seed).run (some i₁) = .ok l₁ c₁)
    (hr2 : (solve rng seeded fresh exp p numReads o seed).run (some i₂) = .ok l₂ c₂) {j : Nat} (hj : i₁[j]? = i₂[j]?) :
    l₁[j]? = l₂[j]? := by
  obtain ⟨_, _, g, s, rs, e1, e2, e3, rfl⟩ := solve_ok hr1
  obtain ⟨_, _, g', s', rs', f1, f2, f3, rfl⟩ := solve_ok hr2
  rw [e1] at f1
  cases f1
  rw [e2] at f2
  cases f2
  have hc : ∀ i : List Sample, i ≠ [] → ∃ i' : List Sample, converted p (some i) = some i' ∧ i' ≠ [] ∧
      i'[j]? = (i[j]?).map fun st => if p.mtype.vtype ≠ .spin then spinInit st else st := by
    intro i hi
    unfold converted
    split
    · exact ⟨_, rfl, by simpa using hi, by rw [List.getElem?_map]⟩
    · refine ⟨_, rfl, hi, by simp⟩
  obtain ⟨k₁, a1, a2, a3⟩ := hc i₁ h1
  obtain ⟨k₂, b1, b2, b3⟩ := hc i₂ h2
  rw [a1] at e3
  rw [b1] at f3
  rw [List.getElem?_map, List.getElem?_map]
  by_cases hlt : j < numReads.toNat
  · rw [reads_independent a2 b2 _ e3 f3 j j (by rw [List.getElem?_range hlt]) (by rw [a3, b3, hj])]
  · rw [List.getElem?_eq_none (by rw [(reads_get e3).1, List.length_range]; omega),
      List.getElem?_eq_none (by rw [(reads_get f3).1, List.length_range]; omega)]

example : (Ex.solved Ex.physQubo 2 { Ex.options with numSweeps := 0 } (some 3) (some [[("x[2]", 0), ("x[0]", 1), ("x[1]", 0)],
    [("x[2]", 1), ("x[0]", 1), ("x[1]", 0)]])).map (fun l => l.map (·.sample)) =
    some [[("x[0]", 1), ("x[1]", 0), ("x[2]", 0)], [("x[0]", 1), ("x[1]", 0), ("x[2]", 1)]] := by
  decide +kernel

/-! ## C53: the arguments -/

theorem solve_state : ((solve rng seeded fresh exp p numReads o seed).run init).state = init ∨
    ((solve rng seeded fresh exp p numReads o seed).run init).state = converted p init := by
  rw [solve_run]
  split
  · exact .inl rfl
  · split
    · exact .inl rfl
    · split <;> exact .inr rfl

/-- For Ising models the caller's initial states are never changed, whether `solve` succeeds or raises. -/
theorem C53_ising_unchanged (hv : p.mtype.vtype = .spin) :
    ((solve rng seeded fresh exp p numReads o seed).run init).state = init := by
  have : converted p init = init := by simp [converted, hv]
  rcases solve_state (rng := rng) (seeded := seeded) (fresh := fresh) (exp := exp) (p := p) (numReads := numReads) (o := o)
    (seed := seed) (init := init) with h | h
  · exact h
  · rw [h, this]

theorem map_self_iff {α : Type} {f : α → α} {l : List α} : l.map f = l ↔ ∀ a ∈ l, f a = a := by
  constructor
  · intro h
    exact List.map_inj_left.mp (h.trans (List.map_id l).symm)
  · intro h
    exact (List.map_congr_left h).trans (List.map_id l)

/-- What a successful `solve` leaves in the caller's initial states of a QUBO model: every 0 is now -1 and nothing else has
changed. -/
theorem C53_qubo_exact (hv : p.mtype.vtype ≠ .spin) {l : List Annealed}
    (h : (solve rng seeded fresh exp p numReads o seed).run init = .ok l init') :
    init' = init.map (List.map (List.map fun kv => (kv.1, if kv.2 = 0 then -1 else kv.2))) := by
  rw [(solve_ok h).2.1]
  unfold converted
  rw [if_pos hv]
  rfl

/-- So they are left as they were exactly if no value is 0. -/
theorem C53_unchanged_iff (hv : p.mtype.vtype ≠ .spin) {l : List Annealed}
    (h : (solve rng seeded fresh exp p numReads o seed).run init = .ok l init') :
    init' = init ↔ ∀ states, init = some states → ∀ st ∈ states, ∀ kv ∈ st, kv.2 ≠ 0 := by
  rw [C53_qubo_exact hv h]
  cases init with
  | none => simp
  | some states =>
    simp only [Option.map_some, Option.some.injEq, forall_eq']
    constructor
    · intro e st hst kv hkv h0
      have h1 : ∀ x ∈ states, List.map (fun kv => (kv.1, if kv.2 = 0 then -1 else kv.2)) x = x := map_self_iff.mp e
      have h2 := map_self_iff.mp (h1 st hst) kv hkv
      rw [if_pos h0] at h2
      have := congrArg Prod.snd h2
      simp [h0] at this
    · intro hne
      rw [map_self_iff]
      intro st hst
      rw [map_self_iff]
      intro kv hkv
      rw [if_neg (hne st hst kv hkv)]

/-- For QUBO models they are changed: zeros become -1. -/
theorem C53_qubo_refuted :
    let r := (solve Ex.rng id 7 Ex.exp Ex.physQubo 1 Ex.options (some 3)).run (some [[("x[0]", 0), ("x[1]", 1), ("x[2]", 0)]])
    r.isOk = true ∧ r.state = some [[("x[0]", -1), ("x[1]", 1), ("x[2]", -1)]] := by
  decide +kernel

theorem spinInit_idem (st : Sample) : spinInit (spinInit st) = spinInit st := by
  unfold spinInit
  rw [List.map_map]
  apply List.map_congr_left
  intro kv _
  simp only [Function.comp_def, Prod.mk.injEq, true_and]
  split <;> simp_all

theorem converted_idem : converted p (converted p init) = converted p init := by
  unfold converted
  split
  · cases init with
    | none => rfl
    | some l =>
      simp only [Option.map_some, List.map_map]
      congr 1
      apply List.map_congr_left
      intro st _
      exact spinInit_idem st
  · rfl

theorem checkArgs_converted : checkArgs p numReads o (converted p init) = checkArgs p numReads o init := by
  unfold converted
  split
  · cases init with
    | none => rfl
    | some l =>
      unfold checkArgs
      simp only [Option.map_some, List.length_map, ne_eq, List.map_eq_nil_iff]
  · rfl

/-- Calling `solve` again with the objects it was called with means the same problem: the same results. -/
theorem C53_again (h : (solve rng seeded fresh exp p numReads o seed).run init = .ok l init') :
    (solve rng seeded fresh exp p numReads o seed).run init' = .ok l init' := by
  have := (solve_ok h).2.1
  subst this
  rw [solve_run] at h ⊢
  rw [checkArgs_converted, converted_idem]
  cases h1 : checkArgs p numReads o init with
  | error e => rw [h1] at h; cases h
  | ok u =>
    rw [h1] at h
    cases h2 : chooseRng seeded fresh seed with
    | error e => rw [h2] at h; cases h
    | ok g => rw [h2] at h; exact h

/-! ## C54: seeds -/

/-- With a seed other than 0 the outcome does not depend on fresh entropy: two calls agree. -/
theorem C54_seed_partial {k : Int} (hk : k ≠ 0) (fresh' : γ) :
    (solve rng seeded fresh exp p numReads o (some k)).run init = (solve rng seeded fresh' exp p numReads o (some k)).run init := by
  rw [solve_run, solve_run]
  have : chooseRng seeded fresh (some k) = chooseRng seeded fresh' (some k) := by simp [chooseRng, hk]
  rw [this]

/-- Seed 0 is taken as no seed: two calls may disagree. -/
theorem C54_zero_refuted : ∃ f f' : Nat,
    (match (solve Ex.rng id f Ex.exp Ex.physQubo 1 Ex.options (some 0)).run none with
      | .ok l _ => l.map Annealed.energy | .error _ _ => []) ≠
    (match (solve Ex.rng id f' Ex.exp Ex.physQubo 1 Ex.options (some 0)).run none with
      | .ok l _ => l.map Annealed.energy | .error _ _ => []) := by
  refine ⟨0, 1, ?_⟩
  decide +kernel

/-! ## C55: options that pass the checks -/

/-- `math.exp` raises for no uphill step at a positive temperature (its argument is then negative). -/
def ExpTotal (exp : ℚ → Except Err ℚ) : Prop := ∀ q < 0, ∃ r, exp q = .ok r

theorem reads_total {i : Option (List Sample)} (ha : ∀ st g, ((i = none ∨ i = some []) ∧ st = none ∨ ∃ l v, i = some l ∧ v ∈ l ∧ st = some v) →
      ∃ a g', annealing rng exp s o st g = .ok (a, g')) (rs : List Nat)
    (hlen : ∀ r ∈ rs, ∀ l, i = some l → l ≠ [] → r < l.length) (g : γ) : ∃ l, reads rng exp s o i rs g = .ok l := by
  induction rs generalizing g with
  | nil => exact ⟨[], rfl⟩
  | cons r rs ih =>
    have ih' := ih (fun r' hr' => hlen r' (List.mem_cons_of_mem _ hr'))
    unfold reads
    cases i with
    | none =>
      obtain ⟨a, g', h1⟩ := ha none g (.inl ⟨.inl rfl, rfl⟩)
      obtain ⟨l, h2⟩ := ih' g'
      simp only [Except.pure_ok, Except.bind_ok, h1, h2]
      exact ⟨_, rfl⟩
    | some l0 =>
      cases l0 with
      | nil =>
        obtain ⟨a, g', h1⟩ := ha none g (.inl ⟨.inr rfl, rfl⟩)
        obtain ⟨l, h2⟩ := ih' g'
        simp only [Except.pure_ok, Except.bind_ok, h1, h2]
        exact ⟨_, rfl⟩
      | cons b l0 =>
        have hlt := hlen r List.mem_cons_self _ rfl (by simp)
        have hv : (b :: l0)[r]? = some (b :: l0)[r] := List.getElem?_eq_getElem hlt
        obtain ⟨a, g', h1⟩ := ha (some (b :: l0)[r]) g (.inr ⟨_, _, rfl, List.getElem_mem hlt, rfl⟩)
        obtain ⟨l, h2⟩ := ih' g'
        simp only [listGet_ok.mpr hv, Except.pure_ok, Except.bind_ok, h1, h2]
        exact ⟨_, rfl⟩

/-- Arguments that pass the checks never make `solve` raise if the number of sweeps and the seed are not negative, the
parameters are such that no temperature is negative, `reverse_options` is `None` or a non-empty dictionary, and the initial
states are in the domain. -/
theorem C55_no_crash_partial (hp : p.Ready ls) (hr : rng.Ok) (hst : StatesOk p ls init) (he : ExpTotal exp)
    (hn : 0 ≤ o.numSweeps) (hseed : ∀ k, seed = some k → 0 ≤ k) (hc : 0 ≤ o.coolingRate)
    (hopt : (o.reverse = .none ∧ 0 ≤ o.initialTemperature) ∨ (o.reverse.isTruthy = true ∧ o.coolingRate ≤ 1 ∧
      ∀ R, o.reverse.get "reverse_temperature" = .ok R → 0 ≤ R))
    (hargs : checkArgs p numReads o init = .ok ()) :
    ∃ l, (solve rng seeded fresh exp p numReads o seed).run init = .ok l (converted p init) := by
  obtain ⟨_, hlen, hpk, hrv⟩ := checkArgs_iff.mp hargs
  obtain ⟨s, hs, hok, hsm⟩ := prepare_ok hp
  have hg : ∃ g, chooseRng seeded fresh seed = .ok g := by
    unfold chooseRng
    cases seed with
    | none => exact ⟨_, rfl⟩
    | some k =>
      have := hseed k rfl
      simp only
      split
      · exact ⟨_, rfl⟩
      · rw [if_neg (by omega)]; exact ⟨_, rfl⟩
  obtain ⟨g, hg⟩ := hg
  have key : ∀ st g, InitOk ls st → ∃ a g', annealing rng exp s o st g = .ok (a, g') := by
    intro st g hi
    cases hann : annealing rng exp s o st g with
    | ok a => exact ⟨a.1, a.2, rfl⟩
    | error e =>
      exfalso
      have hgets : o.reverse.isTruthy = true → ∃ P R, o.reverse.get "reverse_period" = .ok P ∧
          o.reverse.get "reverse_temperature" = .ok R := by
        intro h
        obtain ⟨d, P, R, e1, e2, e3⟩ := hrv h
        exact ⟨P, R, by rw [e1]; simp [PyReverse.get, e2], by rw [e1]; simp [PyReverse.get, e3]⟩
      rcases annealing_fails hok hr hi hann with ⟨h1, hf⟩ | ⟨hf, _⟩ | ⟨k, t0, tk, rands, _, h1, h2, h3, hf⟩
      · obtain ⟨P, R, _, e2⟩ := hgets h1
        rw [e2] at hf; cases hf
      · omega
      · have hT : 0 ≤ tk.temperature ∧ (tk.reversing = true → o.reverse.isTruthy = true) := by
          rcases hopt with ⟨hnone, h0⟩ | ⟨htr, hc1, hR⟩
          · rw [hnone] at h2
            have := sweeps_forward k (by simpa using h2) h1
            refine ⟨?_, fun h => by rw [this.1] at h; cases h⟩
            rw [this.2]
            rcases h3 with ⟨_, e, _⟩ | ⟨e, _⟩
            · rw [e]; exact mul_nonneg h0 (pow_nonneg hc k)
            · rw [hnone] at e; cases e
          · refine ⟨?_, fun _ => htr⟩
            rcases h3 with ⟨e, _⟩ | ⟨_, e1, e2⟩
            · rw [htr] at e; cases e
            · refine (sweeps_nonneg (R := t0.target) hc ?_ k ?_ ?_ h1).1
              · intro top htop
                rw [e2] at htop
                cases htop
                exact ⟨rfl, hc1⟩
              · rw [e1]; unfold tinyTemperature; norm_num
              · intro _; exact ⟨hR _ e2, le_refl _⟩
        rcases hf with ⟨hrev, hf⟩ | hf | ⟨hT0, d, hd, hf⟩
        · obtain ⟨P, R, e1, e2⟩ := hgets (hT.2 hrev)
          rcases hf with hf | hf
          · rw [e1] at hf; cases hf
          · rw [e2] at hf; cases hf
        · exact hpk hf
        · have hpos : 0 < tk.temperature := lt_of_le_of_ne hT.1 (Ne.symm hT0)
          obtain ⟨r, hr'⟩ := he (-d / tk.temperature) (div_neg_iff.mpr (.inr ⟨by linarith, hpos⟩))
          rw [hr'] at hf; cases hf
  have hreads : ∃ rs, reads rng exp s o (converted p init) (List.range numReads.toNat) g = .ok rs := by
    apply reads_total
    · intro st g hcase
      apply key
      rcases hcase with ⟨_, rfl⟩ | ⟨l, v, e1, e2, rfl⟩
      · trivial
      · exact statesOk_spins hst l e1 v e2
    · intro r hr' l hl hne
      have hr'' := List.mem_range.mp hr'
      unfold converted at hl
      cases init with
      | none => split at hl <;> cases hl
      | some l0 =>
        have hlen' := hlen l0 rfl
        split at hl
        · cases hl
          rw [List.length_map]
          have := hlen'.resolve_left (by intro h; apply hne; rw [h]; rfl)
          omega
        · cases hl
          have := hlen'.resolve_left hne
          omega
  obtain ⟨rs, hrs⟩ := hreads
  rw [solve_run, hargs]
  simp only [hg, hs, Except.bind_ok, hrs]
  exact ⟨_, rfl⟩

theorem chooseRng_iff : (∃ g, chooseRng seeded fresh seed = .ok g) ↔ ∀ k, seed = some k → 0 ≤ k := by
  unfold chooseRng
  cases seed with
  | none => exact ⟨fun _ _ h => (by cases h), fun _ => ⟨_, rfl⟩⟩
  | some k =>
    simp only [Option.some.injEq, forall_eq']
    by_cases h0 : k = 0
    · rw [if_pos h0]; exact ⟨fun _ => by omega, fun _ => ⟨_, rfl⟩⟩
    · rw [if_neg h0]
      by_cases h1 : k < 0
      · rw [if_pos h1]; exact ⟨fun ⟨_, h⟩ => (by cases h), fun h => by omega⟩
      · rw [if_neg h1]; exact ⟨fun _ => by omega, fun _ => ⟨_, rfl⟩⟩

theorem reads_first {i : Option (List Sample)} {r : Nat} {rs : List Nat} {g : γ} {l : List Annealed}
    (h : reads rng exp s o i (r :: rs) g = .ok l) : ∃ st a g', annealing rng exp s o st g = .ok (a, g') := by
  unfold reads at h
  simp only at h
  split at h
  · obtain ⟨v, _, h⟩ := bind_eq_ok.mp h
    rw [Except.pure_ok, Except.bind_ok] at h
    obtain ⟨⟨a, g'⟩, h1, _⟩ := bind_eq_ok.mp h
    exact ⟨_, a, g', h1⟩
  · rw [Except.pure_ok, Except.bind_ok] at h
    obtain ⟨⟨a, g'⟩, h1, _⟩ := bind_eq_ok.mp h
    exact ⟨_, a, g', h1⟩

/-- What a run that does not raise tells of the options. -/
theorem annealing_options {st : Option Sample} {g g' : γ} {a : Annealed} (h : annealing rng exp s o st g = .ok (a, g')) :
    0 ≤ o.numSweeps ∧ (0 < o.numSweeps → o.reverse = .none ∨ o.reverse.isTruthy = true) := by
  obtain ⟨x, t0, t, rands, hrun⟩ := annealing_iff.mp h
  refine ⟨hrun.nonneg, fun hn => ?_⟩
  by_cases hnone : o.reverse = .none
  · exact .inl hnone
  · refine .inr ?_
    by_contra htr
    have hsw := hrun.sweeps
    rw [show o.numSweeps.toNat = (o.numSweeps.toNat - 1) + 1 by omega, List.range_succ_eq_map, List.foldlM_cons] at hsw
    obtain ⟨t1, h1, _⟩ := bind_eq_ok.mp hsw
    obtain ⟨rev, ps, g1, r, c, hph, _⟩ := sweepStep_ok.mp h1
    obtain ⟨gi, ts, _, hts, ht0, _⟩ := hrun.initial
    have hflag : t0.reversing = true := by
      rw [ht0]
      unfold startState at hts
      obtain ⟨e, _, hts⟩ := bind_eq_ok.mp hts
      simp only at hts
      rw [if_neg htr, Except.pure_ok, Except.bind_ok] at hts
      cases hts
      exact decide_eq_true hnone
    unfold phase at hph
    rw [hflag] at hph
    simp only [if_true] at hph
    cases hrv : o.reverse with
    | none => exact absurd hrv hnone
    | dict d =>
      rw [hrv] at hph
      cases d with
      | nil => simp [PyReverse.get, dget, Except.map] at hph
      | cons _ _ => rw [hrv] at htr; exact htr rfl
    | truthy => rw [hrv] at htr; exact htr rfl
    | falsy => rw [hrv] at hph; cases hph

/-- **C55** exactly, for an `exp` that never raises: `solve` succeeds if and only if the checks pass, the seed is not negative,
and, unless there are no reads, the number of sweeps is not negative and with any sweeps `reverse_options` is not empty. -/
theorem C55_exact (hp : p.Ready ls) (hr : rng.Ok) (hst : StatesOk p ls init) (he : ∀ q, ∃ r, exp q = .ok r) :
    (∃ l init', (solve rng seeded fresh exp p numReads o seed).run init = .ok l init') ↔
      checkArgs p numReads o init = .ok () ∧ (∀ k, seed = some k → 0 ≤ k) ∧
      (0 < numReads → 0 ≤ o.numSweeps ∧ (0 < o.numSweeps → o.reverse = .none ∨ o.reverse.isTruthy = true)) := by
  constructor
  · rintro ⟨l, init', h⟩
    obtain ⟨h1, _, g, s, rs, h2, h3, h4, _⟩ := solve_ok h
    refine ⟨h1, chooseRng_iff.mp ⟨g, h2⟩, fun hn => ?_⟩
    rw [show numReads.toNat = (numReads.toNat - 1) + 1 by omega, List.range_succ_eq_map] at h4
    obtain ⟨st, a, g', h5⟩ := reads_first h4
    exact annealing_options h5
  · rintro ⟨hargs, hseed, hread⟩
    obtain ⟨_, hlen, hpk, hrv⟩ := checkArgs_iff.mp hargs
    obtain ⟨s, hs, hok, hsm⟩ := prepare_ok hp
    obtain ⟨g, hg⟩ := chooseRng_iff (seeded := seeded) (fresh := fresh).mpr hseed
    have hreads : ∃ rs, reads rng exp s o (converted p init) (List.range numReads.toNat) g = .ok rs := by
      by_cases hn : 0 < numReads
      · obtain ⟨hsw, hrev⟩ := hread hn
        have key : ∀ st g, InitOk ls st → ∃ a g', annealing rng exp s o st g = .ok (a, g') := by
          intro st g hi
          cases hann : annealing rng exp s o st g with
          | ok a => exact ⟨a.1, a.2, rfl⟩
          | error e =>
            exfalso
            have hgets : o.reverse.isTruthy = true → ∃ P R, o.reverse.get "reverse_period" = .ok P ∧
                o.reverse.get "reverse_temperature" = .ok R := by
              intro h
              obtain ⟨d, P, R, e1, e2, e3⟩ := hrv h
              exact ⟨P, R, by rw [e1]; simp [PyReverse.get, e2], by rw [e1]; simp [PyReverse.get, e3]⟩
            rcases annealing_fails hok hr hi hann with ⟨h1, hf⟩ | ⟨hf, _⟩ | ⟨k, t0, tk, rands, hk, h1, h2, h3, hf⟩
            · obtain ⟨P, R, _, e2⟩ := hgets h1
              rw [e2] at hf; cases hf
            · omega
            · rcases hf with ⟨hflag, hf⟩ | hf | ⟨hT0, d, hd, hf⟩
              · rcases hrev (by omega) with hnone | htr
                · rw [hnone] at h2
                  have := sweeps_forward k (by simpa using h2) h1
                  rw [this.1] at hflag; cases hflag
                · obtain ⟨P, R, e1, e2⟩ := hgets htr
                  rcases hf with hf | hf
                  · rw [e1] at hf; cases hf
                  · rw [e2] at hf; cases hf
              · exact hpk hf
              · obtain ⟨r, hr'⟩ := he (-d / tk.temperature)
                rw [hr'] at hf; cases hf
        apply reads_total
        · intro st g hcase
          apply key
          rcases hcase with ⟨_, rfl⟩ | ⟨l, v, e1, e2, rfl⟩
          · trivial
          · exact statesOk_spins hst l e1 v e2
        · intro r hr' l hl hne
          have hr'' := List.mem_range.mp hr'
          unfold converted at hl
          cases init with
          | none => split at hl <;> cases hl
          | some l0 =>
            have hlen' := hlen l0 rfl
            split at hl
            · cases hl
              rw [List.length_map]
              have := hlen'.resolve_left (by intro h; apply hne; rw [h]; rfl)
              omega
            · cases hl
              have := hlen'.resolve_left hne
              omega
      · rw [show numReads.toNat = 0 by omega]
        exact ⟨[], rfl⟩
    obtain ⟨rs, hrs⟩ := hreads
    rw [solve_run, hargs]
    simp only [hg, hs, Except.bind_ok, hrs]
    exact ⟨_, _, rfl⟩

/-- The hypotheses on the options hold for the defaults and for reverse annealing; `Ex.exp` is total. -/
example : ExpTotal Ex.exp ∧ checkArgs Ex.physQubo 1 Ex.options none = .ok () ∧
    checkArgs Ex.physQubo 1 { Ex.options with reverse := .dict [("reverse_period", 2), ("reverse_temperature", 8)] } none = .ok () :=
  ⟨fun _ _ => ⟨_, rfl⟩, by decide +kernel, by decide +kernel⟩

/-- `reverse_options={}` passes the checks and raises KeyError in the first sweep. -/
theorem C55_empty_reverse_refuted : checkArgs Ex.physQubo 1 { Ex.options with reverse := .dict [] } none = .ok () ∧
    (match (solve Ex.rng id 7 Ex.exp Ex.physQubo 1 { Ex.options with reverse := .dict [] } none).run none with
      | .ok _ _ => none | .error e _ => some e) = some .keyError := by
  decide +kernel

/-- A negative number of sweeps passes the checks and raises ValueError. -/
theorem C55_negative_sweeps_refuted : checkArgs Ex.physQubo 1 { Ex.options with numSweeps := -1 } none = .ok () ∧
    (match (solve Ex.rng id 7 Ex.exp Ex.physQubo 1 { Ex.options with numSweeps := -1 } none).run none with
      | .ok _ _ => none | .error e _ => some e) = some .valueError := by
  decide +kernel

/-- An initial state that lacks a variable passes the checks and raises KeyError. -/
theorem C55_missing_variable_refuted : checkArgs Ex.physQubo 1 Ex.options (some [[("x[0]", 1)]]) = .ok () ∧
    (match (solve Ex.rng id 7 Ex.exp Ex.physQubo 1 Ex.options none).run (some [[("x[0]", 1)]]) with
      | .ok _ _ => none | .error e _ => some e) = some .keyError := by
  decide +kernel

/-- So does the physical model of a logical model with an interaction on a deleted variable (C25). -/
theorem C55_deleted_variable_refuted :
    let m := Ex.after (LModel.new .qubo "1") (do
      let _ ← createVars "x" [2]
      deleteVariable Ex.b0
      addInteraction 1 (.var Ex.b0) (.str "") (.num 1) (.num 1) .none .none)
    ∃ p m', (toPhysical ⟨0, fun _ => ""⟩ (fun _ _ => 0) (fun _ => "1") []).run m = .ok p m' ∧
      checkArgs p 1 Ex.options none = .ok () ∧
      (match (solve Ex.rng id 7 Ex.exp p 1 Ex.options none).run none with
        | .ok _ _ => none | .error e _ => some e) = some .keyError := by
  refine ⟨_, _, rfl, ?_⟩
  decide +kernel

end Sawatabi.Props
