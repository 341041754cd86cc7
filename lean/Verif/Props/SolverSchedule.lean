import Verif.Props.SolverEnergy
import Mathlib.Data.Rat.Floor

/-!
# The annealing: temperatures and moves (C48, C49, C51)
-/

namespace Sawatabi.Props

variable {p : Physical} {ls : List String} {s : Problem} {γ : Type} {rng : Rng γ} {exp : ℚ → Except Err ℚ} {o : Options}
  {seeded : Nat → γ} {fresh : γ} {numReads : Int} {seed : Option Int} {init init' : Option (List Sample)}
  {l : List Annealed}

/-- The temperature history of a read holds the temperatures before the sweeps. -/
theorem temperature_prefix (hp : p.Ready ls) (hr : rng.Ok) (hst : StatesOk p ls init)
    (h : (solve rng seeded fresh exp p numReads o seed).run init = .ok l init') {a : Annealed} (ha : a ∈ l) :
    (a.temperatureHist.length : ℤ) = o.numSweeps ∧ ∃ s rands t0,
      t0.reversing = decide (o.reverse ≠ .none) ∧
      (o.reverse.isTruthy = false ∧ t0.temperature = o.initialTemperature ∧ t0.target = 0 ∨
        o.reverse.isTruthy = true ∧ t0.temperature = tinyTemperature ∧
          o.reverse.get "reverse_temperature" = .ok t0.target) ∧
      ∀ (k : Nat) (T : ℚ), a.temperatureHist[k]? = some T →
        ∃ tk, (List.range k).foldlM (sweepStep rng exp s o rands) t0 = .ok tk ∧ tk.temperature = T := by
  refine ⟨((C50_statistics_partial hp hr hst h).2 a ha).2.1, ?_⟩
  obtain ⟨s, hs, rfl, hall⟩ := solve_reads hp hst h
  obtain ⟨j, hj⟩ := List.getElem?_of_mem ha
  obtain ⟨st, g, g', b, x, t0, t, rands, hi, hrun, rfl, _⟩ := hall j a hj
  obtain ⟨_, _, _, _, hinv, f6, f7, _, _, _, f11, _, f13⟩ := run_facts hs hr hi hrun
  refine ⟨s, rands, t0, f11, f13, fun k T hk => ?_⟩
  simp only [hrun.result] at hk
  obtain ⟨e1, e2, e3⟩ := sweeps_prefix _ hrun.sweeps ⟨f6, f7⟩
  have hlt : k < o.numSweeps.toNat := by
    rw [← e2]; exact (List.getElem?_eq_some_iff.mp hk).1
  obtain ⟨tk, g1, _, g3⟩ := e3 k hlt
  rw [g3] at hk
  exact ⟨tk, g1, by simpa using hk⟩

/-! ## C48: forward schedule -/

/-- Without reverse options the temperature of sweep `k` is `initial_temperature * cooling_rate ^ k`. -/
theorem C48_forward_partial (hp : p.Ready ls) (hr : rng.Ok) (hst : StatesOk p ls init) (hf : o.reverse = .none)
    (h : (solve rng seeded fresh exp p numReads o seed).run init = .ok l init') :
    ∀ a ∈ l, a.temperatureHist = (List.range o.numSweeps.toNat).map fun k => o.initialTemperature * o.coolingRate ^ k := by
  intro a ha
  obtain ⟨hl, s, rands, t0, h1, h2, h3⟩ := temperature_prefix hp hr hst h ha
  have ht0 : t0.temperature = o.initialTemperature := by
    rcases h2 with ⟨_, h, _⟩ | ⟨h, _⟩
    · exact h
    · rw [hf] at h; cases h
  rw [hf] at h1
  apply List.ext_getElem?
  intro k
  rw [List.getElem?_map]
  by_cases hk : k < a.temperatureHist.length
  · obtain ⟨tk, e1, e2⟩ := h3 k _ (List.getElem?_eq_getElem hk)
    rw [List.getElem?_eq_getElem hk, ← e2, (sweeps_forward k (by simpa using h1) e1).2, ht0]
    rw [List.getElem?_range (by omega)]
    rfl
  · rw [List.getElem?_eq_none (by omega), List.getElem?_eq_none (by simp; omega)]
    rfl

/-- It is positive if both parameters are. -/
theorem C48_positive_partial (hp : p.Ready ls) (hr : rng.Ok) (hst : StatesOk p ls init) (hf : o.reverse = .none)
    (h : (solve rng seeded fresh exp p numReads o seed).run init = .ok l init') (hT : 0 < o.initialTemperature)
    (hc : 0 < o.coolingRate) : ∀ a ∈ l, ∀ T ∈ a.temperatureHist, 0 < T := by
  intro a ha T hT'
  rw [C48_forward_partial hp hr hst hf h a ha] at hT'
  obtain ⟨k, _, rfl⟩ := List.mem_map.mp hT'
  positivity

example : (Ex.solved Ex.physQubo 1 Ex.options (some 3) none).map (fun l => l.map (·.temperatureHist)) = some [[100, 50, 25]] := by
  decide +kernel

/-! ## C49: reverse schedule -/

/-- The temperature of sweep `k` if the first `P` sweeps are those of reverse annealing, to temperature `R`. -/
def reverseTemperature (P : Nat) (R c : ℚ) (k : Nat) : ℚ :=
  if k = 0 then 1 / 1000000000
  else if k ≤ P then R * (1 - c ^ k)
  else (if P = 0 then 1 / 1000000000 else R * (1 - c ^ P)) * c ^ (k - P)

/-- With a reverse period that is any number (not only a whole one), the reversing phase takes that number of sweeps, rounded
up. -/
theorem C49_reverse_partial (hp : p.Ready ls) (hr : rng.Ok) (hst : StatesOk p ls init) {d : List (String × ℚ)} {P R : ℚ}
    (hf : o.reverse = .dict d) (hP : dget d "reverse_period" = some P) (hR : dget d "reverse_temperature" = some R)
    (h : (solve rng seeded fresh exp p numReads o seed).run init = .ok l init') :
    ∀ a ∈ l, a.temperatureHist = (List.range o.numSweeps.toNat).map (reverseTemperature ⌈P⌉₊ R o.coolingRate) := by
  intro a ha
  obtain ⟨hl, s, rands, t0, h1, h2, h3⟩ := temperature_prefix hp hr hst h ha
  have gP : o.reverse.get "reverse_period" = .ok P := by rw [hf]; simp [PyReverse.get, hP]
  have gR : o.reverse.get "reverse_temperature" = .ok R := by rw [hf]; simp [PyReverse.get, hR]
  have htr : o.reverse.isTruthy = true := by
    rw [hf]
    cases d with
    | nil => simp [dget] at hP
    | cons _ _ => rfl
  have ⟨ht0, htg⟩ : t0.temperature = 1 / 1000000000 ∧ t0.target = R := by
    rcases h2 with ⟨h, _⟩ | ⟨_, e1, e2⟩
    · rw [htr] at h; cases h
    · rw [gR] at e2; cases e2; exact ⟨e1, rfl⟩
  rw [hf] at h1
  apply List.ext_getElem?
  intro k
  rw [List.getElem?_map]
  by_cases hk : k < a.temperatureHist.length
  · obtain ⟨tk, e1, e2⟩ := h3 k _ (List.getElem?_eq_getElem hk)
    obtain ⟨f1, f2⟩ := sweeps_reverse gP (fun k => Nat.ceil_le.symm) gR k (by simpa using h1) htg e1
    rw [List.getElem?_eq_getElem hk, ← e2, List.getElem?_range (by omega)]
    simp only [Option.map_some, Option.some.injEq]
    unfold reverseTemperature
    by_cases hkP : k ≤ ⌈P⌉₊
    · rw [(f1 hkP).2.2, ht0, if_pos hkP]
    · rw [(f2 (by omega)).2, ht0, if_neg (by omega : ¬ k = 0), if_neg hkP]
  · rw [List.getElem?_eq_none (by omega), List.getElem?_eq_none (by simp; omega)]
    rfl

/-- All temperatures are positive for `0 < cooling_rate < 1` and `R > 0`. -/
theorem C49_positive {P : Nat} {R c : ℚ} (h0 : 0 < c) (h1 : c < 1) (hR : 0 < R) (k : Nat) : 0 < reverseTemperature P R c k := by
  have hc : ∀ n : Nat, n ≠ 0 → 0 < R * (1 - c ^ n) := by
    intro n hn
    have : c ^ n < 1 := pow_lt_one₀ h0.le h1 hn
    exact mul_pos hR (by linarith)
  unfold reverseTemperature
  split
  · norm_num
  · rename_i hk
    split
    · exact hc k hk
    · apply mul_pos
      · split
        · norm_num
        · rename_i hP; exact hc P hP
      · positivity

/-- From the second sweep on, no temperature exceeds `R` (for a period of at least 1). -/
theorem C49_bounded {P : Nat} {R c : ℚ} (h0 : 0 < c) (h1 : c < 1) (hR : 0 < R) (hP : 1 ≤ P) {k : Nat} (hk : 1 ≤ k) :
    reverseTemperature P R c k ≤ R := by
  have hc : ∀ n : Nat, R * (1 - c ^ n) ≤ R := by
    intro n
    have : 0 < c ^ n := by positivity
    nlinarith
  unfold reverseTemperature
  rw [if_neg (by omega)]
  split
  · exact hc k
  · rw [if_neg (by omega)]
    have e1 : c ^ (k - P) ≤ 1 := pow_le_one₀ h0.le h1.le
    have e2 : 0 ≤ c ^ (k - P) := by positivity
    have e3 : 0 ≤ R * (1 - c ^ P) := by
      have : c ^ P ≤ 1 := pow_le_one₀ h0.le h1.le
      exact mul_nonneg hR.le (by linarith)
    calc R * (1 - c ^ P) * c ^ (k - P) ≤ R * (1 - c ^ P) * 1 := mul_le_mul_of_nonneg_left e1 e3
      _ ≤ R := by rw [mul_one]; exact hc P

/-- The first sweep is at `1e-9` whatever `R` is, so it exceeds a smaller `R`. -/
theorem C49_bounded_refuted : ∃ P : Nat, ∃ R c : ℚ, 1 ≤ P ∧ 0 < c ∧ c < 1 ∧ 0 < R ∧ R < reverseTemperature P R c 0 :=
  ⟨1, 1 / 10000000000, 1 / 2, by norm_num [reverseTemperature]⟩

/-- No temperature exceeds `R`, for any period, exactly if `R` is at least `1e-9`. -/
theorem C49_bounded_exact {P : Nat} {R c : ℚ} (h0 : 0 < c) (h1 : c < 1) (hR : 0 < R) :
    (∀ k, reverseTemperature P R c k ≤ R) ↔ 1 / 1000000000 ≤ R := by
  constructor
  · intro h
    simpa [reverseTemperature] using h 0
  · intro h k
    by_cases hk : k = 0
    · simpa [reverseTemperature, hk] using h
    by_cases hP : P = 0
    · subst hP
      unfold reverseTemperature
      rw [if_neg hk, if_neg (by omega), if_pos rfl]
      have e1 : c ^ (k - 0) ≤ 1 := pow_le_one₀ h0.le h1.le
      nlinarith
    · exact C49_bounded h0 h1 hR (by omega) (by omega)

/-- The temperature rises during the reversing phase and falls afterwards. -/
theorem C49_monotone {P : Nat} {R c : ℚ} (h0 : 0 < c) (h1 : c < 1) (hR : 0 < R) (k : Nat) :
    (1 ≤ k → k < P → reverseTemperature P R c k < reverseTemperature P R c (k + 1)) ∧
    (1 ≤ P → P ≤ k → reverseTemperature P R c (k + 1) = reverseTemperature P R c k * c ∧
      reverseTemperature P R c (k + 1) < reverseTemperature P R c k) := by
  constructor
  · intro hk hP
    unfold reverseTemperature
    rw [if_neg (by omega), if_pos (by omega), if_neg (by omega), if_pos (by omega)]
    apply mul_lt_mul_of_pos_left _ hR
    have : c ^ (k + 1) < c ^ k := by
      rw [pow_succ]
      have : 0 < c ^ k := by positivity
      nlinarith
    linarith
  · intro hP hk
    have e : reverseTemperature P R c (k + 1) = reverseTemperature P R c k * c := by
      unfold reverseTemperature
      rw [if_neg (by omega), if_neg (by omega), if_neg (by omega), if_neg (by omega : ¬ k = 0)]
      by_cases hkP : k = P
      · subst hkP
        rw [if_pos (le_refl _), Nat.add_sub_cancel_left, pow_one]
      · rw [if_neg (by omega : ¬ k ≤ P), show k + 1 - P = k - P + 1 by omega, pow_succ]
        ring
    refine ⟨e, ?_⟩
    rw [e]
    have := C49_positive (P := P) h0 h1 hR k
    nlinarith

example : (Ex.solved Ex.physQubo 1 { Ex.options with numSweeps := 5, reverse := .dict [("reverse_period", 2), ("reverse_temperature", 8)] }
    (some 3) none).map (fun l => l.map (·.temperatureHist)) = some [[1 / 1000000000, 4, 6, 3, 3 / 2]] := by
  decide +kernel

/-- A period of one and a half sweeps means two, and a negative one none. -/
example : (Ex.solved Ex.physQubo 1 { Ex.options with numSweeps := 5, reverse := .dict [("reverse_period", 3 / 2), ("reverse_temperature", 8)] }
      (some 3) none).map (fun l => l.map (·.temperatureHist)) = some [[1 / 1000000000, 4, 6, 3, 3 / 2]] ∧
    (Ex.solved Ex.physQubo 1 { Ex.options with numSweeps := 2, reverse := .dict [("reverse_period", -1), ("reverse_temperature", 8)] }
      (some 3) none).map (fun l => l.map (·.temperatureHist)) = some [[1 / 1000000000, 1 / 2000000000]] := by
  decide +kernel

/-! ## C51: moves -/

/-- A flip that does not raise the energy is always made, and uses no random number. -/
theorem C51_downhill_partial (hp : p.Ready ls) (hs : prepare p = .ok s) {rands : List ℚ} {T : ℚ} {t : Inner}
    (hx : t.x.length = ls.length) (hsp : IsSpins t.x) {i : Nat} (hi : i < ls.length) {xi : ℤ} (hxi : t.x[i]? = some xi)
    (hd : p.energyAt ls (t.x.set i (xi * -1)) ≤ p.energyAt ls t.x) :
    innerStep exp s rands T t i = .ok ⟨t.x.set i (xi * -1),
      t.energy + (p.energyAt ls (t.x.set i (xi * -1)) - p.energyAt ls t.x), t.used, t.acceptances + 1⟩ := by
  have hlt : i < t.x.length := by omega
  unfold innerStep
  rw [C45_flip_difference_partial hp hs hx hsp hi hxi, Except.bind_ok]
  have : isAcceptable exp rands t.used (p.energyAt ls (t.x.set i (xi * -1)) - p.energyAt ls t.x) T = .ok (true, t.used) := by
    unfold isAcceptable
    rw [if_pos (by linarith)]
  rw [this, Except.bind_ok]
  simp only [if_true]
  rw [listGet_ok.mpr hxi, Except.bind_ok, listSet_ok.mpr ⟨hlt, rfl⟩]
  rfl

/-- A flip that raises the energy by `d` is made exactly if the next random number is below `exp (-d / T)` (below 0 at
temperature 0); otherwise the state stays. -/
theorem C51_uphill_partial (hp : p.Ready ls) (hs : prepare p = .ok s) {rands : List ℚ} {T : ℚ} {t t' : Inner}
    (hx : t.x.length = ls.length) (hsp : IsSpins t.x) {i : Nat} (hi : i < ls.length) {xi : ℤ} (hxi : t.x[i]? = some xi)
    (hd : p.energyAt ls t.x < p.energyAt ls (t.x.set i (xi * -1))) (h : innerStep exp s rands T t i = .ok t') :
    ∃ r q, rands[t.used]? = some r ∧
      ((T = 0 ∧ q = 0) ∨ (T ≠ 0 ∧ exp (-(p.energyAt ls (t.x.set i (xi * -1)) - p.energyAt ls t.x) / T) = .ok q)) ∧
      t' = if r < q then ⟨t.x.set i (xi * -1), t.energy + (p.energyAt ls (t.x.set i (xi * -1)) - p.energyAt ls t.x),
          t.used + 1, t.acceptances + 1⟩
        else { t with used := t.used + 1 } := by
  have hlt : i < t.x.length := by omega
  unfold innerStep at h
  rw [C45_flip_difference_partial hp hs hx hsp hi hxi, Except.bind_ok, bind_eq_ok] at h
  obtain ⟨⟨b, u⟩, h1, h2⟩ := h
  rcases isAcceptable_ok h1 with ⟨h', _⟩ | ⟨_, rfl, r, q, e1, e2, rfl⟩
  · linarith
  · refine ⟨r, q, e1, e2, ?_⟩
    by_cases hq : r < q
    · simp only [hq, decide_true, if_true] at h2 ⊢
      rw [listGet_ok.mpr hxi, Except.bind_ok, listSet_ok.mpr ⟨hlt, rfl⟩] at h2
      cases h2; rfl
    · simp only [hq, decide_false, Bool.false_eq_true, if_false] at h2 ⊢
      cases h2; rfl

/-- If a run ends above its initial state, an uphill flip was accepted in some sweep `k`, at a random number below
`exp (-d / T)`. -/
theorem C51_climb_partial (hp : p.Ready ls) (hs : prepare p = .ok s) (hr : rng.Ok) {st : Option Sample}
    (hi : InitOk ls st) {g g' : γ} {a : Annealed} {x : List ℤ} {t0 t : Outer γ} {rands : List ℚ}
    (h : RunOf rng exp s o st g a g' x t0 t rands) (hlt : p.energyAt ls x < a.energy) :
    ∃ k < o.numSweeps.toNat, ∃ tk, (List.range k).foldlM (sweepStep rng exp s o rands) t0 = .ok tk ∧
      ∃ (y : List ℤ) (i : Nat) (yi : ℤ), y[i]? = some yi ∧ p.energyAt ls y < p.energyAt ls (y.set i (yi * -1)) ∧
        tk.temperature ≠ 0 ∧ ∃ r ∈ rands, ∃ q, r < q ∧
          exp (-(p.energyAt ls (y.set i (yi * -1)) - p.energyAt ls y) / tk.temperature) = .ok q := by
  have hs' := hs
  obtain ⟨hok, rfl⟩ := prepare_ok' hp hs
  obtain ⟨e1, e2, e3, h0, hinv, _, _, _, e9, _⟩ := run_facts hok hr hi h
  have ho : s.original.offset = s.model.offset := by rw [hok.original]; simp [Physical.toBqm]
  have hE : t0.energy < t.energy := by
    have a1 := h0.inner.energy
    rw [e3, energyAt_eq hok e1 e2] at a1
    have a2 : a.energy = t.energy + s.model.offset * 2 := by rw [h.result, ho]
    linarith
  obtain ⟨k, hk, tk, tk', f1, f2, f3⟩ := sweeps_climb _ h.sweeps hE
  have hkinv := sweeps_inv hok hr k h0 f1
  refine ⟨k, hk, tk, f1, ?_⟩
  obtain ⟨rev, ps, g1, r, c, _, b2, b3, _, rfl⟩ := sweepStep_ok.mp f2
  obtain ⟨hps, _⟩ := pickups_lt hr hok b2
  obtain ⟨ps₁, i, ps₂, u, u', hpe, c1, c2, c3⟩ := inner_climb ps b3 f3
  have hi' : i < ls.length := hps i (by rw [hpe]; simp)
  obtain ⟨hu, _, _⟩ := inner_inv hok ps₁ (fun j hj => hps j (by rw [hpe]; simp [hj])) hkinv.inner c1
  have hilt : i < u.x.length := by rw [hu.length]; exact hi'
  have hui := List.getElem?_eq_getElem hilt
  by_cases hd : s.model.energyAt ls u.x < s.model.energyAt ls (u.x.set i (u.x[i] * -1))
  · refine ⟨u.x, i, u.x[i], hui, hd, ?_⟩
    obtain ⟨r, q, d1, d2, d3⟩ := C51_uphill_partial hp hs' hu.length hu.spins hi' hui hd c2
    have hr0 := (e9 r (List.mem_of_getElem? d1)).1
    by_cases hq : r < q
    · rcases d2 with ⟨_, rfl⟩ | ⟨hT, d2⟩
      · linarith
      · exact ⟨hT, r, List.mem_of_getElem? d1, q, hq, d2⟩
    · rw [if_neg hq] at d3
      rw [d3] at c3
      exact absurd c3 (lt_irrefl _)
  · have := C51_downhill_partial (exp := exp) (rands := rands) (T := tk.temperature) hp hs' hu.length hu.spins hi' hui
      (not_lt.mp hd)
    rw [this] at c2
    cases c2
    simp only at c3
    linarith

/-- At initial temperature 0 (without reverse options) a run never ends above its initial state. -/
theorem C51_greedy_partial (hp : p.Ready ls) (hs : prepare p = .ok s) (hr : rng.Ok) {st : Sample} (hi : st.SpinsOn ls)
    (hf : o.reverse = .none) (h0 : o.initialTemperature = 0) {g g' : γ} {a : Annealed}
    (h : annealing rng exp s o (some st) g = .ok (a, g')) :
    a.energy ≤ p.energyAt ls (ls.map fun l => (dget st l).getD 0) := by
  obtain ⟨x, t0, t, rands, hrun⟩ := annealing_iff.mp h
  by_contra hlt
  obtain ⟨hok, rfl⟩ := prepare_ok' hp hs
  obtain ⟨_, _, _, _, _, _, _, _, _, e10, e11, _, e13⟩ := run_facts (init := some st) hok hr hi hrun
  rw [← e10 st rfl] at hlt
  obtain ⟨k, _, tk, h1, _, _, _, _, _, hT, _⟩ := C51_climb_partial (st := some st) hp hs hr hi hrun (not_le.mp hlt)
  rw [hf] at e11
  apply hT
  rw [(sweeps_forward k (by simpa using e11) h1).2]
  rcases e13 with ⟨_, e, _⟩ | ⟨e, _⟩
  · rw [e, h0, zero_mul]
  · rw [hf] at e; cases e

/-- A greedy run on the QUBO example from the worst state to the best. -/
example : (Ex.solved Ex.physQubo 1 { Ex.options with initialTemperature := 0 } (some 3)
    (some [[("x[0]", 0), ("x[1]", 0), ("x[2]", 1)]])).map (fun l => l.map fun a => (a.energyHist, a.energy)) =
    some [([-5, -17, -17], 1)] := by
  decide +kernel

end Sawatabi.Props
