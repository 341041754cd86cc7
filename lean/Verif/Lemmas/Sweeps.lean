import Verif.Lemmas.Annealing

/-!
# Lemmas: the sweeps
-/

namespace Sawatabi

variable {p : Physical} {ls : List String} {s : Problem} {γ : Type} {rng : Rng γ} {exp : ℚ → Except Err ℚ} {o : Options}
  {rands : List ℚ}

/-- Is sweep `k` in the reversing phase, given the phase before? -/
def phase (o : Options) (before : Bool) (k : Nat) : Except Err Bool :=
  if before then (o.reverse.get "reverse_period").map fun period => !decide (period ≤ (k : ℚ)) else .ok false

/-- Temperature and target temperature after a sweep. -/
def cool (o : Options) (rev : Bool) (temperature target : ℚ) : Except Err (ℚ × ℚ) :=
  if rev then (o.reverse.get "reverse_temperature").map fun top => (top - target * o.coolingRate, target * o.coolingRate)
  else .ok (temperature * o.coolingRate, target)

/-- One sweep in terms of its parts. -/
theorem sweepStep_ok {t t' : Outer γ} {k : Nat} : sweepStep rng exp s o rands t k = .ok t' ↔
    ∃ rev ps g r c, phase o t.reversing k = .ok rev ∧ pickups rng o.pickup s.size t.rng = .ok (ps, g) ∧
      ps.foldlM (innerStep exp s rands t.temperature) ⟨t.x, t.energy, t.used, 0⟩ = .ok r ∧
      cool o rev t.temperature t.target = .ok c ∧
      t' = { x := r.x, energy := r.energy, used := r.used, temperature := c.1, target := c.2, reversing := rev,
             energyHist := t.energyHist ++ [t.energy], temperatureHist := t.temperatureHist ++ [t.temperature],
             acceptanceHist := t.acceptanceHist ++ [r.acceptances], rng := g } := by
  have tail : ∀ rev, ((do
      let (ps, g) ← pickups rng o.pickup s.size t.rng
      let r ← ps.foldlM (innerStep exp s rands t.temperature) ⟨t.x, t.energy, t.used, 0⟩
      let (temperature, target) ← if rev then do
          let target := t.target * o.coolingRate
          let top ← o.reverse.get "reverse_temperature"
          pure (top - target, target)
        else pure (t.temperature * o.coolingRate, t.target)
      return ({ x := r.x, energy := r.energy, used := r.used, temperature, target, reversing := rev,
                energyHist := t.energyHist ++ [t.energy], temperatureHist := t.temperatureHist ++ [t.temperature],
                acceptanceHist := t.acceptanceHist ++ [r.acceptances], rng := g } : Outer γ)) : Except Err (Outer γ)) = .ok t' ↔
      ∃ ps g r c, pickups rng o.pickup s.size t.rng = .ok (ps, g) ∧
      ps.foldlM (innerStep exp s rands t.temperature) ⟨t.x, t.energy, t.used, 0⟩ = .ok r ∧
      cool o rev t.temperature t.target = .ok c ∧
      t' = { x := r.x, energy := r.energy, used := r.used, temperature := c.1, target := c.2, reversing := rev,
             energyHist := t.energyHist ++ [t.energy], temperatureHist := t.temperatureHist ++ [t.temperature],
             acceptanceHist := t.acceptanceHist ++ [r.acceptances], rng := g } := by
    intro rev
    rw [bind_eq_ok]
    constructor
    · rintro ⟨⟨ps, g⟩, h1, h2⟩
      simp only [bind_eq_ok] at h2
      obtain ⟨r, h3, h4⟩ := h2
      refine ⟨ps, g, r, ?_⟩
      unfold cool
      cases rev with
      | false =>
        simp only [Bool.false_eq_true, if_false, Except.pure_ok, Except.bind_ok] at h4
        cases h4
        exact ⟨_, h1, h3, rfl, rfl⟩
      | true =>
        simp only [if_true, Except.pure_ok] at h4
        rw [bind_eq_ok] at h4
        obtain ⟨top, ht, h4⟩ := h4
        cases h4
        exact ⟨_, h1, h3, by rw [ht]; rfl, rfl⟩
    · rintro ⟨ps, g, r, c, h1, h2, h3, rfl⟩
      refine ⟨(ps, g), h1, ?_⟩
      simp only [h2, Except.bind_ok]
      unfold cool at h3
      cases rev with
      | false =>
        simp only [Bool.false_eq_true, if_false] at h3
        cases h3
        rfl
      | true =>
        simp only [if_true] at h3
        cases ht : o.reverse.get "reverse_temperature" with
        | error e => rw [ht] at h3; cases h3
        | ok top =>
          rw [ht] at h3
          cases h3
          rfl
  unfold sweepStep phase
  cases hrev : t.reversing with
  | false =>
    simp only [Bool.false_eq_true, if_false, Except.pure_ok, Except.bind_ok]
    have := tail false
    simp only [Bool.false_eq_true, if_false, Except.pure_ok, Except.bind_ok] at this
    rw [this]
    constructor
    · rintro ⟨ps, g, r, c, h⟩; exact ⟨false, ps, g, r, c, rfl, h⟩
    · rintro ⟨rev, ps, g, r, c, h1, h⟩; cases h1; exact ⟨ps, g, r, c, h⟩
  | true =>
    simp only [if_true]
    cases hp : o.reverse.get "reverse_period" with
    | error e =>
      constructor
      · intro h; cases h
      · rintro ⟨rev, ps, g, r, c, h1, _⟩; cases h1
    | ok period =>
      have := tail (!decide (period ≤ (k : ℚ)))
      simp only [Except.bind_ok, Except.pure_ok, Except.map] at this ⊢
      rw [this]
      constructor
      · rintro ⟨ps, g, r, c, h⟩; exact ⟨_, ps, g, r, c, rfl, h⟩
      · rintro ⟨rev, ps, g, r, c, h1, h⟩; cases h1; exact ⟨ps, g, r, c, h⟩

theorem pickups_ok (hr : rng.Ok) {mode : Pickup} {n : Nat} {g g' : γ} {ps : List Nat}
    (h : pickups rng mode n g = .ok (ps, g')) : ps.Perm (List.range n) := by
  unfold pickups at h
  cases mode with
  | random =>
    simp only [Except.ok.injEq] at h
    have := hr.permutation n g
    rw [h] at this
    exact this
  | sequential => cases h; exact List.Perm.refl _
  | other => cases h

theorem pickups_lt (hr : rng.Ok) (h : s.Ok ls) {mode : Pickup} {g g' : γ} {ps : List Nat}
    (hp : pickups rng mode s.size g = .ok (ps, g')) : (∀ i ∈ ps, i < ls.length) ∧ ps.length = ls.length := by
  have := pickups_ok hr hp
  rw [h.size] at this
  refine ⟨fun i hi => ?_, by rw [this.length_eq, List.length_range]⟩
  exact List.mem_range.mp (this.subset hi)

/-- What the outer loop maintains after `k` sweeps. -/
structure Outer.Inv (s : Problem) (ls : List String) (k : Nat) (t : Outer γ) : Prop where
  inner : Inner.Inv s ls t.x t.energy
  used : t.used ≤ k * ls.length
  energyHist : t.energyHist.length = k
  temperatureHist : t.temperatureHist.length = k
  acceptanceHist : t.acceptanceHist.length = k
  acceptances : ∀ a ∈ t.acceptanceHist, a ≤ ls.length

theorem sweep_inv (h : s.Ok ls) (hr : rng.Ok) {t t' : Outer γ} {k : Nat} (hinv : Outer.Inv s ls k t)
    (hs : sweepStep rng exp s o rands t k = .ok t') : Outer.Inv s ls (k + 1) t' := by
  obtain ⟨rev, ps, g, r, c, _, h2, h3, _, rfl⟩ := sweepStep_ok.mp hs
  obtain ⟨hlt, hlen⟩ := pickups_lt hr h h2
  obtain ⟨a1, a2, a3⟩ := inner_inv h ps hlt hinv.inner h3
  have := hinv.used
  refine ⟨a1, ?_, by simp [hinv.energyHist], by simp [hinv.temperatureHist], by simp [hinv.acceptanceHist], ?_⟩
  · simp only at a2
    rw [Nat.add_mul, Nat.one_mul]
    simp only
    omega
  · intro a ha
    rcases List.mem_append.mp ha with h' | h'
    · exact hinv.acceptances a h'
    · rw [List.mem_singleton] at h'
      simp only at a3
      omega

theorem foldlM_range_succ {σ : Type} (f : σ → Nat → Except Err σ) (n : Nat) (t : σ) :
    (List.range (n + 1)).foldlM f t = (List.range n).foldlM f t >>= fun t' => f t' n := by
  rw [List.range_succ, List.foldlM_append]
  congr 1
  funext t'
  rw [List.foldlM_cons]
  cases f t' n <;> rfl

theorem sweeps_inv (h : s.Ok ls) (hr : rng.Ok) (n : Nat) {t t' : Outer γ} (hinv : Outer.Inv s ls 0 t)
    (hs : (List.range n).foldlM (sweepStep rng exp s o rands) t = .ok t') : Outer.Inv s ls n t' := by
  induction n generalizing t' with
  | zero => cases hs; exact hinv
  | succ n ih =>
    rw [foldlM_range_succ, bind_eq_ok] at hs
    obtain ⟨t1, h1, h2⟩ := hs
    exact sweep_inv h hr (ih h1) h2

/-- Every prefix of a successful run is successful, and the histories of the run extend those of the prefix. -/
theorem sweeps_prefix (n : Nat) {t t' : Outer γ} (hs : (List.range n).foldlM (sweepStep rng exp s o rands) t = .ok t')
    (ht : t.energyHist = [] ∧ t.temperatureHist = []) :
    t'.energyHist.length = n ∧ t'.temperatureHist.length = n ∧
    ∀ k < n, ∃ tk, (List.range k).foldlM (sweepStep rng exp s o rands) t = .ok tk ∧
      t'.energyHist[k]? = some tk.energy ∧ t'.temperatureHist[k]? = some tk.temperature := by
  induction n generalizing t' with
  | zero => cases hs; exact ⟨by simp [ht.1], by simp [ht.2], fun k hk => absurd hk (Nat.not_lt_zero k)⟩
  | succ n ih =>
    rw [foldlM_range_succ, bind_eq_ok] at hs
    obtain ⟨t1, h1, h2⟩ := hs
    obtain ⟨e1, e2, e3⟩ := ih h1
    obtain ⟨rev, ps, g, r, c, _, _, _, _, rfl⟩ := sweepStep_ok.mp h2
    refine ⟨by simp [e1], by simp [e2], fun k hk => ?_⟩
    by_cases hkn : k < n
    · obtain ⟨tk, f1, f2, f3⟩ := e3 k hkn
      refine ⟨tk, f1, ?_, ?_⟩
      · rw [List.getElem?_append_left (by omega)]; exact f2
      · rw [List.getElem?_append_left (by omega)]; exact f3
    · have : k = n := by omega
      subst this
      refine ⟨t1, h1, ?_, ?_⟩
      · rw [List.getElem?_append_right (by omega), e1]; simp
      · rw [List.getElem?_append_right (by omega), e2]; simp

end Sawatabi
