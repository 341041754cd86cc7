import Verif.Lemmas.Run

/-!
# Lemmas: how a run can fail, and the temperatures of a run
-/

namespace Sawatabi

variable {p : Physical} {ls : List String} {s : Problem} {γ : Type} {rng : Rng γ} {exp : ℚ → Except Err ℚ} {o : Options}
  {rands : List ℚ} {e : Err}

theorem bind_eq_error {ε α β : Type} {x : Except ε α} {f : α → Except ε β} {e : ε} :
    (x >>= f) = .error e ↔ x = .error e ∨ ∃ a, x = .ok a ∧ f a = .error e := by
  cases x with
  | error e => simp [Except.bind_error]
  | ok a => simp [Except.bind_ok]

/-- `math.exp` raises for some uphill step at temperature `T`. -/
def ExpRaises (exp : ℚ → Except Err ℚ) (T : ℚ) (e : Err) : Prop := T ≠ 0 ∧ ∃ d, 0 < d ∧ exp (-d / T) = .error e

theorem innerStep_error (h : s.Ok ls) {T : ℚ} {t : Inner} {i : Nat} (hi : i < ls.length) (hx : t.x.length = ls.length)
    (hu : t.used < rands.length) (he : innerStep exp s rands T t i = .error e) : ExpRaises exp T e := by
  have hlt : i < t.x.length := by rw [hx]; exact hi
  rw [innerStep_eq h hx (List.getElem?_eq_getElem hi) (List.getElem?_eq_getElem hlt)] at he
  generalize s.delta ls t.x ls[i] = d at he
  unfold isAcceptable at he
  by_cases hd : d ≤ 0
  · rw [if_pos hd] at he; cases he
  · rw [if_neg hd, listGet_ok.mpr (List.getElem?_eq_getElem hu)] at he
    by_cases hT : T = 0
    · rw [if_pos hT] at he; cases he
    · rw [if_neg hT] at he
      refine ⟨hT, d, not_le.mp hd, ?_⟩
      cases hq : exp (-d / T) with
      | ok q => rw [hq] at he; cases he
      | error e' => rw [hq] at he; cases he; rfl

theorem inner_error (h : s.Ok ls) {T : ℚ} (ps : List Nat) {t : Inner} (hps : ∀ i ∈ ps, i < ls.length)
    (hinv : Inner.Inv s ls t.x t.energy) (hu : t.used + ps.length ≤ rands.length)
    (he : ps.foldlM (innerStep exp s rands T) t = .error e) : ExpRaises exp T e := by
  induction ps generalizing t with
  | nil => cases he
  | cons i ps ih =>
    simp only [List.length_cons] at hu
    rw [List.foldlM_cons, bind_eq_error] at he
    rcases he with he | ⟨t1, h1, h2⟩
    · exact innerStep_error h (hps i List.mem_cons_self) hinv.length (by omega) he
    · obtain ⟨a1, a2, _⟩ := innerStep_inv h (hps i List.mem_cons_self) hinv h1
      exact ih (fun j hj => hps j (List.mem_cons_of_mem _ hj)) a1 (by omega) h2

/-- One sweep in terms of its parts, as an equation. -/
theorem sweepStep_eq (t : Outer γ) (k : Nat) : sweepStep rng exp s o rands t k =
    phase o t.reversing k >>= fun rev => pickups rng o.pickup s.size t.rng >>= fun q =>
      q.1.foldlM (innerStep exp s rands t.temperature) ⟨t.x, t.energy, t.used, 0⟩ >>= fun r =>
      cool o rev t.temperature t.target >>= fun c =>
      .ok { x := r.x, energy := r.energy, used := r.used, temperature := c.1, target := c.2, reversing := rev,
            energyHist := t.energyHist ++ [t.energy], temperatureHist := t.temperatureHist ++ [t.temperature],
            acceptanceHist := t.acceptanceHist ++ [r.acceptances], rng := q.2 } := by
  unfold sweepStep phase
  have tail : ∀ rev : Bool, ∀ q : List Nat × γ, ∀ r : Inner,
      (if rev = true then o.reverse.get "reverse_temperature" >>= fun top =>
          (.ok (Outer.mk r.x r.energy r.used (top - t.target * o.coolingRate) (t.target * o.coolingRate) rev
            (t.energyHist ++ [t.energy]) (t.temperatureHist ++ [t.temperature]) (t.acceptanceHist ++ [r.acceptances]) q.2) : Except Err (Outer γ))
        else .ok (Outer.mk r.x r.energy r.used (t.temperature * o.coolingRate) t.target rev
            (t.energyHist ++ [t.energy]) (t.temperatureHist ++ [t.temperature]) (t.acceptanceHist ++ [r.acceptances]) q.2)) =
      (cool o rev t.temperature t.target >>= fun c =>
        (.ok (Outer.mk r.x r.energy r.used c.1 c.2 rev
            (t.energyHist ++ [t.energy]) (t.temperatureHist ++ [t.temperature]) (t.acceptanceHist ++ [r.acceptances]) q.2) : Except Err (Outer γ))) := by
    intro rev q r
    unfold cool
    cases rev with
    | false => rfl
    | true =>
      simp only [if_true]
      cases o.reverse.get "reverse_temperature" <;> rfl
  cases t.reversing with
  | false =>
    simp only [Bool.false_eq_true, if_false, Except.pure_ok, Except.bind_ok]
    cases pickups rng o.pickup s.size t.rng with
    | error e => rfl
    | ok q =>
      simp only [Except.bind_ok]
      cases q.1.foldlM (innerStep exp s rands t.temperature) ⟨t.x, t.energy, t.used, 0⟩ with
      | error e => rfl
      | ok r => rfl
  | true =>
    simp only [if_true]
    cases o.reverse.get "reverse_period" with
    | error e => rfl
    | ok period =>
      simp only [Except.bind_ok, Except.pure_ok, Except.map]
      cases pickups rng o.pickup s.size t.rng with
      | error e => rfl
      | ok q =>
        simp only [Except.bind_ok]
        cases q.1.foldlM (innerStep exp s rands t.temperature) ⟨t.x, t.energy, t.used, 0⟩ with
        | error e => rfl
        | ok r =>
          simp only [Except.bind_ok]
          exact tail _ q r

/-- How a sweep can fail. -/
def SweepFails (exp : ℚ → Except Err ℚ) (o : Options) (t : Outer γ) (e : Err) : Prop :=
  t.reversing = true ∧ (o.reverse.get "reverse_period" = .error e ∨ o.reverse.get "reverse_temperature" = .error e) ∨
  o.pickup = .other ∨ ExpRaises exp t.temperature e

theorem sweep_error (h : s.Ok ls) (hr : rng.Ok) {t : Outer γ} {k : Nat} (hinv : Outer.Inv s ls k t)
    (hu : (k + 1) * ls.length ≤ rands.length) (he : sweepStep rng exp s o rands t k = .error e) : SweepFails exp o t e := by
  rw [sweepStep_eq, bind_eq_error] at he
  rcases he with he | ⟨rev, h1, he⟩
  · unfold phase at he
    cases hrev : t.reversing with
    | false => rw [hrev] at he; cases he
    | true =>
      rw [hrev] at he
      simp only [if_true] at he
      cases hp : o.reverse.get "reverse_period" with
      | ok q => rw [hp] at he; cases he
      | error e' => rw [hp] at he; cases he; exact .inl ⟨hrev, .inl hp⟩
  rw [bind_eq_error] at he
  rcases he with he | ⟨⟨ps, g⟩, h2, he⟩
  · unfold pickups at he
    cases hm : o.pickup with
    | random => rw [hm] at he; cases he
    | sequential => rw [hm] at he; cases he
    | other => exact .inr (.inl hm)
  rw [bind_eq_error] at he
  obtain ⟨hlt, hlen⟩ := pickups_lt hr h h2
  rcases he with he | ⟨r, h3, he⟩
  · refine .inr (.inr (inner_error h ps hlt hinv.inner ?_ he))
    have := hinv.used
    rw [Nat.add_mul, Nat.one_mul] at hu
    simp only
    omega
  rw [bind_eq_error] at he
  rcases he with he | ⟨c, _, he⟩
  · unfold cool at he
    cases hrev : rev with
    | false => rw [hrev] at he; cases he
    | true =>
      have : t.reversing = true := by
        unfold phase at h1
        cases ht : t.reversing with
        | true => rfl
        | false => rw [ht] at h1; subst hrev; cases h1
      rw [hrev] at he
      simp only [if_true] at he
      cases hp : o.reverse.get "reverse_temperature" with
      | ok q => rw [hp] at he; cases he
      | error e' => rw [hp] at he; cases he; exact .inl ⟨this, .inr hp⟩
  · cases he

/-- How a run of sweeps can fail: at the state after some number of sweeps. -/
theorem sweeps_error (h : s.Ok ls) (hr : rng.Ok) (n : Nat) {t : Outer γ} (hinv : Outer.Inv s ls 0 t)
    (hu : n * ls.length ≤ rands.length) (he : (List.range n).foldlM (sweepStep rng exp s o rands) t = .error e) :
    ∃ k < n, ∃ tk, (List.range k).foldlM (sweepStep rng exp s o rands) t = .ok tk ∧ SweepFails exp o tk e := by
  induction n with
  | zero => cases he
  | succ n ih =>
    have hn : n * ls.length ≤ rands.length := le_trans (Nat.mul_le_mul_right _ (Nat.le_succ n)) hu
    rw [foldlM_range_succ, bind_eq_error] at he
    rcases he with he | ⟨tn, h1, h2⟩
    · obtain ⟨k, hk, h'⟩ := ih hn he
      exact ⟨k, by omega, h'⟩
    · exact ⟨n, by omega, tn, h1, sweep_error h hr (sweeps_inv h hr n hinv h1) hu h2⟩

/-- How the annealing can fail. -/
theorem annealing_fails (h : s.Ok ls) (hr : rng.Ok) {init : Option Sample} (hi : InitOk ls init) {g : γ}
    (hc : annealing rng exp s o init g = .error e) :
    (o.reverse.isTruthy = true ∧ o.reverse.get "reverse_temperature" = .error e) ∨ (o.numSweeps < 0 ∧ e = .valueError) ∨
    ∃ k : Nat, ∃ t0 tk : Outer γ, ∃ rands, (k : ℤ) < o.numSweeps ∧ (List.range k).foldlM (sweepStep rng exp s o rands) t0 = .ok tk ∧
      t0.reversing = decide (o.reverse ≠ .none) ∧
      (o.reverse.isTruthy = false ∧ t0.temperature = o.initialTemperature ∧ t0.target = 0 ∨
        o.reverse.isTruthy = true ∧ t0.temperature = tinyTemperature ∧
          o.reverse.get "reverse_temperature" = .ok t0.target) ∧ SweepFails exp o tk e := by
  unfold annealing at hc
  obtain ⟨x, gi, e1, e2, e3, _⟩ := initialSpins_ok h.toArrays hr hi g
  rw [e1, Except.bind_ok] at hc
  simp only at hc
  cases hst : startState s o x gi with
  | error e' =>
    rw [hst, Except.bind_error] at hc
    cases hc
    left
    by_cases ho : o.reverse.isTruthy = true → ∃ top, o.reverse.get "reverse_temperature" = .ok top
    · obtain ⟨t, ht⟩ := startState_total h e2 gi ho
      rw [ht] at hst
      cases hst
    · unfold startState at hst
      rw [decode_eq h.ready e2, sampleEnergy_zip h.wf h.on h.ready.nodup e2, Except.bind_ok] at hst
      split at hst
      · rename_i htr
        cases hg : o.reverse.get "reverse_temperature" with
        | ok q => exact absurd (fun _ => ⟨q, hg⟩) ho
        | error e' =>
          rw [hg] at hst
          cases hst
          exact ⟨htr, rfl⟩
      · cases hst
  | ok ts =>
    rw [hst, Except.bind_ok] at hc
    by_cases hn : o.numSweeps < 0
    · rw [if_pos hn] at hc
      cases hc
      exact .inr (.inl ⟨hn, rfl⟩)
    · rw [if_neg hn] at hc
      obtain ⟨f1, f2, f3, f4, f5, f6, f7, f8, f9⟩ := startState_ok h e2 e3 hst
      cases hsw : (List.range o.numSweeps.toNat).foldlM (sweepStep rng exp s o (rng.random (o.numSweeps.toNat * s.size) ts.rng).1)
          { ts with rng := (rng.random (o.numSweeps.toNat * s.size) ts.rng).2 } with
      | ok t => rw [hsw] at hc; cases hc
      | error e' =>
        rw [hsw] at hc
        cases hc
        obtain ⟨k, hk, tk, hk1, hf⟩ := sweeps_error h hr _ (by
          exact ⟨⟨by simp [f1, e2], by simp only [f1]; exact e3, by simp only [f1, f2]⟩, by simp [f3], by simp [f4], by simp [f5],
            by simp [f6], by simp [f6]⟩) (by rw [hr.random, h.size]) hsw
        exact .inr (.inr ⟨k, _, tk, _, by omega, hk1, f8, f9, hf⟩)

/-! ## Temperatures -/

/-- Temperatures stay non-negative. -/
theorem sweeps_nonneg {R : ℚ} (hc : 0 ≤ o.coolingRate)
    (hrev : ∀ top, o.reverse.get "reverse_temperature" = .ok top → top = R ∧ o.coolingRate ≤ 1) (n : Nat) {t t' : Outer γ}
    (h1 : 0 ≤ t.temperature) (h2 : t.reversing = true → 0 ≤ t.target ∧ t.target ≤ R)
    (hs : (List.range n).foldlM (sweepStep rng exp s o rands) t = .ok t') :
    0 ≤ t'.temperature ∧ (t'.reversing = true → 0 ≤ t'.target ∧ t'.target ≤ R) := by
  induction n generalizing t' with
  | zero => cases hs; exact ⟨h1, h2⟩
  | succ n ih =>
    rw [foldlM_range_succ, bind_eq_ok] at hs
    obtain ⟨t1, h3, h4⟩ := hs
    obtain ⟨i1, i2⟩ := ih h3
    obtain ⟨rev, ps, g, r, c, hp, _, _, hcool, rfl⟩ := sweepStep_ok.mp h4
    cases rev with
    | false =>
      cases hcool
      exact ⟨mul_nonneg i1 hc, fun h => by cases h⟩
    | true =>
      have ht : t1.reversing = true := by
        unfold phase at hp
        cases ht : t1.reversing with
        | true => rfl
        | false => rw [ht] at hp; cases hp
      obtain ⟨j1, j2⟩ := i2 ht
      unfold cool at hcool
      simp only [if_true] at hcool
      cases hg : o.reverse.get "reverse_temperature" with
      | error e => rw [hg] at hcool; cases hcool
      | ok top =>
        rw [hg] at hcool
        cases hcool
        obtain ⟨rfl, hc1⟩ := hrev top hg
        have a1 : 0 ≤ t1.target * o.coolingRate := mul_nonneg j1 hc
        have a2 : t1.target * o.coolingRate ≤ t1.target * 1 := mul_le_mul_of_nonneg_left hc1 j1
        refine ⟨?_, fun _ => ⟨a1, ?_⟩⟩ <;> simp only <;> linarith

/-- The temperature, the target temperature and the phase after `k` sweeps depend on the options only. -/
theorem sweeps_forward (n : Nat) {t t' : Outer γ} (ht : t.reversing = false)
    (hs : (List.range n).foldlM (sweepStep rng exp s o rands) t = .ok t') :
    t'.reversing = false ∧ t'.temperature = t.temperature * o.coolingRate ^ n := by
  induction n generalizing t' with
  | zero => cases hs; exact ⟨ht, by simp⟩
  | succ n ih =>
    rw [foldlM_range_succ, bind_eq_ok] at hs
    obtain ⟨t1, h1, h2⟩ := hs
    obtain ⟨i1, i2⟩ := ih h1
    obtain ⟨rev, ps, g, r, c, hp, _, _, hc, rfl⟩ := sweepStep_ok.mp h2
    rw [i1] at hp
    cases hp
    cases hc
    refine ⟨rfl, ?_⟩
    simp only [i2, pow_succ]
    ring

theorem sweeps_reverse {P : Nat} {period R : ℚ} (hP : o.reverse.get "reverse_period" = .ok period)
    (hcut : ∀ k : Nat, period ≤ k ↔ P ≤ k)
    (hR : o.reverse.get "reverse_temperature" = .ok R) (n : Nat) {t t' : Outer γ} (ht : t.reversing = true)
    (htg : t.target = R) (hs : (List.range n).foldlM (sweepStep rng exp s o rands) t = .ok t') :
    (n ≤ P → t'.reversing = true ∧ t'.target = R * o.coolingRate ^ n ∧
      t'.temperature = if n = 0 then t.temperature else R * (1 - o.coolingRate ^ n)) ∧
    (P < n → t'.reversing = false ∧
      t'.temperature = (if P = 0 then t.temperature else R * (1 - o.coolingRate ^ P)) * o.coolingRate ^ (n - P)) := by
  induction n generalizing t' with
  | zero => cases hs; exact ⟨fun _ => ⟨ht, by simp [htg], by simp⟩, fun h => absurd h (Nat.not_lt_zero _)⟩
  | succ n ih =>
    rw [foldlM_range_succ, bind_eq_ok] at hs
    obtain ⟨t1, h1, h2⟩ := hs
    obtain ⟨i1, i2⟩ := ih h1
    obtain ⟨rev, ps, g, r, c, hp, _, _, hc, rfl⟩ := sweepStep_ok.mp h2
    constructor
    · intro hn
      obtain ⟨j1, j2, j3⟩ := i1 (by omega)
      rw [j1] at hp
      unfold phase at hp
      simp only [if_true] at hp
      rw [hP] at hp
      have hlt : ¬ (period ≤ (n : ℚ)) := by rw [hcut]; omega
      simp only [Except.map, hlt, decide_false, Bool.not_false] at hp
      cases hp
      unfold cool at hc
      simp only [if_true] at hc
      rw [hR] at hc
      cases hc
      refine ⟨rfl, ?_, ?_⟩
      · simp only [j2, pow_succ]; ring
      · simp only [j2, pow_succ, Nat.add_eq_zero_iff, one_ne_zero, and_false, if_false]; ring
    · intro hn
      have hle : (period ≤ (n : ℚ)) := by rw [hcut]; omega
      have hrev : rev = false := by
        unfold phase at hp
        cases ht1 : t1.reversing with
        | false => rw [ht1] at hp; cases hp; rfl
        | true =>
          rw [ht1] at hp
          simp only [if_true] at hp
          rw [hP] at hp
          simp only [Except.map, hle, decide_true, Bool.not_true] at hp
          cases hp; rfl
      subst hrev
      cases hc
      refine ⟨rfl, ?_⟩
      by_cases hPn : P = n
      · obtain ⟨_, _, j3⟩ := i1 (by omega)
        subst hPn
        simp only [j3, Nat.add_sub_cancel_left, pow_one]
      · obtain ⟨_, j3⟩ := i2 (by omega)
        rw [show n + 1 - P = n - P + 1 by omega]
        simp only [j3, pow_succ]
        ring

/-! ## Random numbers -/

/-- The generator after the sweeps depends on the number of variables and sweeps only. -/
theorem sweeps_rng {s' : Problem} {exp' : ℚ → Except Err ℚ} {rands' : List ℚ} {o' : Options} (hsz : s.size = s'.size)
    (hpk : o.pickup = o'.pickup) (n : Nat)
    {t t' u u' : Outer γ} (htu : t.rng = u.rng)
    (ht : (List.range n).foldlM (sweepStep rng exp s o rands) t = .ok t')
    (hu : (List.range n).foldlM (sweepStep rng exp' s' o' rands') u = .ok u') : t'.rng = u'.rng := by
  induction n generalizing t' u' with
  | zero => cases ht; cases hu; exact htu
  | succ n ih =>
    rw [foldlM_range_succ, bind_eq_ok] at ht hu
    obtain ⟨t1, h1, h2⟩ := ht
    obtain ⟨u1, k1, k2⟩ := hu
    have e := ih h1 k1
    obtain ⟨_, ps, g, _, _, _, hp, _, _, rfl⟩ := sweepStep_ok.mp h2
    obtain ⟨_, ps', g', _, _, _, hp', _, _, rfl⟩ := sweepStep_ok.mp k2
    rw [hsz, hpk, e, hp'] at hp
    cases hp
    rfl

/-! ## Climbing -/

/-- If the inner loop ends higher than it began, some round climbed. -/
theorem inner_climb {T : ℚ} (ps : List Nat) {t t' : Inner} (hr : ps.foldlM (innerStep exp s rands T) t = .ok t')
    (hlt : t.energy < t'.energy) : ∃ ps₁ i ps₂ u u', ps = ps₁ ++ i :: ps₂ ∧ ps₁.foldlM (innerStep exp s rands T) t = .ok u ∧
      innerStep exp s rands T u i = .ok u' ∧ u.energy < u'.energy := by
  induction ps generalizing t with
  | nil => cases hr; exact absurd hlt (lt_irrefl _)
  | cons i ps ih =>
    rw [List.foldlM_cons, bind_eq_ok] at hr
    obtain ⟨t1, h1, h2⟩ := hr
    by_cases hc : t.energy < t1.energy
    · exact ⟨[], i, ps, t, t1, rfl, rfl, h1, hc⟩
    · obtain ⟨ps₁, j, ps₂, u, u', e, f, g, h⟩ := ih h2 (lt_of_le_of_lt (not_lt.mp hc) hlt)
      refine ⟨i :: ps₁, j, ps₂, u, u', by rw [e]; rfl, ?_, g, h⟩
      rw [List.foldlM_cons, h1, Except.bind_ok]
      exact f

/-- If a run ends higher than it began, some sweep climbed. -/
theorem sweeps_climb (n : Nat) {t t' : Outer γ} (hs : (List.range n).foldlM (sweepStep rng exp s o rands) t = .ok t')
    (hlt : t.energy < t'.energy) : ∃ k < n, ∃ tk tk', (List.range k).foldlM (sweepStep rng exp s o rands) t = .ok tk ∧
      sweepStep rng exp s o rands tk k = .ok tk' ∧ tk.energy < tk'.energy := by
  induction n generalizing t' with
  | zero => cases hs; exact absurd hlt (lt_irrefl _)
  | succ n ih =>
    rw [foldlM_range_succ, bind_eq_ok] at hs
    obtain ⟨t1, h1, h2⟩ := hs
    by_cases hc : t1.energy < t'.energy
    · exact ⟨n, by omega, t1, t', h1, h2, hc⟩
    · obtain ⟨k, hk, h'⟩ := ih h1 (lt_of_lt_of_le hlt (not_lt.mp hc))
      exact ⟨k, by omega, h'⟩

end Sawatabi
