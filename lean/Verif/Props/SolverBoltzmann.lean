import Verif.Props.SolverAccept
import Verif.Lemmas.Boltzmann

/-!
# Sweeps keep the Boltzmann distribution (C111)

At a fixed temperature a sweep is a chain of Metropolis steps. The random numbers are drawn evenly from a grid, as numpy
does, so an acceptance probability is off by up to the width of the grid.
-/

namespace Sawatabi.Props

variable {p : Physical} {s : Problem} {exp : ℚ → Except Err ℚ} {T : ℚ} {N : Nat} {η : ℝ}

/-- The chance that flip `i` of `x` is accepted. -/
noncomputable def flipChance (exp : ℚ → Except Err ℚ) (E : List ℤ → ℚ) (T : ℚ) (N : Nat) (i : Nat) (x : List ℤ) : ℝ :=
  if E (flipAt x i) ≤ E x then 1
  else match exp (-(E (flipAt x i) - E x) / T) with
    | .ok q => ((min N ⌈(N : ℚ) * q⌉₊ : ℕ) : ℝ) / N
    | .error _ => 0

theorem flipChance_unit {E : List ℤ → ℚ} (hN : 0 < N) (i : Nat) (x : List ℤ) :
    0 ≤ flipChance exp E T N i x ∧ flipChance exp E T N i x ≤ 1 := by
  unfold flipChance
  have hN' : (0 : ℝ) < N := by exact_mod_cast hN
  split
  · norm_num
  · split
    · refine ⟨by positivity, ?_⟩
      rw [div_le_one hN']
      exact_mod_cast min_le_left _ _
    · norm_num

/-! ## The steps -/

theorem step_down (hp : p.FromCalls) (hs : prepare p = .ok s) {x : List ℤ} (hx : x.length = p.labels.length)
    (hsp : IsSpins x) {i : Nat} (hi : i < p.labels.length) (hd : p.energyAt p.labels (flipAt x i) ≤ p.energyAt p.labels x)
    (rands : List ℚ) (u : Nat) (e : ℚ) (acc : Nat) :
    innerStep exp s rands T ⟨x, e, u, acc⟩ i =
      .ok ⟨flipAt x i, e + (p.energyAt p.labels (flipAt x i) - p.energyAt p.labels x), u, acc + 1⟩ := by
  have hready := fromCalls_ready hp hs
  have hlt : i < x.length := by omega
  have hxi := List.getElem?_eq_getElem hlt
  rw [flipAt_some hxi] at hd ⊢
  unfold innerStep
  rw [C45_flip_difference_partial hready hs hx hsp hi hxi, Except.bind_ok]
  unfold isAcceptable
  rw [if_pos (by linarith), Except.bind_ok]
  simp only [if_true, listGet_ok.mpr hxi, Except.bind_ok, listSet_ok.mpr ⟨hlt, rfl⟩, Except.pure_ok]

theorem step_up (hp : p.FromCalls) (hs : prepare p = .ok s) {x : List ℤ} (hx : x.length = p.labels.length)
    (hsp : IsSpins x) {i : Nat} (hi : i < p.labels.length) (hd : p.energyAt p.labels x < p.energyAt p.labels (flipAt x i)) {q : ℚ}
    (hT : T ≠ 0) (hq : exp (-(p.energyAt p.labels (flipAt x i) - p.energyAt p.labels x) / T) = .ok q)
    {rands : List ℚ} {u : Nat} {r : ℚ} (hr : rands[u]? = some r) (e : ℚ) (acc : Nat) :
    innerStep exp s rands T ⟨x, e, u, acc⟩ i =
      .ok (if r < q then ⟨flipAt x i, e + (p.energyAt p.labels (flipAt x i) - p.energyAt p.labels x), u + 1, acc + 1⟩
        else ⟨x, e, u + 1, acc⟩) := by
  have hready := fromCalls_ready hp hs
  have hlt : i < x.length := by omega
  have hxi := List.getElem?_eq_getElem hlt
  rw [flipAt_some hxi] at hd hq ⊢
  have hrun : isAcceptable exp rands u (p.energyAt p.labels (x.set i (x[i] * -1)) - p.energyAt p.labels x) T =
      .ok (decide (r < q), u + 1) := by
    unfold isAcceptable
    rw [if_neg (by linarith), if_neg hT, hq, Except.bind_ok, listGet_ok.mpr hr]
    rfl
  unfold innerStep
  rw [C45_flip_difference_partial hready hs hx hsp hi hxi, Except.bind_ok]
  show (isAcceptable exp rands u _ T >>= _) = _
  rw [hrun, Except.bind_ok]
  by_cases h : r < q
  · simp only [h, decide_true, if_true, listGet_ok.mpr hxi, Except.bind_ok, listSet_ok.mpr ⟨hlt, rfl⟩, Except.pure_ok]
  · simp only [h, decide_false, if_false, Except.pure_ok, Bool.false_eq_true]

theorem sum_if (l : List ℚ) (q : ℚ) (f : ℚ → ℝ) (a b : ℝ) (hf : ∀ r ∈ l, f r = if r < q then a else b) :
    (l.map f).sum = (l.countP fun r => decide (r < q)) * a + (l.length - (l.countP fun r => decide (r < q)) : ℝ) * b := by
  induction l with
  | nil => simp
  | cons r l ih =>
    rw [List.map_cons, List.sum_cons, ih fun r hr => hf r (List.mem_cons_of_mem _ hr), hf r List.mem_cons_self]
    by_cases h : r < q
    · rw [if_pos h, List.countP_cons_of_pos (by simpa using h), List.length_cons]
      push_cast
      ring
    · rw [if_neg h, List.countP_cons_of_neg (by simpa using h), List.length_cons]
      push_cast
      ring

theorem grid_below (hN : 0 < N) (q : ℚ) : (grid N).countP (fun r => decide (r < q)) = min N ⌈(N : ℚ) * q⌉₊ := by
  rw [← countP_below]
  unfold grid
  rw [List.countP_map]
  apply List.countP_congr
  intro k _
  have hN' : (0 : ℚ) < N := by exact_mod_cast hN
  simp only [Function.comp_apply, decide_eq_true_eq, Nat.lt_ceil]
  rw [div_lt_iff₀ hN', mul_comm]

theorem chance_succ_real (n : Nat) (f : List ℚ → Bool) :
    ((chance N (n + 1) f : ℚ) : ℝ) = ((grid N).map fun r => ((chance N n fun d => f (r :: d) : ℚ) : ℝ)).sum / N := by
  rw [chance_succ, Rat.cast_div, Rat.cast_natCast]
  congr 1
  induction grid N with
  | nil => simp
  | cons r l ih => simp only [List.map_cons, List.sum_cons, Rat.cast_add, ih]

/-- **C111**: drawing the random numbers evenly from the grid, the spins after trying the flips `ps` are those of a chain of
Metropolis steps. Numbers before and after those used make no difference, nor does the energy kept along the way. -/
theorem C111_chain (hp : p.FromCalls) (hs : prepare p = .ok s) (hN : 0 < N) (hT : 0 < T)
    (hexp : ∀ a ≤ 0, ∃ v, exp a = .ok v) {ps : List Nat} (hps : ∀ i ∈ ps, i < p.labels.length) {x : List ℤ}
    (hx : x ∈ spinVectors p.labels.length) (y : List ℤ) {M : Nat} (hM : ps.length ≤ M) (pre tail : List ℚ) (e : ℚ) (acc : Nat) :
    ((chance N M fun d => endsAt y (ps.foldlM (innerStep exp s (pre ++ d ++ tail) T) ⟨x, e, pre.length, acc⟩) : ℚ) : ℝ) =
      walk (flipChance exp (p.energyAt p.labels) T N) ps x y := by
  induction ps generalizing x M pre e acc with
  | nil =>
    simp only [List.foldlM_nil, walk]
    show ((chance N M fun _ => decide (x = y) : ℚ) : ℝ) = _
    rw [chance_const hN]
    by_cases h : x = y <;> simp [h]
  | cons i ps ih =>
    have hi := hps i List.mem_cons_self
    have ih := fun x hx M hM pre e acc => ih (fun j hj => hps j (List.mem_cons_of_mem _ hj)) (x := x) hx (M := M) hM pre e acc
    have hx' := mem_spinVectors.mp hx
    have hfx := flipAt_mem hx i
    have hM' : ps.length ≤ M := le_trans (by simp) hM
    by_cases hd : p.energyAt p.labels (flipAt x i) ≤ p.energyAt p.labels x
    · have hacc : flipChance exp (p.energyAt p.labels) T N i x = 1 := by
        unfold flipChance
        rw [if_pos hd]
      simp only [List.foldlM_cons, step_down hp hs hx'.1 hx'.2 hi hd, Except.bind_ok, walk, hacc, ih _ hfx M hM']
      ring
    · push Not at hd
      obtain ⟨q, hq⟩ := hexp (-(p.energyAt p.labels (flipAt x i) - p.energyAt p.labels x) / T)
        (div_nonpos_of_nonpos_of_nonneg (by linarith) hT.le)
      have hacc : flipChance exp (p.energyAt p.labels) T N i x = ((min N ⌈(N : ℚ) * q⌉₊ : ℕ) : ℝ) / N := by
        unfold flipChance
        rw [if_neg (not_le.mpr hd), hq]
      obtain ⟨M, rfl⟩ : ∃ M', M = M' + 1 := ⟨M - 1, by simp at hM; omega⟩
      have hM'' : ps.length ≤ M := by simpa using hM
      have hN' : (N : ℝ) ≠ 0 := by exact_mod_cast hN.ne'
      rw [chance_succ_real, sum_if _ q _ (walk (flipChance exp (p.energyAt p.labels) T N) ps (flipAt x i) y)
        (walk (flipChance exp (p.energyAt p.labels) T N) ps x y), grid_below hN, walk, hacc]
      · have hl : (grid N).length = N := by simp [grid]
        rw [hl]
        field_simp
      · intro r _
        have hr : ∀ d, (pre ++ r :: d ++ tail)[pre.length]? = some r := by
          intro d
          rw [List.append_assoc, List.getElem?_append_right le_rfl]
          simp
        have hsplit : ∀ d, pre ++ r :: d ++ tail = (pre ++ [r]) ++ d ++ tail := by simp
        have hlen : pre.length + 1 = (pre ++ [r]).length := by simp
        simp only [List.foldlM_cons, step_up hp hs hx'.1 hx'.2 hi hd hT.ne' hq (hr _), Except.bind_ok]
        by_cases h : r < q
        · simp only [h, if_true, hsplit, hlen]
          exact ih _ hfx M hM'' _ _ _
        · simp only [h, if_false, hsplit, hlen]
          exact ih _ hx M hM'' _ _ _

/-! ## Balance -/

theorem near_exp (hN : 0 < N) {q : ℚ} {e : ℝ} (hq : 0 ≤ q) (he : e ≤ 1) (h : |(q : ℝ) - e| ≤ η) :
    |((min N ⌈(N : ℚ) * q⌉₊ : ℕ) : ℝ) / N - e| ≤ 1 / N + η := by
  have hN' : (0 : ℝ) < N := by exact_mod_cast hN
  have h1 : ((N : ℝ) * q) ≤ (⌈(N : ℚ) * q⌉₊ : ℝ) := by exact_mod_cast Nat.le_ceil ((N : ℚ) * q)
  have h2 : (⌈(N : ℚ) * q⌉₊ : ℝ) < N * q + 1 := by
    exact_mod_cast Nat.ceil_lt_add_one (mul_nonneg (by positivity : (0 : ℚ) ≤ N) hq)
  obtain ⟨h3, h4⟩ := abs_le.mp h
  have hη : 0 ≤ η := (abs_nonneg _).trans h
  have hd : ∀ c : ℝ, c / N - e = (c - N * e) / N := fun c => by field_simp
  have hb : (1 : ℝ) / N + η = (1 + N * η) / N := by field_simp
  rw [hd, hb, abs_div, abs_of_pos hN']
  refine div_le_div_of_nonneg_right ?_ hN'.le
  rcases le_total N ⌈(N : ℚ) * q⌉₊ with hc | hc
  · rw [min_eq_left hc]
    have hc' : (N : ℝ) ≤ (⌈(N : ℚ) * q⌉₊ : ℝ) := by exact_mod_cast hc
    rw [abs_le]
    constructor <;> nlinarith
  · rw [min_eq_right hc, abs_le]
    constructor <;> nlinarith

theorem flip_balance (E : List ℤ → ℚ) (hN : 0 < N) (hT : 0 < T) (hexp : NearExp exp η) (i : Nat) (x : List ℤ) :
    |boltzmann E T (flipAt x i) * flipChance exp E T N i (flipAt x i) - boltzmann E T x * flipChance exp E T N i x| ≤
      (1 / N + η) * (boltzmann E T x + boltzmann E T (flipAt x i)) := by
  have up : ∀ x, E x < E (flipAt x i) →
      |boltzmann E T (flipAt x i) * flipChance exp E T N i (flipAt x i) - boltzmann E T x * flipChance exp E T N i x| ≤
        (1 / N + η) * boltzmann E T x := by
    intro x hx
    have h1 : flipChance exp E T N i (flipAt x i) = 1 := by
      unfold flipChance
      rw [flipAt_flipAt, if_pos hx.le]
    have ha : -(E (flipAt x i) - E x) / T ≤ 0 := div_nonpos_of_nonpos_of_nonneg (by linarith) hT.le
    obtain ⟨q, hq, hq0, hqe⟩ := hexp _ ha
    have h2 : flipChance exp E T N i x = ((min N ⌈(N : ℚ) * q⌉₊ : ℕ) : ℝ) / N := by
      unfold flipChance
      rw [if_neg (not_le.mpr hx), hq]
    have hμ : boltzmann E T (flipAt x i) = boltzmann E T x * Real.exp ((-(E (flipAt x i) - E x) / T : ℚ) : ℝ) := by
      unfold boltzmann
      rw [← Real.exp_add, ← Rat.cast_add]
      congr 2
      ring
    have he : Real.exp ((-(E (flipAt x i) - E x) / T : ℚ) : ℝ) ≤ 1 := Real.exp_le_one_iff.mpr (by exact_mod_cast ha)
    have hpos : 0 < boltzmann E T x := Real.exp_pos _
    rw [h1, h2, hμ, mul_one, ← mul_sub, abs_mul, abs_of_pos hpos, mul_comm, abs_sub_comm]
    exact mul_le_mul_of_nonneg_right (near_exp hN hq0 he hqe) hpos.le
  have hη : 0 ≤ 1 / (N : ℝ) + η := by
    obtain ⟨v, -, -, hv⟩ := hexp 0 le_rfl
    have := (abs_nonneg _).trans hv
    positivity
  have hp1 : 0 < boltzmann E T x := Real.exp_pos _
  have hp2 : 0 < boltzmann E T (flipAt x i) := Real.exp_pos _
  rcases lt_trichotomy (E x) (E (flipAt x i)) with h | h | h
  · exact (up x h).trans (mul_le_mul_of_nonneg_left (by linarith) hη)
  · have h1 : flipChance exp E T N i (flipAt x i) = 1 := by
      unfold flipChance
      rw [flipAt_flipAt, if_pos h.le]
    have h2 : flipChance exp E T N i x = 1 := by
      unfold flipChance
      rw [if_pos h.ge]
    have h3 : boltzmann E T (flipAt x i) = boltzmann E T x := by
      unfold boltzmann
      rw [h]
    rw [h1, h2, h3, sub_self, abs_zero]
    positivity
  · have := up (flipAt x i) (by rwa [flipAt_flipAt])
    rw [flipAt_flipAt, abs_sub_comm] at this
    exact this.trans (mul_le_mul_of_nonneg_left (by linarith) hη)

/-- **C111**: at a fixed temperature, trying any flips in any order changes the Boltzmann distribution in total by at most
`2 * (1 / N + η)` of its weight per flip tried, `1 / N` being the grid of the random numbers and `η` the error of `exp`. So
without these errors it keeps the distribution. -/
theorem C111_keeps (hp : p.FromCalls) (hs : prepare p = .ok s) (hN : 0 < N) (hT : 0 < T) (hexp : NearExp exp η)
    {ps : List Nat} (hps : ∀ i ∈ ps, i < p.labels.length) (pre tail : List ℚ) (e : List ℤ → ℚ) (acc : Nat) :
    ∑ y ∈ spinVectors p.labels.length,
      |∑ x ∈ spinVectors p.labels.length, boltzmann (p.energyAt p.labels) T x *
          ((chance N ps.length fun d =>
            endsAt y (ps.foldlM (innerStep exp s (pre ++ d ++ tail) T) ⟨x, e x, pre.length, acc⟩) : ℚ) : ℝ) -
        boltzmann (p.energyAt p.labels) T y| ≤
      ps.length * (2 * (1 / N + η)) * ∑ x ∈ spinVectors p.labels.length, boltzmann (p.energyAt p.labels) T x := by
  have hexp' : ∀ a ≤ 0, ∃ v, exp a = .ok v := fun a ha => let ⟨v, hv, _⟩ := hexp a ha; ⟨v, hv⟩
  have h : ∀ y, ∑ x ∈ spinVectors p.labels.length, boltzmann (p.energyAt p.labels) T x *
          ((chance N ps.length fun d =>
            endsAt y (ps.foldlM (innerStep exp s (pre ++ d ++ tail) T) ⟨x, e x, pre.length, acc⟩) : ℚ) : ℝ) =
      ∑ x ∈ spinVectors p.labels.length, boltzmann (p.energyAt p.labels) T x *
        walk (flipChance exp (p.energyAt p.labels) T N) ps x y := fun y =>
    Finset.sum_congr rfl fun x hx => by rw [C111_chain hp hs hN hT hexp' hps hx y le_rfl pre tail (e x) acc]
  simp only [h]
  exact walk_keeps (fun i _ x _ => flipChance_unit hN i x) fun i _ x _ => flip_balance _ hN hT hexp i x

/-! ## Whole runs -/

/-- The same state with more acceptances counted. -/
def more (k : Nat) (t : Inner) : Inner := { t with acceptances := t.acceptances + k }

theorem innerStep_more (rands : List ℚ) (k : Nat) (t : Inner) (i : Nat) :
    innerStep exp s rands T (more k t) i = (innerStep exp s rands T t i).map (more k) := by
  unfold innerStep
  show (calcDiff s i t.x >>= _) = _
  cases calcDiff s i t.x with
  | error => rfl
  | ok diff =>
    simp only [Except.bind_ok]
    show (isAcceptable exp rands t.used diff T >>= _) = _
    cases isAcceptable exp rands t.used diff T with
    | error => rfl
    | ok r =>
      obtain ⟨b, u⟩ := r
      cases b with
      | false => rfl
      | true =>
        simp only [Except.bind_ok, if_true]
        show (listGet t.x i >>= _) = _
        cases listGet t.x i with
        | error => rfl
        | ok xi =>
          simp only [Except.bind_ok]
          show (listSet t.x i (xi * -1) >>= _) = _
          cases listSet t.x i (xi * -1) with
          | error => rfl
          | ok x =>
            simp only [Except.bind_ok, Except.pure_ok, Except.map, more]
            congr 2
            omega

theorem inner_more (rands : List ℚ) (k : Nat) (ps : List Nat) (t : Inner) :
    ps.foldlM (innerStep exp s rands T) (more k t) = (ps.foldlM (innerStep exp s rands T) t).map (more k) := by
  induction ps generalizing t with
  | nil => rfl
  | cons i ps ih =>
    rw [List.foldlM_cons, List.foldlM_cons, innerStep_more]
    cases innerStep exp s rands T t i with
    | error => rfl
    | ok t' => exact ih t'

/-- The orders that a run takes the variables in. -/
def orders {γ : Type} (rng : Rng γ) (mode : Pickup) (n : Nat) : Nat → γ → List Nat
  | 0, _ => []
  | k + 1, g => match mode with
    | .random => (rng.permutation n g).1 ++ orders rng mode n k (rng.permutation n g).2
    | _ => List.range n ++ orders rng mode n k g

theorem orders_lt {γ : Type} {rng : Rng γ} (hr : rng.Ok) (mode : Pickup) (n k : Nat) (g : γ) :
    (orders rng mode n k g).length = k * n ∧ ∀ i ∈ orders rng mode n k g, i < n := by
  induction k generalizing g with
  | zero => simp [orders]
  | succ k ih =>
    cases mode with
    | random =>
      have hperm := hr.permutation n g
      simp only [orders]
      refine ⟨by rw [List.length_append, hperm.length_eq, List.length_range, (ih _).1]; ring, fun i hi => ?_⟩
      rcases List.mem_append.mp hi with hi | hi
      · exact List.mem_range.mp (hperm.subset hi)
      · exact (ih _).2 i hi
    | sequential =>
      simp only [orders]
      refine ⟨by rw [List.length_append, List.length_range, (ih _).1]; ring, fun i hi => ?_⟩
      rcases List.mem_append.mp hi with hi | hi
      · exact List.mem_range.mp hi
      · exact (ih _).2 i hi
    | other =>
      simp only [orders]
      refine ⟨by rw [List.length_append, List.length_range, (ih _).1]; ring, fun i hi => ?_⟩
      rcases List.mem_append.mp hi with hi | hi
      · exact List.mem_range.mp hi
      · exact (ih _).2 i hi

/-- At a fixed temperature the sweeps of a run are one long inner loop. -/
theorem sweeps_flat {γ : Type} {rng : Rng γ} {o : Options} (hc : o.coolingRate = 1) (hm : o.pickup ≠ .other)
    (rands : List ℚ) (k j : Nat) (t : Outer γ) (hrev : t.reversing = false) :
    ((List.range' j k).foldlM (sweepStep rng exp s o rands) t).map (·.x) =
      ((orders rng o.pickup s.size k t.rng).foldlM (innerStep exp s rands t.temperature) ⟨t.x, t.energy, t.used, 0⟩).map
        (·.x) := by
  induction k generalizing j t with
  | zero => rfl
  | succ k ih =>
    obtain ⟨ps, g, h1, h2⟩ : ∃ ps g, pickups rng o.pickup s.size t.rng = .ok (ps, g) ∧
        orders rng o.pickup s.size (k + 1) t.rng = ps ++ orders rng o.pickup s.size k g := by
      cases hp : o.pickup with
      | random => exact ⟨_, _, rfl, rfl⟩
      | sequential => exact ⟨_, _, rfl, rfl⟩
      | other => exact absurd hp hm
    have hstep : sweepStep rng exp s o rands t j =
        ps.foldlM (innerStep exp s rands t.temperature) ⟨t.x, t.energy, t.used, 0⟩ >>= fun r =>
          .ok { x := r.x, energy := r.energy, used := r.used, temperature := t.temperature, target := t.target,
                reversing := false, energyHist := t.energyHist ++ [t.energy],
                temperatureHist := t.temperatureHist ++ [t.temperature],
                acceptanceHist := t.acceptanceHist ++ [r.acceptances], rng := g } := by
      unfold sweepStep
      simp only [hrev, Bool.false_eq_true, if_false, Except.pure_ok, Except.bind_ok, h1, hc, mul_one]
    rw [h2, List.foldlM_append, List.range'_succ, List.foldlM_cons, hstep]
    cases hr : ps.foldlM (innerStep exp s rands t.temperature) ⟨t.x, t.energy, t.used, 0⟩ with
    | error => rfl
    | ok r =>
      simp only [Except.bind_ok]
      have := inner_more (exp := exp) (s := s) (T := t.temperature) rands r.acceptances (orders rng o.pickup s.size k g)
        ⟨r.x, r.energy, r.used, 0⟩
      have hr' : more r.acceptances ⟨r.x, r.energy, r.used, 0⟩ = r := by simp [more]
      rw [hr'] at this
      refine (ih (j + 1) _ ?_).trans ?_
      · rfl
      rw [this]
      cases (orders rng o.pickup s.size k g).foldlM (innerStep exp s rands t.temperature) ⟨r.x, r.energy, r.used, 0⟩ <;> rfl

theorem inner_length (rands : List ℚ) {ps : List Nat} {t t' : Inner}
    (h : ps.foldlM (innerStep exp s rands T) t = .ok t') : t'.x.length = t.x.length := by
  induction ps generalizing t with
  | nil => cases h; rfl
  | cons i ps ih =>
    rw [List.foldlM_cons, bind_eq_ok] at h
    obtain ⟨t1, h1, h2⟩ := h
    rw [ih h2]
    unfold innerStep at h1
    rw [bind_eq_ok] at h1
    obtain ⟨diff, -, h1⟩ := h1
    rw [bind_eq_ok] at h1
    obtain ⟨⟨b, u⟩, -, h1⟩ := h1
    cases b with
    | false => cases h1; rfl
    | true =>
      simp only [if_true] at h1
      rw [bind_eq_ok] at h1
      obtain ⟨xi, -, h1⟩ := h1
      rw [bind_eq_ok] at h1
      obtain ⟨x, hx, h1⟩ := h1
      cases h1
      obtain ⟨-, rfl⟩ := listSet_ok.mp hx
      simp

theorem zip_inj {ls : List String} {x y : List ℤ} (hx : x.length = ls.length) (hy : y.length = ls.length) :
    ls.zip x = ls.zip y ↔ x = y := by
  refine ⟨fun h => ?_, fun h => by rw [h]⟩
  have := congrArg (List.map Prod.snd) h
  rwa [List.map_snd_zip hx.le, List.map_snd_zip hy.le] at this

theorem zip_spins {ls : List String} (hn : ls.Nodup) {x : List ℤ} (hx : x.length = ls.length) (hsp : IsSpins x) :
    Sample.SpinsOn (ls.zip x) ls ∧ (ls.map fun l => (dget (ls.zip x) l).getD 0) = x := by
  have h : ∀ i (hi : i < ls.length), dget (ls.zip x) ls[i] = some (x[i]'(by omega)) := by
    intro i hi
    rw [dget_zip hn (List.getElem?_eq_getElem hi), List.getElem?_eq_getElem (by omega)]
  constructor
  · intro l hl
    obtain ⟨i, hi, rfl⟩ := List.mem_iff_getElem.mp hl
    exact ⟨_, h i hi, hsp _ (List.getElem_mem _)⟩
  · apply List.ext_getElem (by simp [hx])
    intro i h1 h2
    rw [List.getElem_map, h i (by simpa using h1), Option.getD_some]

theorem returns_iff {γ : Type} {rng : Rng γ} {o : Options} (hp : p.FromCalls) (hs : prepare p = .ok s)
    (hc : o.coolingRate = 1) (hm : o.pickup ≠ .other) (hrev : o.reverse = .none) (hn : 0 ≤ o.numSweeps) {x y : List ℤ}
    (hx : x ∈ spinVectors p.labels.length) (hy : y ∈ spinVectors p.labels.length) (g : γ) :
    ∃ e, ∀ d, returns (p.labels.zip y) (annealing (rng.drawing d) exp s o (some (p.labels.zip x)) g) =
      endsAt y ((orders rng o.pickup p.labels.length o.numSweeps.toNat g).foldlM
        (innerStep exp s ([] ++ d ++ []) o.initialTemperature) ⟨x, e, ([] : List ℚ).length, 0⟩) := by
  have hready := fromCalls_ready hp hs
  obtain ⟨hok, hsm⟩ := prepare_ok' hready hs
  obtain ⟨hx1, hx2⟩ := mem_spinVectors.mp hx
  obtain ⟨hy1, -⟩ := mem_spinVectors.mp hy
  obtain ⟨hz1, hz2⟩ := zip_spins hready.nodup hx1 hx2
  obtain ⟨ts, hts⟩ := startState_total (o := o) hok hx1 g (by rw [hrev]; intro h; cases h)
  obtain ⟨f1, -, f3, -, -, -, f7, f8, f9⟩ := startState_ok hok hx1 hx2 hts
  have ht : ts.temperature = o.initialTemperature := by
    rcases f9 with ⟨-, h, -⟩ | ⟨h, -⟩
    · exact h
    · rw [hrev] at h; cases h
  refine ⟨ts.energy, fun d => ?_⟩
  have horders : orders (rng.drawing d) o.pickup p.labels.length o.numSweeps.toNat g =
      orders rng o.pickup p.labels.length o.numSweeps.toNat g := by
    generalize o.numSweeps.toNat = k
    generalize p.labels.length = n
    clear f7 hts
    induction k generalizing g with
    | zero => rfl
    | succ k ih => cases hmode : o.pickup <;> simp only [orders, Rng.drawing] <;> rw [← hmode] <;> congr 1 <;> exact ih _
  have hflat : ((List.range' 0 o.numSweeps.toNat).foldlM (sweepStep (rng.drawing d) exp s o d) { ts with rng := g }).map (·.x) =
      ((orders rng o.pickup p.labels.length o.numSweeps.toNat g).foldlM (innerStep exp s d o.initialTemperature)
        ⟨x, ts.energy, 0, 0⟩).map (·.x) := by
    refine (sweeps_flat hc hm d o.numSweeps.toNat 0 { ts with rng := g } (by simp only [f8, hrev]; rfl)).trans ?_
    simp only [hok.size, horders, ht, f1, f3]
  have hrun : annealing (rng.drawing d) exp s o (some (p.labels.zip x)) g =
      (List.range' 0 o.numSweeps.toNat).foldlM (sweepStep (rng.drawing d) exp s o d) { ts with rng := g } >>= fun t =>
        .ok (⟨decode s.model t.x, t.energy + s.original.offset * 2, t.energyHist, t.temperatureHist, t.acceptanceHist⟩, t.rng) := by
    unfold annealing initialSpins
    simp only [spinsOf_ok hok.toArrays hz1, hz2, Except.bind_ok, Except.pure_ok, hts, if_neg (not_lt.mpr hn), Rng.drawing, f7,
      List.range_eq_range']
  rw [hrun]
  simp only [List.nil_append, List.append_nil, List.length_nil]
  cases h1 : (List.range' 0 o.numSweeps.toNat).foldlM (sweepStep (rng.drawing d) exp s o d) { ts with rng := g } <;>
    cases h2 : (orders rng o.pickup p.labels.length o.numSweeps.toNat g).foldlM (innerStep exp s d o.initialTemperature)
      ⟨x, ts.energy, 0, 0⟩ <;> simp only [h1, h2, Except.map, reduceCtorEq, Except.ok.injEq] at hflat
  · rfl
  · rename_i t r
    have hlen : t.x.length = p.labels.length := by rw [hflat, inner_length d h2, hx1]
    simp only [Except.bind_ok, returns, endsAt]
    rw [decode_eq hok.ready hlen, ← hflat]
    simp only [zip_inj hlen hy1]

/-- **C111**: the same for whole runs of the annealing with cooling rate 1, for any number of sweeps and any orders of the
variables: if the initial states are distributed by Boltzmann, so are the returned samples, up to the errors. -/
theorem C111_annealing {γ : Type} {rng : Rng γ} {o : Options} (hp : p.FromCalls) (hs : prepare p = .ok s) (hr : rng.Ok)
    (hN : 0 < N) (hT : 0 < o.initialTemperature) (hc : o.coolingRate = 1) (hm : o.pickup ≠ .other) (hrev : o.reverse = .none)
    (hn : 0 ≤ o.numSweeps) (hexp : NearExp exp η) (g : γ) :
    ∑ y ∈ spinVectors p.labels.length,
      |∑ x ∈ spinVectors p.labels.length, boltzmann (p.energyAt p.labels) o.initialTemperature x *
          ((chance N (o.numSweeps.toNat * p.labels.length) fun d =>
            returns (p.labels.zip y) (annealing (rng.drawing d) exp s o (some (p.labels.zip x)) g) : ℚ) : ℝ) -
        boltzmann (p.energyAt p.labels) o.initialTemperature y| ≤
      (o.numSweeps.toNat * p.labels.length : ℕ) * (2 * (1 / N + η)) *
        ∑ x ∈ spinVectors p.labels.length, boltzmann (p.energyAt p.labels) o.initialTemperature x := by
  have hexp' : ∀ a ≤ 0, ∃ v, exp a = .ok v := fun a ha => let ⟨v, hv, _⟩ := hexp a ha; ⟨v, hv⟩
  obtain ⟨hl, hlt⟩ := orders_lt hr o.pickup p.labels.length o.numSweeps.toNat g
  have h : ∀ y ∈ spinVectors p.labels.length, ∑ x ∈ spinVectors p.labels.length,
        boltzmann (p.energyAt p.labels) o.initialTemperature x *
          ((chance N (o.numSweeps.toNat * p.labels.length) fun d =>
            returns (p.labels.zip y) (annealing (rng.drawing d) exp s o (some (p.labels.zip x)) g) : ℚ) : ℝ) =
      ∑ x ∈ spinVectors p.labels.length, boltzmann (p.energyAt p.labels) o.initialTemperature x *
        walk (flipChance exp (p.energyAt p.labels) o.initialTemperature N)
          (orders rng o.pickup p.labels.length o.numSweeps.toNat g) x y := by
    intro y hy
    refine Finset.sum_congr rfl fun x hx => ?_
    obtain ⟨e, he⟩ := returns_iff (exp := exp) (rng := rng) hp hs hc hm hrev hn hx hy g
    simp only [he]
    rw [C111_chain hp hs hN hT hexp' hlt hx y hl.le [] [] e 0]
  rw [Finset.sum_congr rfl fun y hy => by rw [h y hy], ← hl]
  exact walk_keeps (fun i _ x _ => flipChance_unit hN i x) fun i _ x _ => flip_balance _ hN hT hexp i x

/-- **C111**: the chances of the samples add up to 1: no run at a fixed temperature raises, and no other sample is
returned. -/
theorem C111_total {γ : Type} {rng : Rng γ} {o : Options} (hp : p.FromCalls) (hs : prepare p = .ok s) (hr : rng.Ok)
    (hN : 0 < N) (hT : 0 < o.initialTemperature) (hc : o.coolingRate = 1) (hm : o.pickup ≠ .other) (hrev : o.reverse = .none)
    (hn : 0 ≤ o.numSweeps) (hexp : ∀ a ≤ 0, ∃ v, exp a = .ok v) (g : γ) {x : List ℤ} (hx : x ∈ spinVectors p.labels.length) :
    ∑ y ∈ spinVectors p.labels.length, chance N (o.numSweeps.toNat * p.labels.length) (fun d =>
      returns (p.labels.zip y) (annealing (rng.drawing d) exp s o (some (p.labels.zip x)) g)) = 1 := by
  obtain ⟨hl, hlt⟩ := orders_lt hr o.pickup p.labels.length o.numSweeps.toNat g
  have h : ∑ y ∈ spinVectors p.labels.length, ((chance N (o.numSweeps.toNat * p.labels.length) (fun d =>
      returns (p.labels.zip y) (annealing (rng.drawing d) exp s o (some (p.labels.zip x)) g)) : ℚ) : ℝ) = 1 := by
    rw [← walk_sum (acc := flipChance exp (p.energyAt p.labels) o.initialTemperature N)
      (ps := orders rng o.pickup p.labels.length o.numSweeps.toNat g) hx]
    refine Finset.sum_congr rfl fun y hy => ?_
    obtain ⟨e, he⟩ := returns_iff (exp := exp) (rng := rng) hp hs hc hm hrev hn hx hy g
    simp only [he]
    rw [C111_chain hp hs hN hT hexp hlt hx y hl.le [] [] e 0]
  refine Rat.cast_injective (α := ℝ) ?_
  rw [Rat.cast_one, ← h]
  exact map_sum (Rat.castHom ℝ) _ _

/-- For every error there is such an `exp`. -/
example (η : ℝ) (hη : 0 < η) : ∃ exp, NearExp exp η := by
  have h : ∀ a : ℚ, ∃ v : ℚ, Real.exp a < v ∧ (v : ℝ) < Real.exp a + η := fun a => exists_rat_btwn (by linarith)
  choose f h1 h2 using h
  refine ⟨fun a => .ok (f a), fun a _ => ⟨f a, rfl, ?_, ?_⟩⟩
  · exact_mod_cast (Real.exp_pos (a : ℝ)).le.trans (h1 a).le
  · rw [abs_le]
    constructor <;> linarith [h1 a, h2 a]

/-- A model, a generator and options that meet the hypotheses. -/
example : Ex.physIsing.FromCalls ∧ (prepare Ex.physIsing).isOk = true ∧ Ex.rng.Ok ∧ Ex.physIsing.labels.length = 2 ∧
    (spinVectors 2).card = 4 ∧ Ex.physIsing.energyAt Ex.physIsing.labels [1, -1] ≠ Ex.physIsing.energyAt Ex.physIsing.labels [-1, -1] ∧
    [1, -1] ∈ spinVectors 2 := by
  refine ⟨Ex.ising_calls, ?_, Ex.rng_ok, ?_, ?_, ?_, ?_⟩ <;> decide +kernel

end Sawatabi.Props
