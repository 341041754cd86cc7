import Verif.Spec.Reach
import Verif.Props.SolverMade

/-!
# Which states the annealing can return (C99)
-/

namespace Sawatabi.Props

variable {p : Physical} {ls : List String} {s : Problem} {γ : Type} {rng : Rng γ} {exp : ℚ → Except Err ℚ} {o : Options}

/-- At this temperature, a flip that raises the energy of the model may be accepted and may be rejected: the number it is
accepted below is strictly between 0 and 1. -/
def _root_.Sawatabi.Physical.Tempered (p : Physical) (ls : List String) (exp : ℚ → Except Err ℚ) (T : ℚ) : Prop :=
  T ≠ 0 ∧ ∀ x i, x.length = ls.length → IsSpins x → i < ls.length → p.energyAt ls x < p.energyAt ls (flipAt x i) →
    ∃ q, exp (-(p.energyAt ls (flipAt x i) - p.energyAt ls x) / T) = .ok q ∧ 0 < q ∧ q < 1

/-- A state the annealing starts from: the given one, or any. -/
def Starts (ls : List String) (init : Option Sample) (x : List ℤ) : Prop :=
  x.length = ls.length ∧ IsSpins x ∧ ∀ st, init = some st → x = ls.map fun l => (dget st l).getD 0

theorem flipAt_length {x : List ℤ} {i : Nat} : (flipAt x i).length = x.length := by simp [flipAt]

theorem flipAt_spins {x : List ℤ} {i : Nat} (h : IsSpins x) : IsSpins (flipAt x i) := by
  intro a ha
  rcases List.mem_or_eq_of_mem_set ha with h' | rfl
  · exact h a h'
  · by_cases hi : i < x.length
    · rw [List.getElem?_eq_getElem hi]
      rcases h _ (List.getElem_mem hi) with e | e <;> simp [e]
    · unfold flipAt at ha
      rw [List.set_eq_of_length_le (by omega)] at ha
      exact h _ ha

theorem flipAt_some {x : List ℤ} {i : Nat} {xi : ℤ} (h : x[i]? = some xi) : flipAt x i = x.set i (xi * -1) := by
  simp [flipAt, h]

theorem path_same {E : List ℤ → ℚ} {ps : List Nat} {x y : List ℤ} (h : SweepPath E ps x y) (hs : IsSpins x) :
    y.length = x.length ∧ IsSpins y := by
  induction h with
  | done => exact ⟨rfl, hs⟩
  | flip _ ih =>
    obtain ⟨h1, h2⟩ := ih (flipAt_spins hs)
    exact ⟨by rw [h1, flipAt_length], h2⟩
  | stay _ _ ih => exact ih hs

theorem reaches_same {E : List ℤ → ℚ} {mode : Pickup} {n k : Nat} {x y : List ℤ} (h : Reaches E mode n k x y) (hs : IsSpins x) :
    y.length = x.length ∧ IsSpins y := by
  induction k generalizing x with
  | zero => cases h; exact ⟨rfl, hs⟩
  | succ k ih =>
    obtain ⟨z, ps, _, h2, h3⟩ := h
    obtain ⟨l1, l2⟩ := path_same h2 hs
    obtain ⟨l3, l4⟩ := ih h3 l2
    exact ⟨by rw [l3, l1], l4⟩

/-! ## Every run follows the specification -/

theorem inner_path (hp : p.Ready ls) (hs : prepare p = .ok s) {rands : List ℚ} {T : ℚ} (ps : List Nat)
    (hps : ∀ i ∈ ps, i < ls.length) {t t' : Inner} (hx : t.x.length = ls.length) (hsp : IsSpins t.x)
    (h : ps.foldlM (innerStep exp s rands T) t = .ok t') : SweepPath (p.energyAt ls) ps t.x t'.x := by
  induction ps generalizing t with
  | nil => cases h; exact .done _
  | cons i ps ih =>
    rw [List.foldlM_cons, bind_eq_ok] at h
    obtain ⟨u, h1, h2⟩ := h
    have hi := hps i (by simp)
    have hlt : i < t.x.length := by omega
    have hxi := List.getElem?_eq_getElem hlt
    have hf := flipAt_some hxi
    by_cases hd : p.energyAt ls (t.x.set i (t.x[i] * -1)) ≤ p.energyAt ls t.x
    · rw [C51_downhill_partial hp hs hx hsp hi hxi hd] at h1
      cases h1
      apply SweepPath.flip
      rw [hf]
      exact ih (fun j hj => hps j (by simp [hj])) (by simpa using hx) (by rw [← hf]; exact flipAt_spins hsp) h2
    · obtain ⟨r, q, _, _, e⟩ := C51_uphill_partial hp hs hx hsp hi hxi (lt_of_not_ge hd) h1
      by_cases hq : r < q
      · rw [if_pos hq] at e
        subst e
        apply SweepPath.flip
        rw [hf]
        exact ih (fun j hj => hps j (by simp [hj])) (by simpa using hx) (by rw [← hf]; exact flipAt_spins hsp) h2
      · rw [if_neg hq] at e
        subst e
        apply SweepPath.stay
        · rw [hf]; exact lt_of_not_ge hd
        · exact ih (t := { t with used := t.used + 1 }) (fun j hj => hps j (by simp [hj])) hx hsp h2

theorem pickups_order (hr : rng.Ok) {mode : Pickup} {n : Nat} {g g' : γ} {ps : List Nat}
    (h : pickups rng mode n g = .ok (ps, g')) : mode.Order n ps := by
  have := pickups_ok hr h
  cases mode with
  | random => exact this
  | sequential => cases h; rfl
  | other => cases h

theorem sweeps_reach (hp : p.Ready ls) (hs : prepare p = .ok s) (hr : rng.Ok) {rands : List ℚ} (k j : Nat) {t t' : Outer γ}
    (hx : t.x.length = ls.length) (hsp : IsSpins t.x)
    (h : (List.range' j k).foldlM (sweepStep rng exp s o rands) t = .ok t') :
    Reaches (p.energyAt ls) o.pickup ls.length k t.x t'.x := by
  induction k generalizing j t with
  | zero => cases h; rfl
  | succ k ih =>
    rw [List.range'_succ, List.foldlM_cons, bind_eq_ok] at h
    obtain ⟨u, h1, h2⟩ := h
    obtain ⟨rev, ps, g, r, c, _, e2, e3, _, rfl⟩ := sweepStep_ok.mp h1
    obtain ⟨hok, _⟩ := prepare_ok' hp hs
    have hpath := inner_path hp hs ps (pickups_lt hr hok e2).1 hx hsp e3
    obtain ⟨l1, l2⟩ := path_same hpath hsp
    have ho := pickups_order hr e2
    rw [hok.size] at ho
    exact ⟨r.x, ps, ho, hpath, ih (j + 1) (by rw [← hx]; exact l1) l2 h2⟩

/-- Whatever is drawn, the state a run returns is one that as many passes of single flips lead to from its initial state. -/
theorem C99_follows_partial (hp : p.Ready ls) (hs : prepare p = .ok s) (hr : rng.Ok) {init : Option Sample} (hi : InitOk ls init)
    {g g' : γ} {a : Annealed} (h : annealing rng exp s o init g = .ok (a, g')) :
    ∃ x y, Starts ls init x ∧ y.length = ls.length ∧ IsSpins y ∧ a.sample = ls.zip y ∧
      Reaches (p.energyAt ls) o.pickup ls.length o.numSweeps.toNat x y := by
  obtain ⟨x, t0, t, rands, hrun⟩ := annealing_iff.mp h
  have hs' := hs
  obtain ⟨hok, rfl⟩ := prepare_ok' hp hs
  obtain ⟨e1, e2, e3, h0, hinv, _, _, _, _, e4, _⟩ := run_facts hok hr hi hrun
  refine ⟨x, t.x, ⟨e1, e2, e4⟩, hinv.inner.length, hinv.inner.spins, ?_, ?_⟩
  · rw [hrun.result]; exact decode_eq hok.ready hinv.inner.length
  · have := hrun.sweeps
    rw [List.range_eq_range'] at this
    have := sweeps_reach hp hs' hr _ 0 h0.inner.length h0.inner.spins this
    rw [e3] at this
    exact this

/-! ## Every path of the specification can be drawn -/

theorem path_rands (hp : p.Ready ls) (hs : prepare p = .ok s) {T : ℚ} (hT : p.Tempered ls exp T) {ps : List Nat} {x y : List ℤ}
    (h : SweepPath (p.energyAt ls) ps x y) (hps : ∀ i ∈ ps, i < ls.length) (hx : x.length = ls.length) (hsp : IsSpins x) :
    ∃ rs : List ℚ, (∀ r ∈ rs, 0 ≤ r ∧ r < 1) ∧ rs.length ≤ ps.length ∧ ∀ (pre tail : List ℚ) (e : ℚ) (acc : Nat), ∃ e' acc',
      ps.foldlM (innerStep exp s (pre ++ rs ++ tail) T) ⟨x, e, pre.length, acc⟩ = .ok ⟨y, e', pre.length + rs.length, acc'⟩ := by
  have step : ∀ {x : List ℤ} {i : Nat}, i < ls.length → x.length = ls.length → IsSpins x → ∀ (rands : List ℚ) (e : ℚ) (u acc : Nat),
      innerStep exp s rands T ⟨x, e, u, acc⟩ i = (do
        let (ok, used) ← isAcceptable exp rands u (p.energyAt ls (flipAt x i) - p.energyAt ls x) T
        if ok then return ⟨flipAt x i, e + (p.energyAt ls (flipAt x i) - p.energyAt ls x), used, acc + 1⟩
        else return ⟨x, e, used, acc⟩) := by
    intro x i hi hx hsp rands e u acc
    have hlt : i < x.length := by omega
    have hxi := List.getElem?_eq_getElem hlt
    unfold innerStep
    simp only [C45_flip_difference_partial hp hs hx hsp hi hxi, Except.bind_ok, flipAt_some hxi]
    congr 1
    funext ⟨ok, used⟩
    cases ok with
    | false => rfl
    | true => simp only [if_true, listGet_ok.mpr hxi, Except.bind_ok, listSet_ok.mpr ⟨hlt, rfl⟩]
  induction h with
  | done x => exact ⟨[], by simp, by simp, fun pre tail e acc => ⟨e, acc, by simp [Except.pure_ok]⟩⟩
  | @flip ps x y i hpath ih =>
    have hi := hps i (by simp)
    obtain ⟨rs, h1, h2, h3⟩ := ih (fun j hj => hps j (by simp [hj])) (by rw [flipAt_length]; exact hx) (flipAt_spins hsp)
    by_cases hd : p.energyAt ls (flipAt x i) ≤ p.energyAt ls x
    · refine ⟨rs, h1, by simp; omega, fun pre tail e acc => ?_⟩
      obtain ⟨e', acc', h4⟩ := h3 pre tail (e + (p.energyAt ls (flipAt x i) - p.energyAt ls x)) (acc + 1)
      refine ⟨e', acc', ?_⟩
      rw [List.foldlM_cons, step hi hx hsp]
      unfold isAcceptable
      rw [if_pos (by linarith)]
      simp only [Except.bind_ok, if_true, Except.pure_ok]
      exact h4
    · obtain ⟨q, hq, hq0, _⟩ := hT.2 x i hx hsp hi (lt_of_not_ge hd)
      refine ⟨0 :: rs, ?_, by simp; omega, fun pre tail e acc => ?_⟩
      · intro r hr
        rcases List.mem_cons.mp hr with rfl | hr
        · exact ⟨le_refl _, by norm_num⟩
        · exact h1 r hr
      obtain ⟨e', acc', h4⟩ := h3 (pre ++ [0]) tail (e + (p.energyAt ls (flipAt x i) - p.energyAt ls x)) (acc + 1)
      refine ⟨e', acc', ?_⟩
      rw [List.foldlM_cons, step hi hx hsp]
      unfold isAcceptable
      rw [if_neg (by linarith), if_neg hT.1]
      have hg : listGet (pre ++ 0 :: rs ++ tail) pre.length = .ok 0 := listGet_ok.mpr (by simp)
      rw [hq, Except.bind_ok, hg]
      simp only [Except.bind_ok, hq0, decide_true, if_true, Except.pure_ok]
      simp only [List.length_append, List.length_cons, List.length_nil, List.append_assoc, List.cons_append, List.nil_append,
        Nat.zero_add] at h4 ⊢
      rw [h4]
      congr 2
      omega
  | @stay ps x y i hup hpath ih =>
    have hi := hps i (by simp)
    obtain ⟨rs, h1, h2, h3⟩ := ih (fun j hj => hps j (by simp [hj])) hx hsp
    obtain ⟨q, hq, hq0, hq1⟩ := hT.2 x i hx hsp hi hup
    refine ⟨q :: rs, ?_, by simp; omega, fun pre tail e acc => ?_⟩
    · intro r hr
      rcases List.mem_cons.mp hr with rfl | hr
      · exact ⟨le_of_lt hq0, hq1⟩
      · exact h1 r hr
    obtain ⟨e', acc', h4⟩ := h3 (pre ++ [q]) tail e acc
    refine ⟨e', acc', ?_⟩
    rw [List.foldlM_cons, step hi hx hsp]
    unfold isAcceptable
    rw [if_neg (by linarith), if_neg hT.1]
    have hg : listGet (pre ++ q :: rs ++ tail) pre.length = .ok q := listGet_ok.mpr (by simp)
    rw [hq, Except.bind_ok, hg]
    simp only [Except.bind_ok, lt_irrefl, decide_false, Bool.false_eq_true, if_false, Except.pure_ok]
    simp only [List.length_append, List.length_cons, List.length_nil, List.append_assoc, List.cons_append, List.nil_append,
      Nat.zero_add] at h4 ⊢
    rw [h4]
    congr 2
    omega

theorem order_perm {mode : Pickup} {n : Nat} {ps : List Nat} (h : mode.Order n ps) : ps.Perm (List.range n) := by
  cases mode with
  | random => exact h
  | sequential => rw [show ps = List.range n from h]
  | other => exact absurd h id

/-- The temperatures a run goes through: falling from the initial one by the cooling rate without reverse options, and as in
C49 with them. -/
def _root_.Sawatabi.Options.Tempers (o : Options) (τ : Nat → ℚ) : Prop :=
  (o.reverse = .none ∧ ∀ k, τ k = o.initialTemperature * o.coolingRate ^ k) ∨
    ∃ (d : List (String × ℚ)) (P R : ℚ), o.reverse = .dict d ∧ dget d "reverse_period" = some P ∧
      dget d "reverse_temperature" = some R ∧ ∀ k, τ k = reverseTemperature ⌈P⌉₊ R o.coolingRate k

/-- The flags, temperatures and target temperatures before each sweep. -/
structure Drives (o : Options) (ρ : Nat → Bool) (τ θ : Nat → ℚ) : Prop where
  phase : ∀ k, phase o (ρ k) k = .ok (ρ (k + 1))
  cool : ∀ k, cool o (ρ (k + 1)) (τ k) (θ k) = .ok (τ (k + 1), θ (k + 1))
  flag : ρ 0 = decide (o.reverse ≠ .none)
  start : o.reverse.isTruthy = false ∧ τ 0 = o.initialTemperature ∧ θ 0 = 0 ∨
    o.reverse.isTruthy = true ∧ τ 0 = tinyTemperature ∧ o.reverse.get "reverse_temperature" = .ok (θ 0)

theorem tempers_drives {τ : Nat → ℚ} (h : o.Tempers τ) : ∃ ρ θ, Drives o ρ τ θ := by
  rcases h with ⟨h, hτ⟩ | ⟨d, P, R, h, hP, hR, hτ⟩
  · refine ⟨fun _ => false, fun _ => 0, fun k => rfl, fun k => ?_, by simp [h], .inl ⟨by rw [h]; rfl, by simp [hτ], rfl⟩⟩
    simp only [Sawatabi.cool, Bool.false_eq_true, if_false, hτ, pow_succ, mul_assoc]
  · have gP : o.reverse.get "reverse_period" = .ok P := by rw [h]; simp [PyReverse.get, hP]
    have gR : o.reverse.get "reverse_temperature" = .ok R := by rw [h]; simp [PyReverse.get, hR]
    have htr : o.reverse.isTruthy = true := by
      rw [h]
      cases d with
      | nil => simp [dget] at hP
      | cons _ _ => rfl
    have hcut : ∀ k : Nat, P ≤ k ↔ ⌈P⌉₊ ≤ k := fun k => Nat.ceil_le.symm
    generalize ⌈P⌉₊ = N at hτ hcut
    clear hP
    refine ⟨fun k => decide (k ≤ N), fun k => R * o.coolingRate ^ min k N, fun k => ?_, fun k => ?_, by simp [h],
      .inr ⟨?_, by simp [hτ, reverseTemperature, tinyTemperature], by simp [gR]⟩⟩
    · unfold Sawatabi.phase
      by_cases hk : k ≤ N
      · simp only [hk, decide_true, if_true, gP, Except.map, hcut]
        congr 1
        by_cases hk' : N ≤ k
        · simp [hk', show ¬ k + 1 ≤ N by omega]
        · simp [hk', show k + 1 ≤ N by omega]
      · simp [hk, show ¬ k + 1 ≤ N by omega]
    · unfold Sawatabi.cool
      by_cases hk : k + 1 ≤ N
      · simp only [hk, decide_true, if_true, gR, Except.map, hτ, reverseTemperature, Nat.succ_ne_zero, if_false,
          min_eq_left hk, min_eq_left (show k ≤ N by omega), pow_succ, Nat.add_eq_zero_iff, one_ne_zero, and_false]
        congr 2
        · ring
        · ring
      · simp only [hk, decide_false, if_false, hτ, Bool.false_eq_true, min_eq_right (show N ≤ k by omega),
          min_eq_right (show N ≤ k + 1 by omega)]
        congr 2
        unfold reverseTemperature
        rw [if_neg (by omega : ¬ k + 1 = 0), if_neg hk]
        by_cases h0 : k = 0
        · have : N = 0 := by omega
          subst h0 this
          simp
        · rw [if_neg h0]
          by_cases hkP : k ≤ N
          · have : N = k := by omega
            subst this
            simp [h0]
          · rw [if_neg hkP, show k + 1 - N = (k - N) + 1 by omega, pow_succ]
            ring
    · exact htr

/-- The orders and random numbers for a sequence of sweeps. -/
theorem reach_rands (hp : p.Ready ls) (hs : prepare p = .ok s) {ρ : Nat → Bool} {τ θ : Nat → ℚ} (hd : Drives o ρ τ θ) (k j : Nat)
    (hT : ∀ i, j ≤ i → i < j + k → p.Tempered ls exp (τ i)) {x y : List ℤ}
    (h : Reaches (p.energyAt ls) o.pickup ls.length k x y) (hx : x.length = ls.length) (hsp : IsSpins x) :
    ∃ (pss : List (List Nat)) (rs : List ℚ), pss.length = k ∧ (∀ ps ∈ pss, o.pickup.Order ls.length ps) ∧
      (∀ r ∈ rs, 0 ≤ r ∧ r < 1) ∧ rs.length ≤ k * ls.length ∧
      ∀ (pre tail : List ℚ) (rng : Rng Nat), (∀ i ps, pss[i]? = some ps → rng.permutation ls.length (j + i) = (ps, j + i + 1)) →
        ∀ t : Outer Nat, t.x = x → t.used = pre.length → t.temperature = τ j → t.target = θ j →
          t.reversing = ρ j → (o.pickup = .random → t.rng = j) →
          ∃ t', (List.range' j k).foldlM (sweepStep rng exp s o (pre ++ rs ++ tail)) t = .ok t' ∧ t'.x = y := by
  induction k generalizing j x with
  | zero =>
    cases h
    exact ⟨[], [], rfl, by simp, by simp, by simp, fun pre tail rng _ t e _ _ _ _ _ => ⟨t, rfl, e⟩⟩
  | succ k ih =>
    obtain ⟨z, ps, h1, h2, h3⟩ := h
    obtain ⟨hok, _⟩ := prepare_ok' hp hs
    have hperm := order_perm h1
    have hlt : ∀ i ∈ ps, i < ls.length := fun i hi => List.mem_range.mp (hperm.subset hi)
    obtain ⟨rs1, a1, a2, a3⟩ := path_rands hp hs (hT j (le_refl _) (by omega)) h2 hlt hx hsp
    obtain ⟨l1, l2⟩ := path_same h2 hsp
    obtain ⟨pss, rs2, b1, b2, b3, b4, b5⟩ := ih (j + 1) (fun i h1 h2 => hT i (by omega) (by omega)) h3 (by rw [l1, hx]) l2
    refine ⟨ps :: pss, rs1 ++ rs2, by simp [b1], ?_, ?_, ?_, ?_⟩
    · intro q hq
      rcases List.mem_cons.mp hq with rfl | hq
      · exact h1
      · exact b2 q hq
    · intro r hr
      rcases List.mem_append.mp hr with hr | hr
      · exact a1 r hr
      · exact b3 r hr
    · have : ps.length = ls.length := by rw [hperm.length_eq, List.length_range]
      rw [List.length_append, Nat.succ_mul]
      omega
    · intro pre tail rng hrng t ht1 ht2 ht3 ht3' ht4 ht5
      obtain ⟨e', acc', c1⟩ := a3 pre (rs2 ++ tail) t.energy 0
      have hpick : ∃ g, pickups rng o.pickup s.size t.rng = .ok (ps, g) ∧ (o.pickup = .random → g = j + 1) := by
        unfold pickups
        rw [hok.size]
        cases hm : o.pickup with
        | random =>
          have := hrng 0 ps rfl
          rw [ht5 hm]
          simp only [Nat.add_zero] at this
          rw [this]
          exact ⟨_, rfl, fun _ => rfl⟩
        | sequential =>
          rw [hm] at h1
          rw [show ps = List.range ls.length from h1]
          exact ⟨_, rfl, by simp⟩
        | other => rw [hm] at h1; exact absurd h1 id
      obtain ⟨g, hpick, hg⟩ := hpick
      have hstep : sweepStep rng exp s o (pre ++ (rs1 ++ rs2) ++ tail) t j = .ok _ := sweepStep_ok.mpr
        ⟨ρ (j + 1), ps, g, _, _, by rw [ht4]; exact hd.phase j, hpick, by
          rw [ht1, ht2, ht3]
          simpa only [List.append_assoc] using c1, by rw [ht3, ht3']; exact hd.cool j, rfl⟩
      rw [List.range'_succ, List.foldlM_cons, hstep, Except.bind_ok]
      have := b5 (pre ++ rs1) tail rng (fun i q hq => by
        have := hrng (i + 1) q (by simpa using hq)
        rw [show j + 1 + i = j + (i + 1) by omega]
        exact this)
      simp only [← List.append_assoc] at this ⊢
      exact this _ rfl (by simp) rfl rfl rfl hg

/-- A generator that draws the given bits, numbers and orders. -/
def scripted (n : Nat) (bits : List Bool) (rs : List ℚ) (pss : List (List Nat)) : Rng Nat where
  integers m g := ((bits ++ List.replicate m false).take m, g)
  random m g := ((rs ++ List.replicate m 0).take m, g)
  permutation m g := (if m = n then (pss[g]?).getD (List.range n) else List.range m, g + 1)

theorem scripted_ok {n : Nat} {bits : List Bool} {rs : List ℚ} {pss : List (List Nat)} (hrs : ∀ r ∈ rs, 0 ≤ r ∧ r < 1)
    (hps : ∀ ps ∈ pss, ps.Perm (List.range n)) : (scripted n bits rs pss).Ok := by
  refine ⟨fun m g => by simp [scripted], fun m g => by simp [scripted], fun m g r hr => ?_, fun m g => ?_⟩
  · have := List.mem_of_mem_take hr
    rcases List.mem_append.mp this with h | h
    · exact hrs r h
    · rw [(List.mem_replicate.mp h).2]; norm_num
  · simp only [scripted]
    by_cases hm : m = n
    · rw [if_pos hm, hm]
      cases hg : pss[g]? with
      | none => exact List.Perm.refl _
      | some ps => exact hps ps (List.mem_of_getElem? hg)
    · rw [if_neg hm]

/-- Every state that the passes lead to is returned for some draws, if the temperatures leave flips uphill open. -/
theorem C99_drawn_partial (hp : p.Ready ls) (hs : prepare p = .ok s) {τ : Nat → ℚ} (hτ : o.Tempers τ)
    (hn : 0 ≤ o.numSweeps) (hT : ∀ k < o.numSweeps.toNat, p.Tempered ls exp (τ k)) {init : Option Sample}
    (hi : InitOk ls init) {x y : List ℤ} (hx : Starts ls init x)
    (h : Reaches (p.energyAt ls) o.pickup ls.length o.numSweeps.toNat x y) :
    ∃ rng : Rng Nat, rng.Ok ∧ ∃ a g', annealing rng exp s o init 0 = .ok (a, g') ∧ a.sample = ls.zip y := by
  obtain ⟨ρ, θ, hd⟩ := tempers_drives hτ
  obtain ⟨pss, rs, b1, b2, b3, b4, b5⟩ := reach_rands hp hs hd o.numSweeps.toNat 0 (fun i _ h => hT i (by omega)) h hx.1 hx.2.1
  obtain ⟨hok, hsm⟩ := prepare_ok' hp hs
  have hrng := scripted_ok (n := ls.length) (bits := x.map fun a => decide (a = 1)) b3 fun ps hps => order_perm (b2 ps hps)
  refine ⟨scripted ls.length (x.map fun a => decide (a = 1)) rs pss, hrng, ?_⟩
  have hinit : initialSpins (scripted ls.length (x.map fun a => decide (a = 1)) rs pss) s init 0 = .ok (x, 0) := by
    unfold initialSpins
    cases init with
    | none =>
      simp only [scripted, hok.size]
      rw [List.take_append_of_le_length (by simp [hx.1]), List.take_of_length_le (by simp [hx.1]), List.map_map]
      congr 2
      conv_rhs => rw [← List.map_id x]
      apply List.map_congr_left
      intro a ha
      rcases hx.2.1 a ha with rfl | rfl <;> simp
    | some st => simp only [spinsOf_ok hok.toArrays hi, Except.bind_ok, Except.pure_ok, hx.2.2 st rfl]
  obtain ⟨ts, hts⟩ := startState_total (o := o) hok hx.1 (0 : Nat) (by
    intro h
    rcases hd.start with ⟨h', _⟩ | ⟨_, _, h'⟩
    · rw [h] at h'; cases h'
    · exact ⟨_, h'⟩)
  obtain ⟨f1, _, f3, _, _, _, f7, f8, f9⟩ := startState_ok hok hx.1 hx.2.1 hts
  have hstart : ts.temperature = τ 0 ∧ ts.target = θ 0 := by
    rcases f9 with ⟨h, e1, e2⟩ | ⟨h, e1, e2⟩ <;> rcases hd.start with ⟨h', e3, e4⟩ | ⟨h', e3, e4⟩
    · exact ⟨by rw [e1, e3], by rw [e2, e4]⟩
    · rw [h] at h'; cases h'
    · rw [h] at h'; cases h'
    · rw [e2] at e4
      exact ⟨by rw [e1, e3], Except.ok.inj e4⟩
  have hr : ((scripted ls.length (x.map fun a => decide (a = 1)) rs pss).random (o.numSweeps.toNat * s.size) ts.rng) =
      ([] ++ rs ++ (List.replicate (o.numSweeps.toNat * s.size) 0).take (o.numSweeps.toNat * s.size - rs.length), ts.rng) := by
    simp only [scripted]
    rw [List.take_append, List.take_of_length_le (by rw [hok.size]; exact b4)]
    rfl
  obtain ⟨t', d1, d2⟩ := b5 [] ((List.replicate (o.numSweeps.toNat * s.size) 0).take (o.numSweeps.toNat * s.size - rs.length))
    (scripted ls.length (x.map fun a => decide (a = 1)) rs pss)
    (fun i ps hps => by simp only [scripted, if_true, Nat.zero_add, hps, Option.getD_some])
    { ts with rng := ts.rng } f1 f3 hstart.1 hstart.2 (by simp only [f8, hd.flag]) (fun _ => f7)
  have hlen := (reaches_same h hx.2.1).1
  refine ⟨_, _, annealing_iff.mpr ⟨x, { ts with rng := ts.rng }, t', _, ⟨0, ts, hinit, hts, ?_, rfl⟩, hn, ?_, rfl, rfl⟩, ?_⟩
  · rw [hr]
  · rw [hr, List.range_eq_range']; exact d1
  · simp only
    rw [d2]
    exact decode_eq hok.ready (by rw [hlen, hx.1])

/-! ## Particular states -/

theorem path_append {E : List ℤ → ℚ} {ps qs : List Nat} {x y z : List ℤ} (h1 : SweepPath E ps x y) (h2 : SweepPath E qs y z) :
    SweepPath E (ps ++ qs) x z := by
  induction h1 with
  | done => exact h2
  | flip _ ih => exact .flip (ih h2)
  | stay hu _ ih => exact .stay hu (ih h2)

theorem path_flips {E : List ℤ → ℚ} (ps : List Nat) (x : List ℤ) : SweepPath E ps x (ps.foldl flipAt x) := by
  induction ps generalizing x with
  | nil => exact .done _
  | cons i ps ih => exact .flip (ih _)

theorem path_stays {E : List ℤ → ℚ} {n : Nat} {x : List ℤ} (h : StrictOptimum E n x) (ps : List Nat) (hps : ∀ i ∈ ps, i < n) :
    SweepPath E ps x x := by
  induction ps with
  | nil => exact .done _
  | cons i ps ih => exact .stay (h i (hps i (by simp))) (ih fun j hj => hps j (by simp [hj]))

theorem flipAt_get (x : List ℤ) (i j : Nat) : (flipAt x i)[j]? = (x[j]?).map fun a => if i = j then a * -1 else a := by
  unfold flipAt
  rw [List.getElem?_set]
  by_cases h : i = j
  · subst h
    by_cases hi : i < x.length
    · simp [hi, List.getElem?_eq_getElem hi]
    · simp [hi]
  · simp [h]

theorem flips_get (ps : List Nat) (x : List ℤ) (j : Nat) :
    (ps.foldl flipAt x)[j]? = (x[j]?).map fun a => a * (-1) ^ ps.count j := by
  induction ps generalizing x with
  | nil => simp
  | cons i ps ih =>
    rw [List.foldl_cons, ih, flipAt_get, Option.map_map]
    congr 1
    funext a
    by_cases h : i = j
    · subst h
      simp only [Function.comp_apply, if_true, List.count_cons_self, pow_succ]
      ring
    · simp [h, List.count_cons_of_ne]

theorem flips_all {n : Nat} {ps : List Nat} {x : List ℤ} (hps : ps.Perm (List.range n)) (hx : x.length = n) :
    ps.foldl flipAt x = x.map fun a => a * -1 := by
  apply List.ext_getElem?
  intro j
  rw [flips_get, List.getElem?_map]
  by_cases hj : j < x.length
  · have : ps.count j = 1 := by
      rw [hps.count_eq]
      exact List.count_eq_one_of_mem List.nodup_range (List.mem_range.mpr (by omega))
    rw [this, pow_one]
  · simp [List.getElem?_eq_none (show x.length ≤ j by omega)]

/-- Flipping the places where two states differ. -/
theorem flips_differ {n : Nat} {x y : List ℤ} (hx : x.length = n) (hy : y.length = n) (sx : IsSpins x) (sy : IsSpins y) :
    ((List.range n).filter fun i => decide (x[i]? ≠ y[i]?)).foldl flipAt x = y := by
  apply List.ext_getElem?
  intro j
  rw [flips_get]
  by_cases hj : j < n
  · have hxj := List.getElem?_eq_getElem (show j < x.length by omega)
    have hyj := List.getElem?_eq_getElem (show j < y.length by omega)
    by_cases he : x[j]? = y[j]?
    · rw [List.count_eq_zero_of_not_mem (by simp [he]), ← he]
      simp
    · rw [List.count_eq_one_of_mem (List.nodup_range.filter _) (by simp [he, hj]), hxj, hyj]
      rw [hxj, hyj] at he
      simp only [Option.some.injEq] at he
      simp only [pow_one, Option.map_some, Option.some.injEq]
      rcases sx _ (List.getElem_mem (show j < x.length by omega)) with a | a <;>
        rcases sy _ (List.getElem_mem (show j < y.length by omega)) with b | b <;> rw [a, b] <;> first | rfl | (rw [a, b] at he; exact absurd rfl he)
  · rw [List.getElem?_eq_none (by omega), List.getElem?_eq_none (by omega)]
    rfl

theorem reaches_negated {E : List ℤ → ℚ} {mode : Pickup} (hm : mode ≠ .other) {n : Nat} (k : Nat) {x : List ℤ} (hx : x.length = n) :
    Reaches E mode n k x (x.map fun a => a * (-1) ^ k) := by
  induction k generalizing x with
  | zero => simp [Reaches]
  | succ k ih =>
    refine ⟨x.map fun a => a * -1, List.range n, ?_, ?_, ?_⟩
    · cases mode with
      | random => exact List.Perm.refl _
      | sequential => rfl
      | other => exact absurd rfl hm
    · rw [← flips_all (List.Perm.refl _) hx]
      exact path_flips _ _
    · have := ih (x := x.map fun a => a * -1) (by simpa using hx)
      rw [List.map_map] at this
      convert this using 2
      funext a
      simp only [Function.comp_apply, pow_succ]
      ring

theorem optimum_path {E : List ℤ → ℚ} {n : Nat} {x y : List ℤ} (hx : x.length = n) (hy : y.length = n) (sx : IsSpins x)
    (sy : IsSpins y) (ho : StrictOptimum E n y) : ∃ ps, ps.Perm (List.range n) ∧ SweepPath E ps x y := by
  refine ⟨_, List.filter_append_perm (fun i => decide (x[i]? ≠ y[i]?)) _, ?_⟩
  apply path_append (y := y)
  · have := path_flips (E := E) ((List.range n).filter fun i => decide (x[i]? ≠ y[i]?)) x
    rwa [flips_differ hx hy sx sy] at this
  · exact path_stays ho _ fun i hi => List.mem_range.mp (List.mem_of_mem_filter hi)

theorem optimum_leave {E : List ℤ → ℚ} {n : Nat} {x y : List ℤ} (hx : x.length = n) (hy : y.length = n) (sx : IsSpins x)
    (sy : IsSpins y) (ho : StrictOptimum E n x) : ∃ ps, ps.Perm (List.range n) ∧ SweepPath E ps x y := by
  refine ⟨_, List.perm_append_comm.trans (List.filter_append_perm (fun i => decide (x[i]? ≠ y[i]?)) _), ?_⟩
  apply path_append (y := x)
  · exact path_stays ho _ fun i hi => List.mem_range.mp (List.mem_of_mem_filter hi)
  · have := path_flips (E := E) ((List.range n).filter fun i => decide (x[i]? ≠ y[i]?)) x
    rwa [flips_differ hx hy sx sy] at this

theorem reaches_append {E : List ℤ → ℚ} {mode : Pickup} {n k j : Nat} {x y z : List ℤ} (h1 : Reaches E mode n k x y)
    (h2 : Reaches E mode n j y z) : Reaches E mode n (k + j) x z := by
  induction k generalizing x with
  | zero => cases h1; simpa using h2
  | succ k ih =>
    obtain ⟨w, ps, a, b, c⟩ := h1
    rw [show k + 1 + j = (k + j) + 1 by omega]
    exact ⟨w, ps, a, b, ih c⟩

theorem reaches_rest {E : List ℤ → ℚ} {n : Nat} {x : List ℤ} (ho : StrictOptimum E n x) (k : Nat) :
    Reaches E .random n k x x := by
  induction k with
  | zero => rfl
  | succ k ih => exact ⟨x, List.range n, List.Perm.refl _, path_stays ho _ fun i hi => List.mem_range.mp hi, ih⟩

/-! ## C99: which states the annealing can return -/

/-- The states a run can return, over all draws, are exactly those that `num_sweeps` passes of single flips lead to, each
leaving a spin alone only where turning it raises the energy. -/
theorem C99_reachable (hp : p.FromCalls) (hs : prepare p = .ok s) {τ : Nat → ℚ} (hτ : o.Tempers τ) (hn : 0 ≤ o.numSweeps)
    (hT : ∀ k < o.numSweeps.toNat, p.Tempered p.labels exp (τ k)) {init : Option Sample}
    (hi : InitOk p.varsSet init) {y : List ℤ} (hy : y.length = p.labels.length) :
    (∃ rng : Rng Nat, rng.Ok ∧ ∃ g a g', annealing rng exp s o init g = .ok (a, g') ∧ a.sample = p.labels.zip y) ↔
      ∃ x, Starts p.labels init x ∧ Reaches (p.energyAt p.labels) o.pickup p.labels.length o.numSweeps.toNat x y := by
  have hr := fromCalls_ready hp hs
  have hi' := initOk_labels hp hs hi
  constructor
  · rintro ⟨rng, hrng, g, a, g', h, he⟩
    obtain ⟨x, y', h1, h2, _, h3, h4⟩ := C99_follows_partial hr hs hrng hi' h
    have : y' = y := by
      rw [h3] at he
      have := congrArg (List.map Prod.snd) he
      rwa [List.map_snd_zip (by omega), List.map_snd_zip (by omega)] at this
    exact ⟨x, h1, this ▸ h4⟩
  · rintro ⟨x, h1, h2⟩
    obtain ⟨rng, hrng, a, g', h⟩ := C99_drawn_partial hr hs hτ hn hT hi' h1 h2
    exact ⟨rng, hrng, 0, a, g', h⟩

/-- For any generator and any options: the returned state is one of these. -/
theorem C99_follows (hp : p.FromCalls) (hs : prepare p = .ok s) (hr : rng.Ok) {init : Option Sample} (hi : InitOk p.varsSet init)
    {g g' : γ} {a : Annealed} (h : annealing rng exp s o init g = .ok (a, g')) :
    ∃ x y, Starts p.labels init x ∧ y.length = p.labels.length ∧ IsSpins y ∧ a.sample = p.labels.zip y ∧
      Reaches (p.energyAt p.labels) o.pickup p.labels.length o.numSweeps.toNat x y :=
  C99_follows_partial (fromCalls_ready hp hs) hs hr (initOk_labels hp hs hi) h

/-- From a random initial state, a run may return any state. -/
theorem C99_every_state (hp : p.FromCalls) (hs : prepare p = .ok s) {τ : Nat → ℚ} (hτ : o.Tempers τ) (hm : o.pickup ≠ .other)
    (hn : 0 ≤ o.numSweeps)
    (hT : ∀ k < o.numSweeps.toNat, p.Tempered p.labels exp (τ k)) {y : List ℤ}
    (hy : y.length = p.labels.length) (hsp : IsSpins y) :
    ∃ rng : Rng Nat, rng.Ok ∧ ∃ g a g', annealing rng exp s o none g = .ok (a, g') ∧ a.sample = p.labels.zip y := by
  refine (C99_reachable hp hs hτ hn hT (init := none) trivial hy).mpr
    ⟨y.map fun a => a * (-1) ^ o.numSweeps.toNat, ⟨by simpa using hy, ?_, by simp⟩, ?_⟩
  · intro a ha
    obtain ⟨b, hb, rfl⟩ := List.mem_map.mp ha
    rcases neg_one_pow_eq_or ℤ o.numSweeps.toNat with e | e <;> rcases hsp b hb with rfl | rfl <;> simp [e]
  · have := reaches_negated (E := p.energyAt p.labels) hm o.numSweeps.toNat (x := y.map fun a => a * (-1) ^ o.numSweeps.toNat)
      (n := p.labels.length) (by simpa using hy)
    rw [List.map_map] at this
    convert this using 1
    conv_lhs => rw [← List.map_id y]
    apply List.map_congr_left
    intro a _
    simp only [Function.comp_apply, id]
    rw [mul_assoc, ← mul_pow]
    simp

/-- From any initial state, one or more sweeps in random order may return any state that no single flip keeps or lowers the
energy of: in particular an optimum that is the only one. -/
theorem C99_optimum (hp : p.FromCalls) (hs : prepare p = .ok s) {τ : Nat → ℚ} (hτ : o.Tempers τ) (hm : o.pickup = .random)
    (hn : 0 < o.numSweeps)
    (hT : ∀ k < o.numSweeps.toNat, p.Tempered p.labels exp (τ k)) {init : Option Sample}
    (hi : InitOk p.varsSet init) {x y : List ℤ} (hx : Starts p.labels init x) (hy : y.length = p.labels.length) (hsp : IsSpins y)
    (ho : StrictOptimum (p.energyAt p.labels) p.labels.length y) :
    ∃ rng : Rng Nat, rng.Ok ∧ ∃ g a g', annealing rng exp s o init g = .ok (a, g') ∧ a.sample = p.labels.zip y := by
  refine (C99_reachable hp hs hτ hn.le hT hi hy).mpr ⟨x, hx, ?_⟩
  obtain ⟨ps, h1, h2⟩ := optimum_path hx.1 hy hx.2.1 hsp ho
  rw [hm, show o.numSweeps.toNat = 1 + (o.numSweeps.toNat - 1) by omega]
  exact reaches_append ⟨y, ps, h1, h2, rfl⟩ (reaches_rest ho _)

/-- If the model has such a state at all, two or more sweeps in random order may lead from any initial state to any state. -/
theorem C99_connected (hp : p.FromCalls) (hs : prepare p = .ok s) {τ : Nat → ℚ} (hτ : o.Tempers τ) (hm : o.pickup = .random)
    (hn : 2 ≤ o.numSweeps)
    (hT : ∀ k < o.numSweeps.toNat, p.Tempered p.labels exp (τ k)) {init : Option Sample}
    (hi : InitOk p.varsSet init) {x y z : List ℤ} (hx : Starts p.labels init x) (hy : y.length = p.labels.length) (hsp : IsSpins y)
    (hz : z.length = p.labels.length) (hsz : IsSpins z) (ho : StrictOptimum (p.energyAt p.labels) p.labels.length z) :
    ∃ rng : Rng Nat, rng.Ok ∧ ∃ g a g', annealing rng exp s o init g = .ok (a, g') ∧ a.sample = p.labels.zip y := by
  refine (C99_reachable hp hs hτ (by omega) hT hi hy).mpr ⟨x, hx, ?_⟩
  obtain ⟨ps, h1, h2⟩ := optimum_path hx.1 hz hx.2.1 hsz ho
  obtain ⟨qs, h3, h4⟩ := optimum_leave hz hy hsz hsp ho
  rw [hm, show o.numSweeps.toNat = 1 + ((o.numSweeps.toNat - 2) + 1) by omega]
  exact reaches_append (y := z) ⟨z, ps, h1, h2, rfl⟩ (reaches_append (reaches_rest ho _) ⟨y, qs, h3, h4, rfl⟩)

/-! ### Examples -/

theorem Ex.tempered (p : Physical) (ls : List String) {T : ℚ} (hT : 0 < T) : p.Tempered ls Ex.exp T := by
  refine ⟨hT.ne', fun x i _ _ _ h => ?_⟩
  have h1 : -(p.energyAt ls (flipAt x i) - p.energyAt ls x) / T < 0 := div_neg_of_neg_of_pos (by linarith) hT
  unfold Ex.exp
  rw [if_pos h1.le]
  refine ⟨_, rfl, one_div_pos.mpr (by linarith), ?_⟩
  rw [div_lt_one (by linarith)]
  linarith

/-- The temperatures of the example options, and a state of the Ising example that no flip keeps or lowers the energy of. -/
example : (∀ k < Ex.options.numSweeps.toNat,
      Ex.physIsing.Tempered Ex.physIsing.labels Ex.exp (Ex.options.initialTemperature * Ex.options.coolingRate ^ k)) ∧
    StrictOptimum (Ex.physIsing.energyAt Ex.physIsing.labels) Ex.physIsing.labels.length [1, -1] ∧
    Starts Ex.physIsing.labels (some [("x[0]", 1), ("x[1]", 1)]) [1, 1] ∧ Ex.options.pickup = .random := by
  refine ⟨fun k _ => Ex.tempered _ _ (by unfold Ex.options; positivity), ?_, ⟨by decide +kernel, by unfold IsSpins; decide, ?_⟩, rfl⟩
  · unfold StrictOptimum; decide +kernel
  · rintro _ ⟨⟩; decide +kernel

/-- Temperatures without and with reverse options. -/
example : Ex.options.Tempers (fun k => Ex.options.initialTemperature * Ex.options.coolingRate ^ k) ∧
    let o := { Ex.options with reverse := .dict [("reverse_period", 2), ("reverse_temperature", 8)] }
    o.Tempers (reverseTemperature 2 8 o.coolingRate) ∧
      ∀ k < o.numSweeps.toNat, Ex.physIsing.Tempered Ex.physIsing.labels Ex.exp (reverseTemperature 2 8 o.coolingRate k) := by
  refine ⟨.inl ⟨rfl, fun _ => rfl⟩, .inr ⟨_, 2, 8, rfl, by decide +kernel, by decide +kernel, fun _ => rfl⟩, fun k _ => ?_⟩
  exact Ex.tempered _ _ (C49_positive (by norm_num [Ex.options]) (by norm_num [Ex.options]) (by norm_num) k)

/-- The ends of the passes over the given spins, listed. -/
def pathEnds (E : List ℤ → ℚ) : List Nat → List ℤ → List (List ℤ)
  | [], x => [x]
  | i :: ps, x => pathEnds E ps (flipAt x i) ++ if E x < E (flipAt x i) then pathEnds E ps x else []

theorem mem_pathEnds {E : List ℤ → ℚ} {ps : List Nat} {x y : List ℤ} (h : SweepPath E ps x y) : y ∈ pathEnds E ps x := by
  induction h with
  | done => simp [pathEnds]
  | flip _ ih => exact List.mem_append_left _ ih
  | stay hu _ ih =>
    refine List.mem_append_right _ ?_
    rw [if_pos hu]
    exact ih

/-- A model whose two optima differ in one variable: `- x[0] - x[0] * x[1] - 3 * x[1]`. -/
def Ex.flatOps : List Op := [.variables "x" [2], .add 10 (.var Ex.x0) (.str "") (.num (-1)) (.num 1) .none .none,
  .add 11 (.tuple [some Ex.x0, some Ex.x1]) (.str "") (.num (-1)) (.num 1) .none .none,
  .add 12 (.var Ex.x1) (.str "") (.num (-3)) (.num 1) .none .none]

def Ex.flatModel : LModel := Ex.flatOps.foldl (Op.step ⟨0, fun _ => ""⟩) (LModel.new .ising "303")

def Ex.physFlat : Physical :=
  match (toPhysical ⟨0, fun _ => ""⟩ (fun _ _ => 0) (fun _ => "1") []).run Ex.flatModel with
  | .ok p _ => p
  | .error _ _ => ⟨.ising, [], [], 0, [], [], []⟩

theorem Ex.flat_made : Ex.physFlat.FromCalls :=
  ⟨_, fun _ _ => 0, fun _ => "1", [], Ex.flatModel, _, made_ops _ (.new _ _) (by simp [Ex.flatOps]) fun _ _ _ => trivial, by simp, rfl⟩

/-- Not every state can be returned from every initial state: from an optimum of this model, one sweep never returns to this
optimum, whatever is drawn and at every temperature, although no state has a lower energy. -/
theorem C99_any_start_refuted : ∃ (p : Physical) (s : Problem) (x : List ℤ), p.FromCalls ∧ prepare p = .ok s ∧
    x.length = p.labels.length ∧ IsSpins x ∧
    (∀ y, y.length = p.labels.length → IsSpins y → p.energyAt p.labels x ≤ p.energyAt p.labels y) ∧
    ∀ (γ : Type) (rng : Rng γ) (exp : ℚ → Except Err ℚ) (o : Options) (g g' : γ) (a : Annealed), rng.Ok → o.numSweeps = 1 →
      annealing rng exp s o (some (p.labels.zip x)) g = .ok (a, g') → a.sample ≠ p.labels.zip x := by
  have hl : Ex.physFlat.labels = ["x[0]", "x[1]"] := by decide +kernel
  obtain ⟨s, hs⟩ : ∃ s, prepare Ex.physFlat = .ok s := by
    have : (prepare Ex.physFlat).isOk = true := by decide +kernel
    cases h : prepare Ex.physFlat with
    | ok s => exact ⟨s, rfl⟩
    | error e => rw [h] at this; cases this
  refine ⟨Ex.physFlat, s, [1, -1], Ex.flat_made, hs, by rw [hl]; rfl, by unfold IsSpins; decide, ?_, ?_⟩
  · intro y hy hsp
    rw [hl] at hy ⊢
    match y, hy with
    | [a, b], _ =>
      rcases hsp a (by simp) with rfl | rfl <;> rcases hsp b (by simp) with rfl | rfl <;> decide +kernel
  · intro γ rng exp o g g' a hr hn h he
    have hi : Sample.SpinsOn (Ex.physFlat.labels.zip [1, -1]) Ex.physFlat.varsSet := by
      unfold Sample.SpinsOn; decide +kernel
    obtain ⟨x, y, hx, hy, _, e, hreach⟩ := C99_follows (init := some _) Ex.flat_made hs hr hi h
    have hx' := hx.2.2 _ rfl
    have hy' : y = [1, -1] := by
      rw [e, hl] at he
      rw [hl] at hy
      have := congrArg (List.map Prod.snd) he
      rwa [List.map_snd_zip (by omega), List.map_snd_zip (by simp)] at this
    have hx'' : x = [1, -1] := by
      rw [hx', hl]; decide +kernel
    rw [hn, hx'', hy'] at hreach
    obtain ⟨z, ps, h1, h2, rfl⟩ := hreach
    have hperm := order_perm h1
    rw [hl] at hperm
    have hps : ps = [0, 1] ∨ ps = [1, 0] := by
      match ps, hperm.length_eq with
      | [i, j], _ =>
        have hi := List.mem_range.mp (hperm.subset (List.mem_cons_self (a := i)))
        have hj := List.mem_range.mp (hperm.subset (show j ∈ [i, j] by simp))
        have hne : i ≠ j := by
          have := hperm.nodup_iff.mpr List.nodup_range
          simpa using this
        simp only [List.length_cons, List.length_nil, Nat.zero_add, Nat.reduceAdd] at hi hj
        rcases (show i = 0 ∨ i = 1 by omega) with rfl | rfl
        · left; rw [show j = 1 by omega]
        · right; rw [show j = 0 by omega]
    have hmem := mem_pathEnds h2
    revert hmem
    rcases hps with rfl | rfl <;> decide +kernel

end Sawatabi.Props
