import Verif.Props.SolverReach
import Mathlib.Algebra.Order.Floor.Ring
import Mathlib.Data.Rat.Floor

/-!
# How often a flip uphill is accepted (C100)
-/

namespace Sawatabi.Props

variable {p : Physical} {s : Problem} {γ : Type} {rng : Rng γ} {exp : ℚ → Except Err ℚ} {o : Options}

/-- Does this step of the inner loop succeed in a state other than `x`? -/
def turned (x : List ℤ) (r : Except Err Inner) : Bool :=
  match r with
  | .ok t => decide (t.x ≠ x)
  | .error _ => false

theorem countP_below (N m : Nat) : (List.range N).countP (fun k => decide (k < m)) = min N m := by
  induction N with
  | zero => simp
  | succ N ih =>
    rw [List.range_succ, List.countP_append, ih]
    by_cases h : N < m
    · simp [h]; omega
    · simp [h]; omega

theorem step_uphill (hp : p.FromCalls) (hs : prepare p = .ok s) {T : ℚ} {x : List ℤ} (hx : x.length = p.labels.length)
    (hsp : IsSpins x) {i : Nat} (hi : i < p.labels.length) (hd : p.energyAt p.labels x < p.energyAt p.labels (flipAt x i)) {q : ℚ}
    (hT : T ≠ 0) (hq : exp (-(p.energyAt p.labels (flipAt x i) - p.energyAt p.labels x) / T) = .ok q)
    {rands : List ℚ} {u : Nat} {r : ℚ} (hr : rands[u]? = some r) (e : ℚ) (acc : Nat) :
    turned x (innerStep exp s rands T ⟨x, e, u, acc⟩ i) = decide (r < q) := by
  have hready := fromCalls_ready hp hs
  have hlt : i < x.length := by omega
  have hxi := List.getElem?_eq_getElem hlt
  rw [flipAt_some hxi] at hd hq
  have hne : x.set i (x[i] * -1) ≠ x := by
    intro h
    have := congrArg (·[i]?) h
    simp only [List.getElem?_set_self hlt, hxi, Option.some.injEq] at this
    rcases hsp _ (List.getElem_mem hlt) with a | a <;> rw [a] at this <;> norm_num at this
  unfold innerStep
  rw [C45_flip_difference_partial hready hs hx hsp hi hxi, Except.bind_ok]
  unfold isAcceptable
  rw [if_neg (by linarith), if_neg hT, hq, Except.bind_ok, listGet_ok.mpr hr]
  simp only [Except.bind_ok, Except.pure_ok]
  by_cases h : r < q
  · simp only [h, decide_true, if_true, listGet_ok.mpr hxi, Except.bind_ok, listSet_ok.mpr ⟨hlt, rfl⟩]
    unfold turned
    exact decide_eq_true hne
  · simp [h, turned]

/-- Of `N` evenly spaced random numbers, `⌈N * exp (-d / T)⌉` (at most all of them) accept a flip that raises the energy by `d`. -/
theorem C100_share (hp : p.FromCalls) (hs : prepare p = .ok s) {T : ℚ} {x : List ℤ} (hx : x.length = p.labels.length)
    (hsp : IsSpins x) {i : Nat} (hi : i < p.labels.length) (hd : p.energyAt p.labels x < p.energyAt p.labels (flipAt x i)) {q : ℚ}
    (hT : T ≠ 0) (hq : exp (-(p.energyAt p.labels (flipAt x i) - p.energyAt p.labels x) / T) = .ok q)
    {N : Nat} (hN : 0 < N) (pre tail : List ℚ) (e : ℚ) (acc : Nat) :
    (List.range N).countP (fun (k : Nat) => turned x (innerStep exp s (pre ++ ((k : ℚ) / N) :: tail) T ⟨x, e, pre.length, acc⟩ i)) =
      min N ⌈(N : ℚ) * q⌉₊ := by
  rw [← countP_below]
  apply List.countP_congr
  intro k _
  rw [step_uphill hp hs hx hsp hi hd hT hq (r := (k : ℚ) / N) (by simp) e acc]
  have hN' : (0 : ℚ) < N := by exact_mod_cast hN
  simp only [decide_eq_true_eq, Nat.lt_ceil]
  rw [div_lt_iff₀ hN', mul_comm]

/-- So the share of accepting random numbers is within `1 / N` of `exp (-d / T)`. -/
theorem C100_near (hp : p.FromCalls) (hs : prepare p = .ok s) {T : ℚ} {x : List ℤ} (hx : x.length = p.labels.length)
    (hsp : IsSpins x) {i : Nat} (hi : i < p.labels.length) (hd : p.energyAt p.labels x < p.energyAt p.labels (flipAt x i)) {q : ℚ}
    (hT : T ≠ 0) (hq : exp (-(p.energyAt p.labels (flipAt x i) - p.energyAt p.labels x) / T) = .ok q) (h0 : 0 ≤ q) (h1 : q ≤ 1)
    {N : Nat} (hN : 0 < N) (pre tail : List ℚ) (e : ℚ) (acc : Nat) :
    q ≤ ((List.range N).countP (fun (k : Nat) => turned x (innerStep exp s (pre ++ ((k : ℚ) / N) :: tail) T ⟨x, e, pre.length, acc⟩ i)) : ℚ) / N ∧
    ((List.range N).countP (fun (k : Nat) => turned x (innerStep exp s (pre ++ ((k : ℚ) / N) :: tail) T ⟨x, e, pre.length, acc⟩ i)) : ℚ) / N
      < q + 1 / N := by
  rw [C100_share hp hs hx hsp hi hd hT hq hN]
  have hN' : (0 : ℚ) < N := by exact_mod_cast hN
  have hle : ⌈(N : ℚ) * q⌉₊ ≤ N := Nat.ceil_le.mpr (by nlinarith)
  rw [min_eq_right hle]
  constructor
  · rw [le_div_iff₀ hN', mul_comm]
    exact Nat.le_ceil _
  · rw [div_lt_iff₀ hN', add_mul, one_div_mul_cancel hN'.ne', mul_comm q]
    exact Nat.ceil_lt_add_one (by positivity)

/-- What accepts a flip at a temperature accepts every flip by no more at every higher temperature, for a monotone `exp`. -/
theorem C100_monotone (hexp : ∀ a b va vb, a ≤ b → exp a = .ok va → exp b = .ok vb → va ≤ vb) {rands : List ℚ} {u : Nat}
    {d d' T T' : ℚ} (hd : d' ≤ d) (hT : 0 < T) (hTT : T ≤ T') {u' : Nat} (h : isAcceptable exp rands u d T = .ok (true, u'))
    {b : Bool} {v : Nat} (h' : isAcceptable exp rands u d' T' = .ok (b, v)) : b = true := by
  unfold isAcceptable at h h'
  have hT' : 0 < T' := lt_of_lt_of_le hT hTT
  by_cases h0 : d' ≤ 0
  · rw [if_pos h0] at h'
    cases h'; rfl
  · rw [if_neg h0, if_neg hT'.ne', bind_eq_ok] at h'
    rw [if_neg (by linarith), if_neg hT.ne', bind_eq_ok] at h
    obtain ⟨va, e1, h⟩ := h
    obtain ⟨vb, e2, h'⟩ := h'
    rw [bind_eq_ok] at h h'
    obtain ⟨r, e3, h⟩ := h
    obtain ⟨r', e4, h'⟩ := h'
    rw [e3] at e4
    cases e4
    have hle : va ≤ vb := by
      refine hexp _ _ _ _ ?_ e1 e2
      rw [div_le_div_iff₀ hT hT']
      nlinarith [mul_le_mul hd hTT hT.le (by linarith : (0 : ℚ) ≤ d)]
    have hlt : r < va := by
      injection h with h
      simpa using congrArg Prod.fst h
    injection h' with h'
    have h1 := congrArg Prod.fst h'
    exact h1.symm.trans (decide_eq_true (lt_of_lt_of_le hlt hle))

theorem Ex.exp_monotone : ∀ a b va vb, a ≤ b → Ex.exp a = .ok va → Ex.exp b = .ok vb → va ≤ vb := by
  intro a b va vb hab ha hb
  unfold Ex.exp at ha hb
  injection ha with ha
  injection hb with hb
  subst ha hb
  by_cases h1 : a ≤ 0 <;> by_cases h2 : b ≤ 0
  · rw [if_pos h1, if_pos h2]
    exact one_div_le_one_div_of_le (by linarith) (by linarith)
  · rw [if_pos h1, if_neg h2]
    have : 1 / (1 - a) ≤ 1 := by rw [div_le_one (by linarith)]; linarith
    linarith
  · linarith
  · rw [if_neg h1, if_neg h2]; linarith

/-- The flip of spin 0 of the Ising example raises the energy by 14: at temperature 7 a third of the random numbers accept it. -/
example : Ex.physIsing.energyAt Ex.physIsing.labels [1, -1] < Ex.physIsing.energyAt Ex.physIsing.labels (flipAt [1, -1] 0) ∧
    Ex.exp (-(Ex.physIsing.energyAt Ex.physIsing.labels (flipAt [1, -1] 0) - Ex.physIsing.energyAt Ex.physIsing.labels [1, -1]) / 7) =
      .ok (1 / 3) ∧ isAcceptable Ex.exp [1 / 4] 0 14 7 = .ok (true, 1) ∧ isAcceptable Ex.exp [1 / 4] 0 12 8 = .ok (true, 1) := by
  decide +kernel

end Sawatabi.Props
