import Verif.Spec.Boltzmann
import Mathlib.Algebra.Order.BigOperators.Group.Finset
import Mathlib.Algebra.BigOperators.Ring.Finset
import Mathlib.Algebra.Order.Group.Abs
import Mathlib.Tactic.Linarith
import Mathlib.Tactic.Ring
import Mathlib.Tactic.FieldSimp

/-!
# Chains of flips and the distributions they keep
-/

namespace Sawatabi

/-! ## Drawing numbers -/

theorem draws_length (N n : Nat) : (draws N n).length = N ^ n := by
  induction n with
  | zero => rfl
  | succ n ih =>
    simp only [draws, List.length_flatMap, List.length_map, ih, List.map_const', List.sum_replicate, smul_eq_mul]
    simp [grid, pow_succ, mul_comm]

theorem chance_const {N : Nat} (hN : 0 < N) (n : Nat) (b : Bool) : chance N n (fun _ => b) = if b then 1 else 0 := by
  unfold chance
  have h : ((draws N n).length : ℚ) ≠ 0 := by
    rw [draws_length]
    exact_mod_cast (pow_pos hN n).ne'
  cases b with
  | true =>
    rw [if_pos rfl, List.countP_eq_length.mpr (fun _ _ => rfl)]
    exact div_self h
  | false =>
    rw [List.countP_eq_zero.mpr (fun _ _ => by simp)]
    simp

theorem chance_succ {N : Nat} (n : Nat) (f : List ℚ → Bool) :
    chance N (n + 1) f = ((grid N).map fun r => chance N n fun d => f (r :: d)).sum / N := by
  unfold chance
  have h1 : ((draws N (n + 1)).countP f : ℚ) = ((grid N).map fun r => ((draws N n).countP fun d => f (r :: d) : ℚ)).sum := by
    show (((grid N).flatMap fun r => (draws N n).map (r :: ·)).countP f : ℚ) = _
    induction grid N with
    | nil => simp
    | cons r l ih =>
      rw [List.flatMap_cons, List.countP_append, Nat.cast_add, ih, List.map_cons, List.sum_cons, List.countP_map]
      rfl
  have h2 : ((draws N (n + 1)).length : ℚ) = (draws N n).length * N := by
    rw [draws_length, draws_length, pow_succ]
    push_cast
    rfl
  rw [h1, h2, ← div_div]
  congr 1
  induction grid N with
  | nil => simp
  | cons r l ih => rw [List.map_cons, List.sum_cons, add_div, ih]; simp

/-! ## Spin vectors -/

theorem mem_spinVectors {n : Nat} {x : List ℤ} : x ∈ spinVectors n ↔ x.length = n ∧ IsSpins x := by
  induction n generalizing x with
  | zero =>
    simp only [spinVectors, Finset.mem_singleton, List.length_eq_zero_iff]
    exact ⟨fun h => ⟨h, by rw [h]; intro a ha; cases ha⟩, fun h => h.1⟩
  | succ n ih =>
    simp only [spinVectors, Finset.mem_union, Finset.mem_image, ih]
    constructor
    · rintro (⟨y, ⟨h1, h2⟩, rfl⟩ | ⟨y, ⟨h1, h2⟩, rfl⟩)
      · refine ⟨by simp [h1], fun a ha => ?_⟩
        rcases List.mem_cons.mp ha with rfl | ha
        · exact .inl rfl
        · exact h2 a ha
      · refine ⟨by simp [h1], fun a ha => ?_⟩
        rcases List.mem_cons.mp ha with rfl | ha
        · exact .inr rfl
        · exact h2 a ha
    · rintro ⟨h1, h2⟩
      cases x with
      | nil => simp at h1
      | cons a x =>
        have hx : x.length = n ∧ IsSpins x := ⟨by simpa using h1, fun b hb => h2 b (List.mem_cons_of_mem _ hb)⟩
        rcases h2 a List.mem_cons_self with rfl | rfl
        · exact .inl ⟨x, hx, rfl⟩
        · exact .inr ⟨x, hx, rfl⟩

theorem flipAt_mem {n : Nat} {x : List ℤ} (hx : x ∈ spinVectors n) (i : Nat) : flipAt x i ∈ spinVectors n := by
  rw [mem_spinVectors] at hx ⊢
  refine ⟨by simp [flipAt, hx.1], fun a ha => ?_⟩
  by_cases hi : i < x.length
  · unfold flipAt at ha
    rcases List.mem_or_eq_of_mem_set ha with h | rfl
    · exact hx.2 a h
    · rw [List.getElem?_eq_getElem hi, Option.getD_some]
      rcases hx.2 _ (List.getElem_mem hi) with h | h <;> rw [h] <;> simp
  · unfold flipAt at ha
    rw [List.set_eq_of_length_le (by omega)] at ha
    exact hx.2 a ha

theorem flipAt_flipAt (x : List ℤ) (i : Nat) : flipAt (flipAt x i) i = x := by
  by_cases hi : i < x.length
  · unfold flipAt
    rw [List.getElem?_eq_getElem hi, Option.getD_some, List.getElem?_set_self hi, Option.getD_some, List.set_set]
    rw [mul_assoc]
    norm_num
  · have h : flipAt x i = x := List.set_eq_of_length_le (by omega)
    rw [h, h]

theorem sum_flip {n : Nat} (i : Nat) (g : List ℤ → ℝ) : ∑ x ∈ spinVectors n, g (flipAt x i) = ∑ x ∈ spinVectors n, g x :=
  Finset.sum_bij' (fun x _ => flipAt x i) (fun x _ => flipAt x i) (fun _ h => flipAt_mem h i) (fun _ h => flipAt_mem h i)
    (fun x _ => flipAt_flipAt x i) (fun x _ => flipAt_flipAt x i) (fun _ _ => rfl)

/-! ## Chains -/

/-- The chance to get from a state to another by trying the flips `ps` in turn, flip `i` of `x` being done with chance
`acc i x`. -/
def walk (acc : Nat → List ℤ → ℝ) : List Nat → List ℤ → List ℤ → ℝ
  | [], x, y => if x = y then 1 else 0
  | i :: ps, x, y => acc i x * walk acc ps (flipAt x i) y + (1 - acc i x) * walk acc ps x y

variable {acc : Nat → List ℤ → ℝ} {n : Nat}

theorem walk_nonneg {ps : List Nat} (h : ∀ i ∈ ps, ∀ x ∈ spinVectors n, 0 ≤ acc i x ∧ acc i x ≤ 1) {x : List ℤ}
    (hx : x ∈ spinVectors n) (y : List ℤ) : 0 ≤ walk acc ps x y := by
  induction ps generalizing x with
  | nil => unfold walk; split <;> norm_num
  | cons i ps ih =>
    have hi := h i List.mem_cons_self x hx
    have ih := fun x hx => ih (fun j hj => h j (List.mem_cons_of_mem _ hj)) (x := x) hx
    have h1 := mul_nonneg hi.1 (ih _ (flipAt_mem hx i))
    have h2 := mul_nonneg (sub_nonneg.mpr hi.2) (ih _ hx)
    unfold walk
    linarith

theorem walk_sum {ps : List Nat} {x : List ℤ} (hx : x ∈ spinVectors n) : ∑ y ∈ spinVectors n, walk acc ps x y = 1 := by
  induction ps generalizing x with
  | nil => simp [walk, hx]
  | cons i ps ih =>
    simp only [walk, Finset.sum_add_distrib, ← Finset.mul_sum, ih hx, ih (flipAt_mem hx i)]
    ring

/-- A chain that nearly balances weights nearly keeps them: the total change is at most `2 * δ` of the total weight per flip
tried. -/
theorem walk_keeps {ps : List Nat} {μ : List ℤ → ℝ} {δ : ℝ} (h : ∀ i ∈ ps, ∀ x ∈ spinVectors n, 0 ≤ acc i x ∧ acc i x ≤ 1)
    (hb : ∀ i ∈ ps, ∀ x ∈ spinVectors n, |μ (flipAt x i) * acc i (flipAt x i) - μ x * acc i x| ≤ δ * (μ x + μ (flipAt x i))) :
    ∑ y ∈ spinVectors n, |∑ x ∈ spinVectors n, μ x * walk acc ps x y - μ y| ≤
      ps.length * (2 * δ) * ∑ x ∈ spinVectors n, μ x := by
  induction ps with
  | nil =>
    have : ∑ y ∈ spinVectors n, |∑ x ∈ spinVectors n, μ x * walk acc [] x y - μ y| = 0 := by
      refine Finset.sum_eq_zero fun y hy => ?_
      simp [walk, hy]
    rw [this]
    simp
  | cons i ps ih =>
    have h' := fun j (hj : j ∈ ps) => h j (List.mem_cons_of_mem _ hj)
    have ih := ih h' fun j hj => hb j (List.mem_cons_of_mem _ hj)
    have hi := hb i List.mem_cons_self
    clear hb
    generalize hg : (fun x => μ (flipAt x i) * acc i (flipAt x i) - μ x * acc i x) = g at hi
    have hg' : ∀ x, μ (flipAt x i) * acc i (flipAt x i) - μ x * acc i x = g x := fun x => congrFun hg x
    have hstep : ∀ y, ∑ x ∈ spinVectors n, μ x * walk acc (i :: ps) x y =
        ∑ x ∈ spinVectors n, μ x * walk acc ps x y + ∑ x ∈ spinVectors n, g x * walk acc ps x y := by
      intro y
      have e1 : ∑ x ∈ spinVectors n, μ x * walk acc (i :: ps) x y =
          ∑ x ∈ spinVectors n, (μ x * acc i x * walk acc ps (flipAt x i) y) +
            ∑ x ∈ spinVectors n, (μ x * (1 - acc i x) * walk acc ps x y) := by
        rw [← Finset.sum_add_distrib]
        refine Finset.sum_congr rfl fun x _ => ?_
        simp only [walk]
        ring
      have e2 := sum_flip (n := n) i fun x => μ x * acc i x * walk acc ps (flipAt x i) y
      simp only [flipAt_flipAt] at e2
      rw [e1, ← e2, ← Finset.sum_add_distrib, ← Finset.sum_add_distrib]
      refine Finset.sum_congr rfl fun x _ => ?_
      rw [← hg' x]
      ring
    have hsum : ∑ y ∈ spinVectors n, |∑ x ∈ spinVectors n, μ x * walk acc (i :: ps) x y - μ y| ≤
        ∑ y ∈ spinVectors n, |∑ x ∈ spinVectors n, μ x * walk acc ps x y - μ y| +
          ∑ y ∈ spinVectors n, ∑ x ∈ spinVectors n, |g x| * walk acc ps x y := by
      rw [← Finset.sum_add_distrib]
      refine Finset.sum_le_sum fun y _ => ?_
      rw [hstep, add_sub_right_comm]
      refine (abs_add_le _ _).trans (add_le_add le_rfl ((Finset.abs_sum_le_sum_abs _ _).trans (Finset.sum_le_sum fun x hx => ?_)))
      rw [abs_mul, abs_of_nonneg (walk_nonneg h' hx y)]
    have hlast : ∑ y ∈ spinVectors n, ∑ x ∈ spinVectors n, |g x| * walk acc ps x y ≤ 2 * δ * ∑ x ∈ spinVectors n, μ x := by
      rw [Finset.sum_comm]
      have e1 : ∀ x ∈ spinVectors n, ∑ y ∈ spinVectors n, |g x| * walk acc ps x y = |g x| := by
        intro x hx
        rw [← Finset.mul_sum, walk_sum hx, mul_one]
      rw [Finset.sum_congr rfl e1]
      calc ∑ x ∈ spinVectors n, |g x| ≤ ∑ x ∈ spinVectors n, δ * (μ x + μ (flipAt x i)) :=
            Finset.sum_le_sum fun x hx => by rw [← hg' x]; exact hi x hx
        _ = 2 * δ * ∑ x ∈ spinVectors n, μ x := by
            rw [← Finset.mul_sum, Finset.sum_add_distrib, sum_flip i μ]
            ring
    simp only [List.length_cons]
    push_cast
    linarith

end Sawatabi
