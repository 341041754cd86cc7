import Verif.Spec.Orders
import Verif.Lemmas.Boltzmann
import Verif.Spec.Reach
import Mathlib.Tactic.Positivity
import Mathlib.Algebra.BigOperators.Field

/-!
# Chains of sweeps in random order forget where they started
-/

namespace Sawatabi

/-! ## Distributions on a finite set -/

section
variable {α : Type} {S : Finset α} {P : α → α → ℝ} {ε : ℝ}

/-- If every state leads to every state with chance `ε` or more, differences of distributions shrink. -/
theorem contract (hP : ∀ x ∈ S, ∀ y ∈ S, ε ≤ P x y) (hsum : ∀ x ∈ S, ∑ y ∈ S, P x y = 1) {d : α → ℝ} (hd : ∑ x ∈ S, d x = 0) :
    ∑ y ∈ S, |∑ x ∈ S, d x * P x y| ≤ (1 - S.card * ε) * ∑ x ∈ S, |d x| := by
  have h1 : ∀ y ∈ S, |∑ x ∈ S, d x * P x y| ≤ ∑ x ∈ S, |d x| * (P x y - ε) := by
    intro y hy
    have : ∑ x ∈ S, d x * P x y = ∑ x ∈ S, d x * (P x y - ε) := by
      simp only [mul_sub, Finset.sum_sub_distrib, ← Finset.sum_mul, hd, zero_mul, sub_zero]
    rw [this]
    refine (Finset.abs_sum_le_sum_abs _ _).trans (Finset.sum_le_sum fun x hx => ?_)
    rw [abs_mul, abs_of_nonneg (sub_nonneg.mpr (hP x hx y hy))]
  refine (Finset.sum_le_sum h1).trans (le_of_eq ?_)
  rw [Finset.sum_comm, Finset.mul_sum]
  refine Finset.sum_congr rfl fun x hx => ?_
  rw [← Finset.mul_sum, Finset.sum_sub_distrib, hsum x hx]
  simp only [Finset.sum_const, nsmul_eq_mul]
  ring

theorem mass_after (hsum : ∀ x ∈ S, ∑ y ∈ S, P x y = 1) (d : α → ℝ) : ∑ y ∈ S, ∑ x ∈ S, d x * P x y = ∑ x ∈ S, d x := by
  rw [Finset.sum_comm]
  exact Finset.sum_congr rfl fun x hx => by rw [← Finset.mul_sum, hsum x hx, mul_one]

theorem nonexpansive (hP : ∀ x ∈ S, ∀ y ∈ S, 0 ≤ P x y) (hsum : ∀ x ∈ S, ∑ y ∈ S, P x y = 1) (d : α → ℝ) :
    ∑ y ∈ S, |∑ x ∈ S, d x * P x y| ≤ ∑ x ∈ S, |d x| := by
  rw [← mass_after hsum fun x => |d x|]
  refine Finset.sum_le_sum fun y hy => (Finset.abs_sum_le_sum_abs _ _).trans (Finset.sum_le_sum fun x hx => ?_)
  rw [abs_mul, abs_of_nonneg (hP x hx y hy)]

end

/-! ## Sweeps -/

variable {acc : Nat → List ℤ → ℝ} {n : Nat} {E : List ℤ → ℚ} {c : ℝ}

theorem walk_append {ps qs : List Nat} {x : List ℤ} (hx : x ∈ spinVectors n) (y : List ℤ) :
    walk acc (ps ++ qs) x y = ∑ z ∈ spinVectors n, walk acc ps x z * walk acc qs z y := by
  induction ps generalizing x with
  | nil => simp [walk, hx]
  | cons i ps ih =>
    simp only [List.cons_append, walk, ih hx, ih (flipAt_mem hx i), Finset.mul_sum, ← Finset.sum_add_distrib]
    exact Finset.sum_congr rfl fun z _ => by ring

/-- The chance to get from a state to another by one sweep in random order. -/
noncomputable def sweepChance (acc : Nat → List ℤ → ℝ) (n : Nat) (x y : List ℤ) : ℝ :=
  ((List.range n).permutations.map fun ps => walk acc ps x y).sum / ((List.range n).permutations.length : ℝ)

/-- The same for `k` sweeps. -/
noncomputable def sweepsChance (acc : Nat → List ℤ → ℝ) (n : Nat) : Nat → List ℤ → List ℤ → ℝ
  | 0, x, y => if x = y then 1 else 0
  | k + 1, x, y => ∑ z ∈ spinVectors n, sweepChance acc n x z * sweepsChance acc n k z y

theorem perms_length (n : Nat) : (List.range n).permutations.length = n.factorial := by
  rw [List.length_permutations, List.length_range]

theorem perms_pos (n : Nat) : (0 : ℝ) < (List.range n).permutations.length := by
  rw [perms_length]
  exact_mod_cast Nat.factorial_pos n

theorem mem_perms {ps : List Nat} : ps ∈ (List.range n).permutations ↔ ps.Perm (List.range n) := List.mem_permutations

theorem mem_orderings {k : Nat} {pss : List (List Nat)} (h : pss ∈ orderings n k) :
    pss.length = k ∧ ∀ ps ∈ pss, ps.Perm (List.range n) := by
  induction k generalizing pss with
  | zero => simp [orderings] at h; simp [h]
  | succ k ih =>
    simp only [orderings, List.mem_flatMap, List.mem_map] at h
    obtain ⟨ps, hps, qss, hq, rfl⟩ := h
    obtain ⟨h1, h2⟩ := ih hq
    refine ⟨by simp [h1], fun qs hqs => ?_⟩
    rcases List.mem_cons.mp hqs with rfl | hqs
    · exact mem_perms.mp hps
    · exact h2 qs hqs

theorem orderings_length (n k : Nat) : (orderings n k).length = (List.range n).permutations.length ^ k := by
  induction k with
  | zero => rfl
  | succ k ih =>
    simp only [orderings, List.length_flatMap, List.length_map, ih, List.map_const', List.sum_replicate, smul_eq_mul, pow_succ]
    ring

theorem list_sum_div (l : List ℝ) (a : ℝ) : l.sum / a = (l.map (· / a)).sum := by
  induction l with
  | nil => simp
  | cons b l ih => rw [List.sum_cons, add_div, ih, List.map_cons, List.sum_cons]

theorem list_sum_finset {α β : Type} (l : List α) (S : Finset β) (f : α → β → ℝ) :
    (l.map fun a => ∑ b ∈ S, f a b).sum = ∑ b ∈ S, (l.map fun a => f a b).sum := by
  induction l with
  | nil => simp
  | cons a l ih => simp only [List.map_cons, List.sum_cons, ih, Finset.sum_add_distrib]

theorem sum_mul_right' {α : Type} (l : List α) (f : α → ℝ) (a : ℝ) : (l.map fun x => f x * a).sum = (l.map f).sum * a := by
  induction l with
  | nil => simp
  | cons b l ih => simp only [List.map_cons, List.sum_cons, ih]; ring

theorem sum_mul_left' {α : Type} (l : List α) (f : α → ℝ) (a : ℝ) : (l.map fun x => a * f x).sum = a * (l.map f).sum := by
  induction l with
  | nil => simp
  | cons b l ih => simp only [List.map_cons, List.sum_cons, ih]; ring

/-- The chances of `k` sweeps are the averages over all orders. -/
theorem sweepsChance_eq (k : Nat) {x : List ℤ} (hx : x ∈ spinVectors n) (y : List ℤ) :
    sweepsChance acc n k x y =
      ((orderings n k).map fun pss => walk acc pss.flatten x y).sum / ((orderings n k).length : ℝ) := by
  induction k generalizing x with
  | zero => simp [sweepsChance, orderings, walk]
  | succ k ih =>
    have h1 : ((orderings n (k + 1)).map fun pss => walk acc pss.flatten x y).sum =
        ((List.range n).permutations.map fun ps => ∑ z ∈ spinVectors n, walk acc ps x z *
          ((orderings n k).map fun pss => walk acc pss.flatten z y).sum).sum := by
      simp only [orderings]
      induction (List.range n).permutations with
      | nil => simp
      | cons ps l ihl =>
        rw [List.flatMap_cons, List.map_append, List.sum_append, ihl, List.map_cons, List.sum_cons, List.map_map]
        congr 1
        have : ((fun pss : List (List Nat) => walk acc pss.flatten x y) ∘ fun pss => ps :: pss) =
            fun pss => ∑ z ∈ spinVectors n, walk acc ps x z * walk acc pss.flatten z y := by
          funext pss
          simp only [Function.comp_apply, List.flatten_cons]
          exact walk_append hx y
        rw [this, list_sum_finset]
        exact Finset.sum_congr rfl fun z _ => sum_mul_left' _ _ _
    rw [h1, list_sum_finset, orderings_length, pow_succ]
    simp only [sweepsChance]
    push_cast
    rw [Finset.sum_div]
    refine Finset.sum_congr rfl fun z hz => ?_
    rw [ih hz, sum_mul_right', sweepChance, orderings_length]
    have := (perms_pos n).ne'
    push_cast
    field_simp

/-- Chances are between 0 and 1. -/
def Chances (acc : Nat → List ℤ → ℝ) (n : Nat) : Prop := ∀ i < n, ∀ x ∈ spinVectors n, 0 ≤ acc i x ∧ acc i x ≤ 1

theorem perm_chances (h : Chances acc n) {ps : List Nat} (hps : ps.Perm (List.range n)) :
    ∀ i ∈ ps, ∀ x ∈ spinVectors n, 0 ≤ acc i x ∧ acc i x ≤ 1 :=
  fun i hi => h i (List.mem_range.mp (hps.subset hi))

theorem sweepChance_nonneg (h : Chances acc n) {x : List ℤ} (hx : x ∈ spinVectors n) (y : List ℤ) : 0 ≤ sweepChance acc n x y := by
  refine div_nonneg (List.sum_nonneg fun a ha => ?_) (perms_pos n).le
  obtain ⟨ps, hps, rfl⟩ := List.mem_map.mp ha
  exact walk_nonneg (perm_chances h (mem_perms.mp hps)) hx y

theorem sweepChance_sum {x : List ℤ} (hx : x ∈ spinVectors n) : ∑ y ∈ spinVectors n, sweepChance acc n x y = 1 := by
  unfold sweepChance
  rw [← Finset.sum_div, ← list_sum_finset]
  simp only [walk_sum hx, List.map_const', List.sum_replicate, nsmul_eq_mul, mul_one]
  exact div_self (perms_pos n).ne'

theorem sweepsChance_nonneg (h : Chances acc n) (k : Nat) {x : List ℤ} (hx : x ∈ spinVectors n) (y : List ℤ) :
    0 ≤ sweepsChance acc n k x y := by
  induction k generalizing x with
  | zero => simp only [sweepsChance]; split <;> norm_num
  | succ k ih => exact Finset.sum_nonneg fun z hz => mul_nonneg (sweepChance_nonneg h hx z) (ih hz)

theorem sweepsChance_sum (k : Nat) {x : List ℤ} (hx : x ∈ spinVectors n) : ∑ y ∈ spinVectors n, sweepsChance acc n k x y = 1 := by
  induction k generalizing x with
  | zero => simp [sweepsChance, hx]
  | succ k ih =>
    simp only [sweepsChance]
    rw [Finset.sum_comm, ← sweepChance_sum (acc := acc) hx]
    exact Finset.sum_congr rfl fun z hz => by rw [← Finset.mul_sum, ih hz, mul_one]

theorem sweepsChance_add (k j : Nat) {x : List ℤ} (hx : x ∈ spinVectors n) (y : List ℤ) :
    sweepsChance acc n (k + j) x y = ∑ z ∈ spinVectors n, sweepsChance acc n k x z * sweepsChance acc n j z y := by
  induction k generalizing x with
  | zero => simp [sweepsChance, hx]
  | succ k ih =>
    rw [show k + 1 + j = (k + j) + 1 by omega]
    simp only [sweepsChance]
    rw [Finset.sum_congr rfl fun z hz => by rw [ih hz]]
    simp only [Finset.mul_sum, Finset.sum_mul]
    rw [Finset.sum_comm]
    exact Finset.sum_congr rfl fun w _ => Finset.sum_congr rfl fun z _ => by ring

/-! ## What can be reached is reached with some chance -/

/-- Each flip is done with chance `c` or more, and left with chance `c` or more where it raises the energy. -/
def Open (acc : Nat → List ℤ → ℝ) (E : List ℤ → ℚ) (n : Nat) (c : ℝ) : Prop :=
  ∀ i < n, ∀ x ∈ spinVectors n, c ≤ acc i x ∧ (E x < E (flipAt x i) → acc i x ≤ 1 - c)

theorem walk_lower (h : Chances acc n) (hc : 0 ≤ c) (ho : Open acc E n c) {ps : List Nat} (hps : ∀ i ∈ ps, i < n) {x y : List ℤ}
    (hx : x ∈ spinVectors n) (hp : SweepPath E ps x y) : c ^ ps.length ≤ walk acc ps x y := by
  induction hp with
  | done => simp [walk]
  | @flip ps x y i _ ih =>
    have hi := hps i List.mem_cons_self
    have hps' := fun j hj => hps j (List.mem_cons_of_mem _ hj)
    have h1 := ih hps' (flipAt_mem hx i)
    have h2 := walk_nonneg (acc := acc) (ps := ps) (fun j hj => h j (hps' j hj)) hx y
    have h3 := mul_le_mul (ho i hi x hx).1 h1 (by positivity) (h i hi x hx).1
    have h4 := mul_nonneg (sub_nonneg.mpr (h i hi x hx).2) h2
    simp only [walk, List.length_cons, pow_succ]
    linarith
  | @stay ps x y i hup _ ih =>
    have hi := hps i List.mem_cons_self
    have hps' := fun j hj => hps j (List.mem_cons_of_mem _ hj)
    have h1 := ih hps' hx
    have h2 := walk_nonneg (acc := acc) (ps := ps) (fun j hj => h j (hps' j hj)) (flipAt_mem hx i) y
    have h5 := (ho i hi x hx).2 hup
    have h3 := mul_le_mul (show c ≤ 1 - acc i x by linarith) h1 (by positivity) (by linarith)
    have h4 := mul_nonneg (h i hi x hx).1 h2
    simp only [walk, List.length_cons, pow_succ]
    linarith

theorem sweepChance_lower (h : Chances acc n) (hc : 0 ≤ c) (ho : Open acc E n c) {ps : List Nat} (hps : ps.Perm (List.range n))
    {x y : List ℤ} (hx : x ∈ spinVectors n) (hp : SweepPath E ps x y) : c ^ n / n.factorial ≤ sweepChance acc n x y := by
  unfold sweepChance
  rw [perms_length]
  refine div_le_div_of_nonneg_right ?_ (by positivity)
  have hl : ps.length = n := by rw [hps.length_eq, List.length_range]
  have h1 := walk_lower h hc ho (fun i hi => List.mem_range.mp (hps.subset hi)) hx hp
  rw [hl] at h1
  refine h1.trans ?_
  refine List.single_le_sum (fun a ha => ?_) _ (List.mem_map.mpr ⟨ps, mem_perms.mpr hps, rfl⟩)
  obtain ⟨qs, hqs, rfl⟩ := List.mem_map.mp ha
  exact walk_nonneg (perm_chances h (mem_perms.mp hqs)) hx y

theorem path_states {ps : List Nat} {x y : List ℤ} (hp : SweepPath E ps x y) (hx : x ∈ spinVectors n) : y ∈ spinVectors n := by
  induction hp with
  | done => exact hx
  | flip _ ih => exact ih (flipAt_mem hx _)
  | stay _ _ ih => exact ih hx

theorem sweepsChance_lower (h : Chances acc n) (hc : 0 ≤ c) (ho : Open acc E n c) {k : Nat} {x y : List ℤ}
    (hx : x ∈ spinVectors n) (hr : Reaches E .random n k x y) : (c ^ n / n.factorial) ^ k ≤ sweepsChance acc n k x y := by
  induction k generalizing x with
  | zero => cases hr; simp [sweepsChance]
  | succ k ih =>
    obtain ⟨z, ps, h1, h2, h3⟩ := hr
    have hz := path_states h2 hx
    have h4 := mul_le_mul (sweepChance_lower h hc ho h1 hx h2) (ih hz h3) (by positivity) (sweepChance_nonneg h hx z)
    rw [pow_succ, mul_comm]
    refine h4.trans ?_
    exact Finset.single_le_sum (f := fun z => sweepChance acc n x z * sweepsChance acc n k z y)
      (fun w hw => mul_nonneg (sweepChance_nonneg h hx w) (sweepsChance_nonneg h k hw y)) hz

/-! ## Forgetting -/

theorem spinVectors_card (n : Nat) : (spinVectors n).card = 2 ^ n := by
  induction n with
  | zero => rfl
  | succ n ih =>
    simp only [spinVectors]
    rw [Finset.card_union_of_disjoint, Finset.card_image_of_injective _ (List.cons_injective), Finset.card_image_of_injective _
      (List.cons_injective), ih, pow_succ]
    · ring
    · rw [Finset.disjoint_left]
      intro x h1 h2
      obtain ⟨a, -, rfl⟩ := Finset.mem_image.mp h1
      obtain ⟨b, -, h⟩ := Finset.mem_image.mp h2
      cases h

/-- Differences of distributions shrink by the same share in every `L` sweeps. -/
theorem sweeps_contract {L : Nat} {ε : ℝ} (h : Chances acc n)
    (hε : ∀ x ∈ spinVectors n, ∀ y ∈ spinVectors n, ε ≤ sweepsChance acc n L x y) (h1 : 0 ≤ 1 - (spinVectors n).card * ε) (q : Nat)
    {d : List ℤ → ℝ} (hd : ∑ x ∈ spinVectors n, d x = 0) :
    ∑ y ∈ spinVectors n, |∑ x ∈ spinVectors n, d x * sweepsChance acc n (L * q) x y| ≤
      (1 - (spinVectors n).card * ε) ^ q * ∑ x ∈ spinVectors n, |d x| := by
  induction q generalizing d with
  | zero =>
    rw [pow_zero, one_mul]
    exact nonexpansive (fun x hx y _ => sweepsChance_nonneg h _ hx y) (fun x hx => sweepsChance_sum _ hx) d
  | succ q ih =>
    have e : ∀ y, ∑ x ∈ spinVectors n, d x * sweepsChance acc n (L * (q + 1)) x y =
        ∑ z ∈ spinVectors n, (∑ x ∈ spinVectors n, d x * sweepsChance acc n L x z) * sweepsChance acc n (L * q) z y := by
      intro y
      simp only [Finset.sum_mul]
      rw [Finset.sum_comm]
      refine Finset.sum_congr rfl fun x hx => ?_
      rw [show L * (q + 1) = L + L * q by ring, sweepsChance_add _ _ hx, Finset.mul_sum]
      exact Finset.sum_congr rfl fun z _ => by ring
    simp only [e]
    refine (ih ?_).trans ?_
    · rw [mass_after (fun x hx => sweepsChance_sum _ hx), hd]
    · rw [pow_succ, mul_assoc]
      exact mul_le_mul_of_nonneg_left (contract hε (fun x hx => sweepsChance_sum _ hx) hd) (pow_nonneg h1 q)

/-- A distribution that one sweep nearly keeps is nearly kept by several. -/
theorem sweeps_keep (h : Chances acc n) {μ : List ℤ → ℝ} {b : ℝ}
    (hb : ∑ y ∈ spinVectors n, |∑ x ∈ spinVectors n, μ x * sweepChance acc n x y - μ y| ≤ b) (k : Nat) :
    ∑ y ∈ spinVectors n, |∑ x ∈ spinVectors n, μ x * sweepsChance acc n k x y - μ y| ≤ k * b := by
  induction k with
  | zero =>
    have : ∑ y ∈ spinVectors n, |∑ x ∈ spinVectors n, μ x * sweepsChance acc n 0 x y - μ y| = 0 := by
      refine Finset.sum_eq_zero fun y hy => ?_
      simp [sweepsChance, hy]
    rw [this]
    simp
  | succ k ih =>
    have e : ∀ y, ∑ x ∈ spinVectors n, μ x * sweepsChance acc n (k + 1) x y - μ y =
        ∑ z ∈ spinVectors n, (∑ x ∈ spinVectors n, μ x * sweepChance acc n x z - μ z) * sweepsChance acc n k z y +
          (∑ z ∈ spinVectors n, μ z * sweepsChance acc n k z y - μ y) := by
      intro y
      simp only [sub_mul, Finset.sum_sub_distrib, Finset.sum_mul, sweepsChance, Finset.mul_sum]
      rw [Finset.sum_comm]
      have : ∀ a b : ℝ, a = b → ∀ c d : ℝ, a - d = b - c + (c - d) := by intro a b h c d; rw [h]; ring
      exact this _ _ (Finset.sum_congr rfl fun z _ => Finset.sum_congr rfl fun x _ => by ring) _ _
    simp only [e]
    refine (Finset.sum_le_sum fun y _ => abs_add_le _ _).trans ?_
    rw [Finset.sum_add_distrib]
    have h1 := nonexpansive (S := spinVectors n) (P := sweepsChance acc n k) (fun x hx y _ => sweepsChance_nonneg h _ hx y)
      (fun x hx => sweepsChance_sum _ hx) (fun z => ∑ x ∈ spinVectors n, μ x * sweepChance acc n x z - μ z)
    push_cast
    linarith

/-- The average over the orders of what one sweep keeps. -/
theorem sweep_keep {μ : List ℤ → ℝ} {b : ℝ} (hb : ∀ ps, ps.Perm (List.range n) →
      ∑ y ∈ spinVectors n, |∑ x ∈ spinVectors n, μ x * walk acc ps x y - μ y| ≤ b) :
    ∑ y ∈ spinVectors n, |∑ x ∈ spinVectors n, μ x * sweepChance acc n x y - μ y| ≤ b := by
  have hp := perms_pos n
  have e : ∀ y, ∑ x ∈ spinVectors n, μ x * sweepChance acc n x y - μ y =
      ((List.range n).permutations.map fun ps => ∑ x ∈ spinVectors n, μ x * walk acc ps x y - μ y).sum /
        (List.range n).permutations.length := by
    intro y
    have e1 : ((List.range n).permutations.map fun ps => ∑ x ∈ spinVectors n, μ x * walk acc ps x y - μ y).sum =
        ∑ x ∈ spinVectors n, μ x * ((List.range n).permutations.map fun ps => walk acc ps x y).sum -
          (List.range n).permutations.length * μ y := by
      induction (List.range n).permutations with
      | nil => simp
      | cons ps l ih =>
        simp only [List.map_cons, List.sum_cons, ih, mul_add, Finset.sum_add_distrib, List.length_cons]
        push_cast
        ring
    rw [e1, sub_div, mul_div_cancel_left₀ _ hp.ne', Finset.sum_div]
    congr 1
    exact Finset.sum_congr rfl fun x _ => by rw [sweepChance, mul_div_assoc]
  have e2 : ∀ y, |∑ x ∈ spinVectors n, μ x * sweepChance acc n x y - μ y| ≤
      ((List.range n).permutations.map fun ps => |∑ x ∈ spinVectors n, μ x * walk acc ps x y - μ y|).sum /
        (List.range n).permutations.length := by
    intro y
    rw [e, abs_div, abs_of_pos hp]
    refine div_le_div_of_nonneg_right ?_ hp.le
    induction (List.range n).permutations with
    | nil => simp
    | cons ps l ih =>
      simp only [List.map_cons, List.sum_cons]
      exact (abs_add_le _ _).trans (add_le_add le_rfl ih)
  refine (Finset.sum_le_sum fun y _ => e2 y).trans ?_
  rw [← Finset.sum_div, ← list_sum_finset, div_le_iff₀ hp]
  have : ∀ l : List (List Nat), (∀ ps ∈ l, ps.Perm (List.range n)) →
      (l.map fun ps => ∑ y ∈ spinVectors n, |∑ x ∈ spinVectors n, μ x * walk acc ps x y - μ y|).sum ≤ b * l.length := by
    intro l hl
    induction l with
    | nil => simp
    | cons ps l ih =>
      simp only [List.map_cons, List.sum_cons, List.length_cons]
      push_cast
      have h1 := hb ps (hl ps List.mem_cons_self)
      have h2 := ih fun qs hq => hl qs (List.mem_cons_of_mem _ hq)
      linarith
  exact this _ fun ps hps => mem_perms.mp hps

/-- From any distribution the chain gets near a distribution that it nearly keeps. -/
theorem sweeps_limit {L : Nat} {ε b : ℝ} (h : Chances acc n)
    (hε : ∀ x ∈ spinVectors n, ∀ y ∈ spinVectors n, ε ≤ sweepsChance acc n L x y) (hpos : 0 < (spinVectors n).card * ε)
    (h1 : (spinVectors n).card * ε ≤ 1) {μ ν : List ℤ → ℝ} (hμ : ∀ x ∈ spinVectors n, 0 ≤ μ x) (hν : ∀ x ∈ spinVectors n, 0 ≤ ν x)
    (sμ : ∑ x ∈ spinVectors n, μ x = 1) (sν : ∑ x ∈ spinVectors n, ν x = 1)
    (hb : ∑ y ∈ spinVectors n, |∑ x ∈ spinVectors n, μ x * sweepsChance acc n L x y - μ y| ≤ b) (q : Nat) :
    ∑ y ∈ spinVectors n, |∑ x ∈ spinVectors n, ν x * sweepsChance acc n (L * q) x y - μ y| ≤
      2 * (1 - (spinVectors n).card * ε) ^ q + b / ((spinVectors n).card * ε) := by
  generalize hδ : ((spinVectors n).card : ℝ) * ε = δ at hpos h1
  have hb0 : 0 ≤ b := (Finset.sum_nonneg fun _ _ => abs_nonneg _).trans hb
  induction q with
  | zero =>
    have e : ∀ y ∈ spinVectors n, |∑ x ∈ spinVectors n, ν x * sweepsChance acc n (L * 0) x y - μ y| ≤ ν y + μ y := by
      intro y hy
      have : ∑ x ∈ spinVectors n, ν x * sweepsChance acc n (L * 0) x y = ν y := by simp [sweepsChance, hy]
      rw [this, abs_le]
      have := hμ y hy
      have := hν y hy
      constructor <;> linarith
    refine (Finset.sum_le_sum e).trans ?_
    rw [Finset.sum_add_distrib, sμ, sν, pow_zero]
    have : 0 ≤ b / δ := by positivity
    linarith
  | succ q ih =>
    have e : ∀ y, ∑ x ∈ spinVectors n, ν x * sweepsChance acc n (L * (q + 1)) x y - μ y =
        ∑ z ∈ spinVectors n, (∑ x ∈ spinVectors n, ν x * sweepsChance acc n (L * q) x z - μ z) * sweepsChance acc n L z y +
          (∑ z ∈ spinVectors n, μ z * sweepsChance acc n L z y - μ y) := by
      intro y
      simp only [sub_mul, Finset.sum_sub_distrib, Finset.sum_mul]
      rw [Finset.sum_comm]
      have : ∀ a b : ℝ, a = b → ∀ c d : ℝ, a - d = b - c + (c - d) := by intro a b h c d; rw [h]; ring
      refine this _ _ (Finset.sum_congr rfl fun x hx => ?_) _ _
      rw [show L * (q + 1) = L * q + L by ring, sweepsChance_add _ _ hx, Finset.mul_sum]
      exact Finset.sum_congr rfl fun z _ => by ring
    simp only [e]
    refine (Finset.sum_le_sum fun y _ => abs_add_le _ _).trans ?_
    rw [Finset.sum_add_distrib]
    have hd : ∑ z ∈ spinVectors n, (∑ x ∈ spinVectors n, ν x * sweepsChance acc n (L * q) x z - μ z) = 0 := by
      rw [Finset.sum_sub_distrib, mass_after (fun x hx => sweepsChance_sum _ hx), sμ, sν, sub_self]
    have h2 := contract hε (fun x hx => sweepsChance_sum _ hx) hd
    rw [hδ] at h2
    have h3 := mul_le_mul_of_nonneg_left ih (show 0 ≤ 1 - δ by linarith)
    have h4 : (1 - δ) * (2 * (1 - δ) ^ q + b / δ) + b = 2 * (1 - δ) ^ (q + 1) + b / δ := by
      rw [pow_succ]
      field_simp
      ring
    linarith

end Sawatabi
