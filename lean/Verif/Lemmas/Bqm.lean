import Verif.Spec.Solver
import Verif.Lemmas.Group
import Mathlib.Tactic.Ring
import Mathlib.Tactic.Linarith

/-!
# Lemmas: binary quadratic models
-/

namespace Sawatabi

/-- A well-formed model: no duplicate terms, no self-loops. -/
structure Bqm.Wf (b : Bqm) : Prop where
  linear : (dkeys b.linear).Nodup
  quad : (dkeys b.quad).Nodup
  ordered : ∀ k ∈ dkeys b.quad, k.1 < k.2

theorem physicalVars_nodup (lin : List (String × ℚ)) (quad : List ((String × String) × ℚ)) :
    (physicalVars lin quad).Nodup := by
  have h1 : ∀ (d : List (String × ℚ)) (s : List String), s.Nodup → (d.foldl (fun s p => sadd s p.1) s).Nodup := by
    intro d
    induction d with
    | nil => exact fun s h => h
    | cons p d ih => exact fun s h => ih _ (nodup_sadd h)
  have h2 : ∀ (d : List ((String × String) × ℚ)) (s : List String), s.Nodup →
      (d.foldl (fun s p => sadd (sadd s p.1.1) p.1.2) s).Nodup := by
    intro d
    induction d with
    | nil => exact fun s h => h
    | cons p d ih => exact fun s h => ih _ (nodup_sadd (nodup_sadd h))
  exact h2 _ _ (h1 _ _ List.nodup_nil)

theorem Bqm.variables_nodup (b : Bqm) : b.variables.Nodup := physicalVars_nodup _ _

theorem Bqm.mem_variables (b : Bqm) (l : String) :
    l ∈ b.variables ↔ l ∈ dkeys b.linear ∨ ∃ k ∈ dkeys b.quad, k.1 = l ∨ k.2 = l := mem_physicalVars _ _ l

/-! ## Sums -/

theorem sum_add' {α : Type} (l : List α) (f g : α → ℚ) :
    (l.map fun a => f a + g a).sum = (l.map f).sum + (l.map g).sum := by
  induction l with
  | nil => simp
  | cons a l ih => simp only [List.map_cons, List.sum_cons, ih]; ring

theorem sum_mul' {α : Type} (l : List α) (f : α → ℚ) (c : ℚ) : (l.map fun a => f a * c).sum = (l.map f).sum * c := by
  induction l with
  | nil => simp
  | cons a l ih => simp only [List.map_cons, List.sum_cons, ih]; ring

theorem sum_zero' {α : Type} (l : List α) (f : α → ℚ) (h : ∀ a ∈ l, f a = 0) : (l.map f).sum = 0 := by
  induction l with
  | nil => simp
  | cons a l ih =>
    rw [List.map_cons, List.sum_cons, h a List.mem_cons_self, ih fun a ha => h a (List.mem_cons_of_mem _ ha), zero_add]

/-- Picking out one element of a list without duplicates. -/
theorem sum_pick {vs : List String} (hn : vs.Nodup) {k : String} (hk : k ∈ vs) (f : String → ℚ) :
    (vs.map fun v => if k = v then f v else 0).sum = f k := by
  induction vs with
  | nil => cases hk
  | cons v vs ih =>
    rw [List.nodup_cons] at hn
    rw [List.map_cons, List.sum_cons]
    by_cases h : k = v
    · subst h
      rw [if_pos rfl, sum_zero' vs, add_zero]
      intro a ha
      rw [if_neg]
      rintro rfl
      exact hn.1 ha
    · rw [if_neg h, zero_add]
      exact ih hn.2 ((List.mem_cons.mp hk).resolve_left h)

/-- The linear part, summed over the variables. -/
theorem sum_bias {lin : List (String × ℚ)} (hl : (dkeys lin).Nodup) {vs : List String} (hn : vs.Nodup)
    (hs : ∀ l ∈ dkeys lin, l ∈ vs) (f : String → ℚ) :
    (vs.map fun v => (dget lin v).getD 0 * f v).sum = (lin.map fun kv => kv.2 * f kv.1).sum := by
  induction lin with
  | nil => simp [dget]
  | cons p lin ih =>
    obtain ⟨k, c⟩ := p
    have hk : k ∉ dkeys lin := by simp [dkeys] at hl; simpa [dkeys] using hl.1
    have hl' : (dkeys lin).Nodup := by simp [dkeys] at hl; simpa [dkeys] using hl.2
    have e : ∀ v, (dget ((k, c) :: lin) v).getD 0 * f v =
        (if k = v then c * f v else 0) + (dget lin v).getD 0 * f v := by
      intro v
      by_cases h : k = v
      · subst h
        simp [dget, (dget_eq_none_iff lin k).mpr hk]
      · simp [dget, h]
    simp only [e]
    rw [sum_add', sum_pick hn (hs k (by simp [dkeys])) fun v => c * f v, List.map_cons, List.sum_cons,
      ih hl' fun l h => hs l (by simp [dkeys] at h ⊢; exact Or.inr h)]

theorem neighbours_cons (b : Bqm) (kv : (String × String) × ℚ) (q : List ((String × String) × ℚ)) (v : String)
    (f : String → ℚ) (hne : kv.1.1 ≠ kv.1.2) :
    (((Bqm.neighbours { b with quad := kv :: q } v).map fun e => e.2 * f e.1).sum : ℚ) =
      (if kv.1.1 = v then kv.2 * f kv.1.2 else 0) + (if kv.1.2 = v then kv.2 * f kv.1.1 else 0) +
      ((Bqm.neighbours { b with quad := q } v).map fun e => e.2 * f e.1).sum := by
  simp only [Bqm.neighbours, List.filterMap_cons]
  by_cases h1 : kv.1.1 = v
  · have h2 : ¬ kv.1.2 = v := fun h => hne (h1.trans h.symm)
    rw [if_pos h1, if_pos h1, if_neg h2]
    simp only [List.map_cons, List.sum_cons]
    ring
  · by_cases h2 : kv.1.2 = v
    · rw [if_neg h1, if_pos h2, if_neg h1, if_pos h2]
      simp only [List.map_cons, List.sum_cons]
      ring
    · simp [h1, h2]

/-- The quadratic part, summed over the variables and their neighbours. -/
theorem sum_neighbours (b : Bqm) (ho : ∀ k ∈ dkeys b.quad, k.1 < k.2) {vs : List String} (hn : vs.Nodup)
    (hs : ∀ k ∈ dkeys b.quad, k.1 ∈ vs ∧ k.2 ∈ vs) (f g : String → ℚ) :
    (vs.map fun v => ((b.neighbours v).map fun e => e.2 * f e.1).sum * g v).sum =
      (b.quad.map fun kv => kv.2 * (f kv.1.2 * g kv.1.1 + f kv.1.1 * g kv.1.2)).sum := by
  obtain ⟨vt, lin, quad, off⟩ := b
  simp only at ho hs
  induction quad with
  | nil => simp [Bqm.neighbours]
  | cons kv q ih =>
    have hlt : kv.1.1 < kv.1.2 := ho kv.1 (by simp [dkeys])
    obtain ⟨m1, m2⟩ := hs kv.1 (by simp [dkeys])
    have e := fun v => neighbours_cons ⟨vt, lin, [], off⟩ kv q v f (ne_of_lt hlt)
    simp only at e
    simp only [e]
    have e2 : ∀ v, ((if kv.1.1 = v then kv.2 * f kv.1.2 else 0) + (if kv.1.2 = v then kv.2 * f kv.1.1 else 0) +
        ((Bqm.neighbours ⟨vt, lin, q, off⟩ v).map fun e => e.2 * f e.1).sum) * g v =
        ((if kv.1.1 = v then kv.2 * f kv.1.2 * g v else 0) + (if kv.1.2 = v then kv.2 * f kv.1.1 * g v else 0)) +
        ((Bqm.neighbours ⟨vt, lin, q, off⟩ v).map fun e => e.2 * f e.1).sum * g v := by
      intro v
      split <;> split <;> ring
    simp only [e2]
    rw [sum_add', sum_add', sum_pick hn m1 fun v => kv.2 * f kv.1.2 * g v,
      sum_pick hn m2 fun v => kv.2 * f kv.1.1 * g v, ih, List.map_cons, List.sum_cons]
    · ring
    · intro k hk; exact ho k (by simp [dkeys] at hk ⊢; exact Or.inr hk)
    · intro k hk; exact hs k (by simp [dkeys] at hk ⊢; exact Or.inr hk)

theorem Bqm.vars_linear (b : Bqm) : ∀ l ∈ dkeys b.linear, l ∈ b.variables :=
  fun l h => (b.mem_variables l).mpr (.inl h)

theorem Bqm.vars_quad (b : Bqm) : ∀ k ∈ dkeys b.quad, k.1 ∈ b.variables ∧ k.2 ∈ b.variables :=
  fun k h => ⟨(b.mem_variables _).mpr (.inr ⟨k, h, .inl rfl⟩), (b.mem_variables _).mpr (.inr ⟨k, h, .inr rfl⟩)⟩

/-! ## Change of variable type -/

/-- dimod's conversion to spins keeps the energy. -/
theorem Bqm.toSpin_energy {b : Bqm} (h : b.Wf) (σ : Assign) : b.toSpin.energy σ = b.energy σ.toBinary := by
  have h1 := sum_bias h.linear b.variables_nodup b.vars_linear σ
  have h2 := sum_bias h.linear b.variables_nodup b.vars_linear fun _ => 1
  have h3 := sum_neighbours b h.ordered b.variables_nodup b.vars_quad (fun _ => 1) σ
  have e1 : (b.toSpin.linear.map fun kv => kv.2 * σ kv.1).sum =
      (b.variables.map fun v => (dget b.linear v).getD 0 * σ v).sum / 2 +
      (b.variables.map fun v => ((b.neighbours v).map fun e => e.2 * 1).sum * σ v).sum / 4 := by
    simp only [Bqm.toSpin, List.map_map, Function.comp_def, Bqm.bias, mul_one]
    rw [div_eq_mul_inv, div_eq_mul_inv, ← sum_mul', ← sum_mul', ← sum_add']
    congr 1
    apply List.map_congr_left
    intro v _
    ring
  have e2 : (b.variables.map b.bias).sum = (b.variables.map fun v => (dget b.linear v).getD 0 * 1).sum := by
    simp only [mul_one]
    rfl
  unfold Bqm.energy
  rw [e1, h1, h3]
  simp only [Bqm.toSpin]
  rw [e2, h2]
  simp only [List.map_map, Function.comp_def, Assign.toBinary]
  have q : (b.quad.map fun kv => kv.2 * ((σ kv.1.1 + 1) / 2 * ((σ kv.1.2 + 1) / 2))).sum =
      (b.quad.map (·.2)).sum / 4 + (b.quad.map fun kv => kv.2 * (1 * σ kv.1.1 + 1 * σ kv.1.2)).sum / 4 +
      (b.quad.map fun kv => kv.2 / 4 * (σ kv.1.1 * σ kv.1.2)).sum := by
    rw [div_eq_mul_inv, div_eq_mul_inv, ← sum_mul', ← sum_mul', ← sum_add', ← sum_add']
    congr 1
    apply List.map_congr_left
    intro kv _
    ring
  have l : (b.linear.map fun kv => kv.2 * ((σ kv.1 + 1) / 2)).sum =
      (b.linear.map fun kv => kv.2 * 1).sum / 2 + (b.linear.map fun kv => kv.2 * σ kv.1).sum / 2 := by
    rw [div_eq_mul_inv, div_eq_mul_inv, ← sum_mul', ← sum_mul', ← sum_add']
    congr 1
    apply List.map_congr_left
    intro kv _
    ring
  rw [q, l]
  ring

theorem Bqm.toSpin_mem (b : Bqm) (l : String) : l ∈ b.toSpin.variables ↔ l ∈ b.variables := by
  rw [Bqm.mem_variables]
  have h1 : dkeys b.toSpin.linear = b.variables := by simp [Bqm.toSpin, dkeys, Function.comp_def]
  have h2 : dkeys b.toSpin.quad = dkeys b.quad := by simp [Bqm.toSpin, dkeys, Function.comp_def]
  rw [h1, h2]
  constructor
  · rintro (h | h)
    · exact h
    · exact (b.mem_variables l).mpr (.inr h)
  · exact Or.inl

theorem Bqm.toSpin_wf {b : Bqm} (h : b.Wf) : b.toSpin.Wf := by
  have h1 : dkeys b.toSpin.linear = b.variables := by simp [Bqm.toSpin, dkeys, Function.comp_def]
  have h2 : dkeys b.toSpin.quad = dkeys b.quad := by simp [Bqm.toSpin, dkeys, Function.comp_def]
  exact ⟨by rw [h1]; exact b.variables_nodup, by rw [h2]; exact h.quad, by rw [h2]; exact h.ordered⟩

/-! ## Flips -/

/-- The change of energy when the value of one variable is negated. -/
theorem Bqm.flip_energy {b : Bqm} (h : b.Wf) (σ : Assign) (v : String) :
    b.energy (σ.subst v (- σ v)) =
      b.energy σ - 2 * (σ v * b.bias v + ((b.neighbours v).map fun e => e.2 * σ e.1).sum * σ v) := by
  have hl : (b.linear.map fun kv => kv.2 * (σ.subst v (- σ v)) kv.1).sum =
      (b.linear.map fun kv => kv.2 * σ kv.1).sum - 2 * (σ v * b.bias v) := by
    obtain ⟨vt, lin, quad, off⟩ := b
    have hn := h.linear
    clear h
    simp only [Bqm.bias] at *
    induction lin with
    | nil => simp [dget]
    | cons p lin ih =>
      obtain ⟨k, c⟩ := p
      have hk : k ∉ dkeys lin := by simp [dkeys] at hn; simpa [dkeys] using hn.1
      have hn' : (dkeys lin).Nodup := by simp [dkeys] at hn; simpa [dkeys] using hn.2
      rw [List.map_cons, List.sum_cons, List.map_cons, List.sum_cons, ih hn']
      by_cases hkv : k = v
      · subst hkv
        simp only [Assign.subst, dget, if_true, Option.getD_some, (dget_eq_none_iff lin k).mpr hk, Option.getD_none]
        ring
      · simp only [Assign.subst, dget, if_neg hkv]
        ring
  have hq : (b.quad.map fun kv => kv.2 * ((σ.subst v (- σ v)) kv.1.1 * (σ.subst v (- σ v)) kv.1.2)).sum =
      (b.quad.map fun kv => kv.2 * (σ kv.1.1 * σ kv.1.2)).sum -
        2 * (((b.neighbours v).map fun e => e.2 * σ e.1).sum * σ v) := by
    obtain ⟨vt, lin, quad, off⟩ := b
    have ho := h.ordered
    clear h hl
    simp only at ho ⊢
    induction quad with
    | nil => simp [Bqm.neighbours]
    | cons kv q ih =>
      have hlt : kv.1.1 < kv.1.2 := ho kv.1 (by simp [dkeys])
      have e := neighbours_cons ⟨vt, lin, [], off⟩ kv q v σ (ne_of_lt hlt)
      simp only at e
      rw [e, List.map_cons, List.sum_cons, List.map_cons, List.sum_cons,
        ih fun k hk => ho k (by simp [dkeys] at hk ⊢; exact Or.inr hk)]
      obtain ⟨⟨a, b⟩, c⟩ := kv
      simp only at hlt ⊢
      by_cases h1 : a = v
      · subst h1
        have h2 : ¬ b = a := fun h => ne_of_lt hlt h.symm
        simp only [Assign.subst, if_true, if_neg h2]
        ring
      · by_cases h2 : b = v
        · subst h2
          simp only [Assign.subst, if_neg h1, if_true]
          ring
        · simp only [Assign.subst, if_neg h1, if_neg h2]
          ring
  unfold Bqm.energy
  rw [hl, hq]
  ring

end Sawatabi
