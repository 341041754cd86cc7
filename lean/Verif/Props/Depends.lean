import Verif.Props.EndToEnd
import Verif.Props.Tsp
import Verif.Props.SolverMade
import Mathlib.Tactic.LinearCombination

/-!
# The variables of a physical model are those that its energy depends on
-/

namespace Sawatabi.Props

variable {p : Physical}

/-- The derivative of the energy in one variable, up to the sign. -/
def slope (p : Physical) (v : String) (σ : Assign) : ℚ :=
  (p.linear.map fun kv => if kv.1 = v then kv.2 else 0).sum +
  (p.quad.map fun kv => if kv.1.1 = v then kv.2 * σ kv.1.2 else if kv.1.2 = v then kv.2 * σ kv.1.1 else 0).sum

/-- The coefficient of a pair. -/
def pairCoef (p : Physical) (v w : String) : ℚ :=
  (p.quad.map fun kv => if kv.1 = (v, w) ∨ kv.1 = (w, v) then kv.2 else 0).sum

theorem energy_slope (hq : ∀ t ∈ p.quad, t.1.1 < t.1.2) (v : String) (a : ℚ) (σ : Assign) :
    p.energy σ - p.energy (σ.subst v a) = (a - σ v) * slope p v σ := by
  have h1 : ∀ l : List (String × ℚ), (l.map fun kv => kv.2 * σ.subst v a kv.1).sum - (l.map fun kv => kv.2 * σ kv.1).sum
      = (a - σ v) * (l.map fun kv => if kv.1 = v then kv.2 else 0).sum := by
    intro l
    induction l with
    | nil => simp
    | cons kv l ih =>
      simp only [List.map_cons, List.sum_cons]
      by_cases h : kv.1 = v
      · simp only [h, Assign.subst, if_true] at ih ⊢
        linear_combination ih
      · simp only [h, Assign.subst, if_false] at ih ⊢
        linear_combination ih
  have h2 : ∀ l : List ((String × String) × ℚ), (∀ t ∈ l, t.1.1 < t.1.2) →
      (l.map fun kv => kv.2 * (σ.subst v a kv.1.1 * σ.subst v a kv.1.2)).sum - (l.map fun kv => kv.2 * (σ kv.1.1 * σ kv.1.2)).sum
      = (a - σ v) * (l.map fun kv => if kv.1.1 = v then kv.2 * σ kv.1.2 else if kv.1.2 = v then kv.2 * σ kv.1.1 else 0).sum := by
    intro l hl
    induction l with
    | nil => simp
    | cons kv l ih =>
      have ih := ih fun t ht => hl t (by simp [ht])
      have hlt := hl kv (by simp)
      simp only [List.map_cons, List.sum_cons]
      by_cases h : kv.1.1 = v
      · have hne : kv.1.2 ≠ v := fun hc => absurd hlt (by rw [h, hc]; exact lt_irrefl v)
        simp only [h, hne, Assign.subst, if_true, if_false] at ih ⊢
        linear_combination ih
      · by_cases h' : kv.1.2 = v
        · simp only [h, h', Assign.subst, if_true, if_false] at ih ⊢
          linear_combination ih
        · simp only [h, h', Assign.subst, if_false] at ih ⊢
          linear_combination ih
  unfold Physical.energy slope
  linear_combination h1 p.linear + h2 p.quad hq

theorem slope_pair (hq : ∀ t ∈ p.quad, t.1.1 < t.1.2) {v w : String} (hvw : w ≠ v) (a : ℚ) (σ : Assign) :
    slope p v (σ.subst w a) - slope p v σ = (a - σ w) * pairCoef p v w := by
  have h2 : ∀ l : List ((String × String) × ℚ), (∀ t ∈ l, t.1.1 < t.1.2) →
      (l.map fun kv => if kv.1.1 = v then kv.2 * σ.subst w a kv.1.2 else if kv.1.2 = v then kv.2 * σ.subst w a kv.1.1 else 0).sum -
      (l.map fun kv => if kv.1.1 = v then kv.2 * σ kv.1.2 else if kv.1.2 = v then kv.2 * σ kv.1.1 else 0).sum
      = (a - σ w) * (l.map fun kv => if kv.1 = (v, w) ∨ kv.1 = (w, v) then kv.2 else 0).sum := by
    intro l hl
    induction l with
    | nil => simp
    | cons kv l ih =>
      have ih := ih fun t ht => hl t (by simp [ht])
      have hlt := hl kv (by simp)
      obtain ⟨⟨x, y⟩, c⟩ := kv
      simp only [List.map_cons, List.sum_cons, Prod.mk.injEq]
      simp only at hlt
      by_cases h : x = v
      · subst h
        have hyx : y ≠ x := (ne_of_lt hlt).symm
        by_cases h' : y = w
        · subst h'
          simp only [Assign.subst, if_true, true_and, true_or, hvw, Prod.mk.injEq] at ih ⊢
          linear_combination ih
        · simp only [Assign.subst, if_true, true_and, h', hvw.symm, false_and, or_false, if_false, Prod.mk.injEq] at ih ⊢
          linear_combination ih
      · by_cases h' : y = v
        · subst h'
          by_cases h'' : x = w
          · subst h''
            simp only [Assign.subst, if_true, h, if_false, false_and, true_and, false_or, Prod.mk.injEq] at ih ⊢
            linear_combination ih
          · simp only [Assign.subst, h, h'', if_true, if_false, false_and, false_or, Prod.mk.injEq] at ih ⊢
            linear_combination ih
        · simp only [h, h', if_false, false_and, and_false, or_self, Prod.mk.injEq] at ih ⊢
          linear_combination ih
  unfold slope pairCoef
  linear_combination h2 p.quad hq

/-- A sum over a list with distinct keys that has at most one non-zero term. -/
theorem sum_key {κ : Type} {l : List (κ × ℚ)} (hn : (l.map (·.1)).Nodup) {P : κ → Prop} [DecidablePred P] {k : κ} {c : ℚ}
    (hk : (k, c) ∈ l) (hP : ∀ k' ∈ l.map (·.1), P k' ↔ k' = k) : (l.map fun kv => if P kv.1 then kv.2 else 0).sum = c := by
  induction l with
  | nil => cases hk
  | cons kv l ih =>
    simp only [List.map_cons, List.nodup_cons] at hn
    simp only [List.map_cons, List.sum_cons]
    rcases List.mem_cons.mp hk with rfl | hk'
    · rw [if_pos ((hP k (by simp)).mpr rfl)]
      have : (l.map fun kv => if P kv.1 then kv.2 else 0) = l.map fun _ => (0 : ℚ) := by
        apply List.map_congr_left
        intro kv hkv
        rw [if_neg]
        intro hc
        have hmem : kv.1 ∈ l.map (·.1) := List.mem_map.mpr ⟨kv, hkv, rfl⟩
        exact hn.1 ((hP kv.1 (by simp [hmem])).mp hc ▸ hmem)
      rw [this]
      simp
    · rw [ih hn.2 hk' fun k' hk'' => hP k' (by simp [hk''])]
      have hne : kv.1 ≠ k := by
        intro hc
        exact hn.1 (hc ▸ List.mem_map.mpr ⟨_, hk', rfl⟩)
      rw [if_neg fun hc => hne ((hP kv.1 (by simp)).mp hc)]
      simp

/-- Each domain has another value. -/
theorem exists_other (vt : VType) {a : ℤ} (_h : vt.Domain a) : ∃ b : ℤ, vt.Domain b ∧ (b : ℚ) ≠ a := by
  cases vt with
  | spin =>
    by_cases h1 : a = 1
    · exact ⟨-1, .inr rfl, by rw [h1]; norm_num⟩
    · exact ⟨1, .inl rfl, fun hc => h1 (by exact_mod_cast hc.symm)⟩
  | binary =>
    by_cases h1 : a = 1
    · exact ⟨0, .inl rfl, by rw [h1]; norm_num⟩
    · exact ⟨1, .inr rfl, fun hc => h1 (by exact_mod_cast hc.symm)⟩

/-- **C26**: the variables of a physical model that `to_physical` returned are exactly those that its energy depends
on: no variable occurs in vain. -/
theorem C26_depends (hp : p.FromCalls) (v : String) :
    p.Uses v ↔ ∃ f g : String → ℤ, (∀ w, p.mtype.vtype.Domain (f w)) ∧ (∀ w, p.mtype.vtype.Domain (g w)) ∧
      (∀ w, w ≠ v → f w = g w) ∧ p.energy (fun w => (f w : ℚ)) ≠ p.energy fun w => (g w : ℚ) := by
  constructor
  · intro hv
    by_contra hno
    obtain ⟨env, clks, ids, ph, m, m', hm, hph, h⟩ := hp
    obtain ⟨n1, n2, hq, z1, z2⟩ := C26_made hm hph h
    have hsl : ∀ f : String → ℤ, (∀ w, p.mtype.vtype.Domain (f w)) → slope p v (fun w => (f w : ℚ)) = 0 := by
      intro f hf
      obtain ⟨b, hb, hne⟩ := exists_other p.mtype.vtype (hf v)
      have he : p.energy (fun w => (f w : ℚ)) = p.energy (Assign.subst (fun w => (f w : ℚ)) v b) := by
        by_contra hne'
        refine hno ⟨f, fun w => if w = v then b else f w, hf, fun w => ?_, fun w hw => by simp [hw], ?_⟩
        · by_cases hw : w = v
          · simpa [hw] using hb
          · simpa [hw] using hf w
        · convert hne' using 3
          rename_i w
          by_cases hw : w = v <;> simp [hw, Assign.subst]
      have := energy_slope hq v (b : ℚ) fun w => (f w : ℚ)
      rw [← he, sub_self] at this
      exact (mul_eq_zero.mp this.symm).resolve_left (sub_ne_zero.mpr hne)
    obtain ⟨a, ha⟩ : ∃ a, p.mtype.vtype.Domain a := by
      cases p.mtype.vtype with
      | spin => exact ⟨1, .inl rfl⟩
      | binary => exact ⟨1, .inr rfl⟩
    have hpc : ∀ w, w ≠ v → pairCoef p v w = 0 := by
      intro w hw
      obtain ⟨b, hb, hne⟩ := exists_other p.mtype.vtype ha
      have h1 := hsl (fun _ => a) (fun _ => ha)
      have h2 := hsl (fun x => if x = w then b else a) (fun x => by by_cases hx : x = w <;> simp [hx, ha, hb])
      have h3 := slope_pair hq hw (b : ℚ) fun _ => (a : ℚ)
      rw [h1, sub_zero] at h3
      have h4 : (Assign.subst (fun _ => (a : ℚ)) w b) = fun x => (((if x = w then b else a : ℤ)) : ℚ) := by
        funext x
        by_cases hx : x = w <;> simp [Assign.subst, hx]
      rw [h4, h2] at h3
      exact (mul_eq_zero.mp h3.symm).resolve_left (sub_ne_zero.mpr hne)
    have hnq : ∀ t ∈ p.quad, t.1.1 ≠ v ∧ t.1.2 ≠ v := by
      rintro ⟨⟨x, y⟩, c⟩ ht
      have hlt := hq _ ht
      simp only at hlt ⊢
      constructor
      · rintro rfl
        have := hpc y (ne_of_gt hlt)
        rw [pairCoef, sum_key (P := fun k => k = (x, y) ∨ k = (y, x)) n2 ht] at this
        · exact z2 _ ht this
        · intro k hk
          refine ⟨?_, fun h => .inl h⟩
          rintro (h | h)
          · exact h
          · obtain ⟨t, ht, rfl⟩ := List.mem_map.mp hk
            have := hq t ht
            rw [h] at this
            exact absurd hlt (lt_asymm this)
      · rintro rfl
        have := hpc x (ne_of_lt hlt)
        rw [pairCoef, sum_key (P := fun k => k = (y, x) ∨ k = (x, y)) n2 ht] at this
        · exact z2 _ ht this
        · intro k hk
          refine ⟨?_, fun h => .inr h⟩
          rintro (h | h)
          · obtain ⟨t, ht, rfl⟩ := List.mem_map.mp hk
            have := hq t ht
            rw [h] at this
            exact absurd hlt (lt_asymm this)
          · exact h
    have hs := hsl (fun _ => a) (fun _ => ha)
    rcases hv with hv | ⟨k, hk, hkv⟩
    · obtain ⟨⟨v', c⟩, ht, rfl⟩ := List.mem_map.mp hv
      unfold slope at hs
      rw [sum_key (P := fun k => k = v') n1 ht (fun _ _ => Iff.rfl), List.map_congr_left (g := fun _ => (0 : ℚ)) (fun t ht => by
        rw [if_neg (hnq t ht).1, if_neg (hnq t ht).2])] at hs
      simp at hs
      exact z1 _ ht hs
    · obtain ⟨t, ht, rfl⟩ := List.mem_map.mp hk
      exact hkv.elim (hnq t ht).1 (hnq t ht).2
  · rintro ⟨f, g, _, _, hfg, hne⟩
    by_contra hv
    exact hne (energy_unused hv fun w hw => by rw [hfg w hw])

/-- A model with variables: `x[0]` occurs, so the energy depends on it. -/
example : Ex.physQubo.FromCalls ∧ Ex.physQubo.Uses "x[0]" :=
  ⟨⟨_, fun _ _ => 0, fun _ => "1", [("p", 2)], Ex.qubo, _, Ex.qubo_made, by simp, rfl⟩, by
    unfold Physical.Uses; decide +kernel⟩

end Sawatabi.Props
