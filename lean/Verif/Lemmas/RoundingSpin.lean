import Verif.Model.RoundingSpin
import Verif.Spec.RoundingSpin
import Verif.Lemmas.Rounding

/-!
# Lemmas: rounding in the conversion to spins
-/

namespace Sawatabi

variable {ls : List String} {s : Problem} {u w top : ℚ} {D : Nat} {round : ℚ → ℚ} {b c : Bqm} {l : List ℚ} {a : ℚ} {p : Physical}

/-! ## Sums -/

theorem Summed.length_pos (h : Summed round l a) : 1 ≤ l.length := by
  induction h with
  | one q => simp
  | add _ _ ih ih' => rw [List.length_append]; omega
  | perm _ hp ih => rw [← hp.length_eq]; exact ih

theorem Summed.error (hu : 0 ≤ u) (hr : Relative u round) (h : Summed round l a) :
    |a - l.sum| ≤ ((1 + u) ^ (l.length - 1) - 1) * (l.map abs).sum := by
  induction h with
  | one q => simp
  | @add l l' a b h h' ih ih' =>
    have n1 := h.length_pos
    have n2 := h'.length_pos
    rw [List.sum_append, List.map_append, List.sum_append, List.length_append]
    have hS : |l.sum| ≤ (l.map abs).sum := by simpa using abs_sum_le l id abs fun _ _ => le_rfl
    have hS' : |l'.sum| ≤ (l'.map abs).sum := by simpa using abs_sum_le l' id abs fun _ _ => le_rfl
    generalize l.sum = A at *
    generalize l'.sum = B at *
    have p1 := le_trans (abs_nonneg _) hS
    have p2 := le_trans (abs_nonneg _) hS'
    generalize (l.map abs).sum = S at *
    generalize (l'.map abs).sum = S' at *
    have hk : (1 + u) ^ (l.length - 1) ≤ (1 + u) ^ (l.length + l'.length - 2) :=
      pow_le_pow_right₀ (by linarith) (by omega)
    have hk' : (1 + u) ^ (l'.length - 1) ≤ (1 + u) ^ (l.length + l'.length - 2) :=
      pow_le_pow_right₀ (by linarith) (by omega)
    rw [show l.length + l'.length - 1 = l.length + l'.length - 2 + 1 by omega, pow_succ]
    generalize (1 + u) ^ (l.length + l'.length - 2) = K at *
    have e1 : |a - A| ≤ (K - 1) * S := le_trans ih (mul_le_mul_of_nonneg_right (by linarith) p1)
    have e2 : |b - B| ≤ (K - 1) * S' := le_trans ih' (mul_le_mul_of_nonneg_right (by linarith) p2)
    have e3 : |a + b - (A + B)| ≤ (K - 1) * (S + S') := by
      have := abs_add_le (a - A) (b - B)
      rw [show a - A + (b - B) = a + b - (A + B) by ring] at this
      linarith
    have e4 : |a + b| ≤ K * (S + S') := by
      have h1 := abs_add_le (a + b - (A + B)) (A + B)
      rw [sub_add_cancel] at h1
      have h2 := abs_add_le A B
      linarith
    have e5 := hr (a + b)
    have e6 := mul_le_mul_of_nonneg_left e4 hu
    have e7 := abs_add_le (round (a + b) - (a + b)) (a + b - (A + B))
    rw [sub_add_sub_cancel] at e7
    linarith
  | perm _ hp ih => rwa [← hp.sum_eq, ← hp.length_eq, ← (hp.map abs).sum_eq]

theorem Summed.keeps (hr : Keeps w top round) (h : Summed round l a) (hm : ∀ t ∈ l, ∃ z : ℤ, t = z * w)
    (ht : (l.map abs).sum ≤ top) : a = l.sum := by
  induction h with
  | one q => simp
  | @add l l' a b h h' ih ih' =>
    rw [List.map_append, List.sum_append] at ht
    have p1 := abs_sum_nonneg l id
    have p2 := abs_sum_nonneg l' id
    change 0 ≤ (l.map abs).sum at p1
    change 0 ≤ (l'.map abs).sum at p2
    have e1 := ih (fun t ht => hm t (List.mem_append_left _ ht)) (by linarith)
    have e2 := ih' (fun t ht => hm t (List.mem_append_right _ ht)) (by linarith)
    obtain ⟨z, hz⟩ := multiples_sum (l ++ l') id hm
    rw [List.map_id, List.sum_append] at hz
    rw [List.sum_append, e1, e2, hz]
    apply hr
    rw [← hz]
    have h1 : |l.sum| ≤ (l.map abs).sum := by simpa using abs_sum_le l id abs fun _ _ => le_rfl
    have h2 : |l'.sum| ≤ (l'.map abs).sum := by simpa using abs_sum_le l' id abs fun _ _ => le_rfl
    have h3 := abs_add_le l.sum l'.sum
    linarith
  | perm _ hp ih =>
    rw [← hp.sum_eq]
    exact ih (fun t ht => hm t (hp.mem_iff.mp ht)) (by rwa [(hp.map abs).sum_eq])

/-! ## The converted coefficients -/

theorem map_bias {d : List (String × ℚ)} (hd : (dkeys d).Nodup) : (dkeys d).map (fun v => (v, (dget d v).getD 0)) = d := by
  have : ∀ kv ∈ d, (kv.1, (dget d kv.1).getD 0) = kv := by
    rintro ⟨k, v⟩ hkv
    rw [dget_of_mem hd hkv]
    rfl
  unfold dkeys
  rw [List.map_map]
  conv_rhs => rw [← List.map_id d]
  exact List.map_congr_left this

theorem ToSpins.linear_eq (h : ToSpins round b c) : c.linear = b.variables.map fun v => (v, c.bias v) := by
  have hn : (dkeys c.linear).Nodup := by rw [h.labels]; exact b.variables_nodup
  rw [← h.labels]
  exact (map_bias hn).symm

theorem ToSpins.quad_keys (h : ToSpins round b c) : dkeys c.quad = dkeys b.quad := by
  rw [h.quad]
  simp [dkeys, Function.comp_def]

theorem ToSpins.wf (h : ToSpins round b c) (hb : b.Wf) : c.Wf :=
  ⟨by rw [h.labels]; exact b.variables_nodup, by rw [h.quad_keys]; exact hb.quad, by rw [h.quad_keys]; exact hb.ordered⟩

theorem ToSpins.mem (h : ToSpins round b c) (v : String) : v ∈ c.variables ↔ v ∈ b.variables := by
  rw [Bqm.mem_variables, h.labels, h.quad_keys]
  constructor
  · rintro (h | h)
    · exact h
    · exact (Bqm.mem_variables b v).mpr (.inr h)
  · exact .inl

/-- The sum of the absolute summands of a converted linear coefficient. -/
def Bqm.spinMass (b : Bqm) (v : String) : ℚ := |b.bias v| / 2 + ((b.neighbours v).map fun e => |e.2|).sum / 4

theorem quarters {α : Type} (l : List (α × ℚ)) : ((l.map fun e => e.2 / 4).map abs).sum = (l.map fun e => |e.2|).sum / 4 := by
  induction l with
  | nil => simp
  | cons e l ih =>
    rw [List.map_cons, List.map_cons, List.sum_cons, ih, List.map_cons, List.sum_cons, abs_div,
      abs_of_pos (show (0 : ℚ) < 4 by norm_num)]
    ring

theorem quarters_sum {α : Type} (l : List (α × ℚ)) : (l.map fun e => e.2 / 4).sum = (l.map (·.2)).sum / 4 := by
  induction l with
  | nil => simp
  | cons e l ih => rw [List.map_cons, List.sum_cons, ih, List.map_cons, List.sum_cons]; ring

theorem halves (b : Bqm) (vs : List String) : ((vs.map fun v => b.bias v / 2).map abs).sum = (vs.map fun v => |b.bias v|).sum / 2 := by
  induction vs with
  | nil => simp
  | cons e l ih =>
    rw [List.map_cons, List.map_cons, List.sum_cons, ih, List.map_cons, List.sum_cons, abs_div,
      abs_of_pos (show (0 : ℚ) < 2 by norm_num)]
    ring

theorem halves_sum (b : Bqm) (vs : List String) : (vs.map fun v => b.bias v / 2).sum = (vs.map b.bias).sum / 2 := by
  induction vs with
  | nil => simp
  | cons e l ih => rw [List.map_cons, List.sum_cons, ih, List.map_cons, List.sum_cons]; ring

theorem neighbours_length (b : Bqm) (v : String) : (b.neighbours v).length ≤ b.quad.length := List.length_filterMap_le _ _

theorem spinMass_eq (b : Bqm) (v : String) : ((b.bias v / 2 :: (b.neighbours v).map fun e => e.2 / 4).map abs).sum = b.spinMass v := by
  rw [List.map_cons, List.sum_cons, quarters, abs_div, abs_of_pos (show (0 : ℚ) < 2 by norm_num)]
  rfl

theorem spinMass_sum (hb : b.Wf) : (b.variables.map b.spinMass).sum = (b.linear.map fun kv => |kv.2|).sum / 2 +
    (b.quad.map fun kv => |kv.2|).sum / 2 := by
  have h1 := Bqm.abs_neighbours hb
  rw [← Bqm.abs_bias hb, show (b.quad.map fun kv => |kv.2|).sum / 2 = 2 * (b.quad.map fun kv => |kv.2|).sum / 4 by ring, ← h1]
  unfold Bqm.spinMass
  generalize b.variables = vs
  induction vs with
  | nil => simp
  | cons v vs ih => simp only [List.map_cons, List.sum_cons, ih]; ring

theorem offsetMass_eq (hb : b.Wf) :
    ((b.offset :: ((b.variables.map fun v => b.bias v / 2) ++ b.quad.map fun kv => kv.2 / 4)).map abs).sum =
      |b.offset| + (b.linear.map fun kv => |kv.2|).sum / 2 + (b.quad.map fun kv => |kv.2|).sum / 4 := by
  rw [List.map_cons, List.sum_cons, List.map_append, List.sum_append, halves, quarters, Bqm.abs_bias hb]
  ring

theorem ToSpins.linear_error (h : ToSpins round b c) (hu : 0 ≤ u) (hr : Relative u round) {v : String} (hv : v ∈ b.variables) :
    |c.bias v - (b.bias v / 2 + ((b.neighbours v).map (·.2)).sum / 4)| ≤
      ((1 + u) ^ (b.variables.length + b.quad.length) - 1) * b.spinMass v := by
  have e := (h.linear v hv).error hu hr
  rw [spinMass_eq, List.sum_cons, quarters_sum, List.length_cons, List.length_map] at e
  refine le_trans e (mul_le_mul_of_nonneg_right ?_ ?_)
  · have := neighbours_length b v
    have : (1 + u) ^ ((b.neighbours v).length + 1 - 1) ≤ (1 + u) ^ (b.variables.length + b.quad.length) :=
      pow_le_pow_right₀ (by linarith) (by omega)
    linarith
  · rw [← spinMass_eq]
    exact abs_sum_nonneg _ id

theorem ToSpins.offset_error (h : ToSpins round b c) (hb : b.Wf) (hu : 0 ≤ u) (hr : Relative u round) :
    |c.offset - b.toSpin.offset| ≤ ((1 + u) ^ (b.variables.length + b.quad.length) - 1) *
      (|b.offset| + (b.linear.map fun kv => |kv.2|).sum / 2 + (b.quad.map fun kv => |kv.2|).sum / 4) := by
  have e := h.offset.error hu hr
  rw [offsetMass_eq hb, List.sum_cons, List.sum_append, halves_sum, quarters_sum, ← add_assoc] at e
  simp only [List.length_cons, List.length_append, List.length_map, Nat.add_sub_cancel] at e
  exact e

/-- The energies in the converted coefficients. -/
theorem ToSpins.energy_error (h : ToSpins round b c) (hb : b.Wf) (hu : 0 ≤ u) (hr : Relative u round) {σ : Assign}
    (hσ : ∀ l, |σ l| ≤ 1) :
    |c.energy σ - b.toSpin.energy σ| ≤ ((1 + u) ^ (b.variables.length + b.quad.length) - 1) * b.mass := by
  have h0 := h.offset_error hb hu hr
  have h1 : |(c.linear.map fun kv => kv.2 * σ kv.1).sum - (b.toSpin.linear.map fun kv => kv.2 * σ kv.1).sum| ≤
      ((1 + u) ^ (b.variables.length + b.quad.length) - 1) * (b.variables.map b.spinMass).sum := by
    rw [h.linear_eq]
    simp only [Bqm.toSpin, List.map_map, Function.comp_def]
    have key : ∀ vs : List String, (∀ v ∈ vs, v ∈ b.variables) → |(vs.map fun v => c.bias v * σ v).sum -
        (vs.map fun v => (b.bias v / 2 + ((b.neighbours v).map (·.2)).sum / 4) * σ v).sum| ≤
        ((1 + u) ^ (b.variables.length + b.quad.length) - 1) * (vs.map b.spinMass).sum := by
      intro vs
      induction vs with
      | nil => simp
      | cons v vs ih =>
        intro hvs
        have i1 := ih fun v hv => hvs v (List.mem_cons_of_mem _ hv)
        have i2 := h.linear_error hu hr (hvs v List.mem_cons_self)
        simp only [List.map_cons, List.sum_cons]
        have i3 : |(c.bias v - (b.bias v / 2 + ((b.neighbours v).map (·.2)).sum / 4)) * σ v| ≤
            ((1 + u) ^ (b.variables.length + b.quad.length) - 1) * b.spinMass v := by
          rw [abs_mul]
          exact le_trans (mul_le_of_le_one_right (abs_nonneg _) (hσ _)) i2
        have i4 := abs_add_le ((c.bias v - (b.bias v / 2 + ((b.neighbours v).map (·.2)).sum / 4)) * σ v)
          ((vs.map fun v => c.bias v * σ v).sum -
            (vs.map fun v => (b.bias v / 2 + ((b.neighbours v).map (·.2)).sum / 4) * σ v).sum)
        refine le_trans (le_of_eq ?_) (le_trans i4 ?_)
        · congr 1; ring
        · rw [mul_add]; linarith
    exact key b.variables fun _ h => h
  rw [spinMass_sum hb] at h1
  have h2 : c.quad = b.toSpin.quad := h.quad
  have hK : (1 : ℚ) ≤ (1 + u) ^ (b.variables.length + b.quad.length) := one_le_pow₀ (by linarith)
  have hQ := abs_sum_nonneg b.quad (·.2)
  unfold Bqm.energy Bqm.mass
  rw [h2]
  generalize (1 + u) ^ (b.variables.length + b.quad.length) = K at *
  have e := abs_add_le (c.offset - b.toSpin.offset)
    ((c.linear.map fun kv => kv.2 * σ kv.1).sum - (b.toSpin.linear.map fun kv => kv.2 * σ kv.1).sum)
  refine le_trans (le_of_eq ?_) (le_trans e ?_)
  · congr 1; ring
  · nlinarith

theorem sum_scaled (K : ℚ) (f : String → ℚ) (vs : List String) : (vs.map fun v => K * f v).sum = K * (vs.map f).sum := by
  induction vs with
  | nil => simp
  | cons v vs ih => simp only [List.map_cons, List.sum_cons, ih]; ring

/-- The converted coefficients are not much larger. -/
theorem ToSpins.mass (h : ToSpins round b c) (hb : b.Wf) (hu : 0 ≤ u) (hr : Relative u round) :
    c.mass ≤ (1 + u) ^ (b.variables.length + b.quad.length) * b.mass := by
  have hK : (1 : ℚ) ≤ (1 + u) ^ (b.variables.length + b.quad.length) := one_le_pow₀ (by linarith)
  have hQ := abs_sum_nonneg b.quad (·.2)
  have h0 := h.offset_error hb hu hr
  have o1 : |b.toSpin.offset| ≤ |b.offset| + (b.linear.map fun kv => |kv.2|).sum / 2 + (b.quad.map fun kv => |kv.2|).sum / 4 := by
    rw [← offsetMass_eq hb]
    have := abs_sum_le (b.offset :: ((b.variables.map fun v => b.bias v / 2) ++ b.quad.map fun kv => kv.2 / 4)) id abs
      fun _ _ => le_rfl
    rw [List.map_id, List.sum_cons, List.sum_append, halves_sum, quarters_sum, ← add_assoc] at this
    exact this
  have o2 := abs_add_le (c.offset - b.toSpin.offset) b.toSpin.offset
  rw [sub_add_cancel] at o2
  have h1 : (c.linear.map fun kv => |kv.2|).sum ≤
      (1 + u) ^ (b.variables.length + b.quad.length) * (b.variables.map b.spinMass).sum := by
    rw [h.linear_eq, List.map_map, ← sum_scaled]
    apply List.sum_le_sum
    intro v hv
    have i1 := h.linear_error hu hr hv
    have i2 : |b.bias v / 2 + ((b.neighbours v).map (·.2)).sum / 4| ≤ b.spinMass v := by
      rw [← spinMass_eq]
      have := abs_sum_le (b.bias v / 2 :: (b.neighbours v).map fun e => e.2 / 4) id abs fun _ _ => le_rfl
      rwa [List.map_id, List.sum_cons, quarters_sum] at this
    have i3 := abs_add_le (c.bias v - (b.bias v / 2 + ((b.neighbours v).map (·.2)).sum / 4))
      (b.bias v / 2 + ((b.neighbours v).map (·.2)).sum / 4)
    rw [sub_add_cancel] at i3
    simp only [Function.comp_apply]
    linarith
  rw [spinMass_sum hb] at h1
  have h2 : (c.quad.map fun kv => |kv.2|).sum = (b.quad.map fun kv => |kv.2|).sum / 4 := by
    rw [h.quad, ← quarters, List.map_map, List.map_map]
    rfl
  unfold Bqm.mass
  rw [h2]
  generalize (1 + u) ^ (b.variables.length + b.quad.length) = K at *
  nlinarith

/-- Without rounding errors the conversion is the exact one. -/
theorem ToSpins.exact (h : ToSpins round b c) (hb : b.Wf) (hm : b.Multiples w) (hr : Keeps (w / 4) top round) (ht : b.mass ≤ top) :
    c = b.toSpin := by
  have hl := abs_sum_nonneg b.linear (·.2)
  have hq := abs_sum_nonneg b.quad (·.2)
  unfold Bqm.mass at ht
  have half : ∀ q : ℚ, (∃ z : ℤ, q = z * w) → ∃ z : ℤ, q / 2 = z * (w / 4) := by
    rintro q ⟨z, rfl⟩; exact ⟨2 * z, by push_cast; ring⟩
  have quarter : ∀ q : ℚ, (∃ z : ℤ, q = z * w) → ∃ z : ℤ, q / 4 = z * (w / 4) := by
    rintro q ⟨z, rfl⟩; exact ⟨z, by ring⟩
  have whole : ∀ q : ℚ, (∃ z : ℤ, q = z * w) → ∃ z : ℤ, q = z * (w / 4) := by
    rintro q ⟨z, rfl⟩; exact ⟨4 * z, by push_cast; ring⟩
  have h1 : ∀ v ∈ b.variables, c.bias v = b.bias v / 2 + ((b.neighbours v).map (·.2)).sum / 4 := by
    intro v hv
    obtain ⟨m1, m2⟩ := Bqm.local_multiples hm v
    have := (h.linear v hv).keeps hr (by
      intro t ht
      rcases List.mem_cons.mp ht with rfl | ht
      · exact half _ m1
      · obtain ⟨e, he, rfl⟩ := List.mem_map.mp ht
        exact quarter _ (m2 e he)) (by
      rw [spinMass_eq]
      have := b.local_mass v
      unfold Bqm.mass at this
      have e1 := abs_nonneg (b.bias v)
      have e2 := abs_sum_nonneg (b.neighbours v) (·.2)
      unfold Bqm.spinMass
      linarith)
    rwa [List.sum_cons, quarters_sum] at this
  have h2 : c.offset = b.toSpin.offset := by
    have := h.offset.keeps hr (by
      intro t ht
      rcases List.mem_cons.mp ht with rfl | ht
      · exact whole _ hm.1
      · rcases List.mem_append.mp ht with ht | ht
        · obtain ⟨v, _, rfl⟩ := List.mem_map.mp ht
          exact half _ (Bqm.local_multiples hm v).1
        · obtain ⟨e, he, rfl⟩ := List.mem_map.mp ht
          exact quarter _ (hm.2.2 e he)) (by
      rw [offsetMass_eq hb]
      linarith)
    rw [List.sum_cons, List.sum_append, halves_sum, quarters_sum, ← add_assoc] at this
    exact this
  have h3 : c.linear = b.toSpin.linear := by
    rw [h.linear_eq]
    exact List.map_congr_left fun v hv => by rw [h1 v hv]
  obtain ⟨vt, lin, qu, off⟩ := c
  have e1 := h.vartype
  have e2 := h.quad
  simp only at e1 e2 h2 h3
  subst e1 e2 h2 h3
  rfl

/-! ## The prepared problem -/

theorem prepareC_ok {conv : Bqm → Bqm} (hp : p.Ready ls) (hc : ToSpins round (p.toBqm 1) (conv (p.toBqm 1)))
    (ht : p.mtype.vtype ≠ .spin) : ∃ s, prepareC conv p = .ok s ∧ s.Arrays ls ∧ s.model = p ∧ s.original = p.toBqm 1 ∧
      s.bqm = conv (p.toBqm 1) := by
  have hw := hc.wf (hp.wf 1)
  have ho : (conv (p.toBqm 1)).On ls := fun v => (hc.mem v).trans (hp.on 1 v)
  obtain ⟨l, h1, h2, h3⟩ := linearArray_ok hp ho
  obtain ⟨a, h4, h5, h6⟩ := adjArray_ok hp hw ho
  unfold prepareC
  have ht' : (p.toBqm 1).vartype ≠ .spin := ht
  simp only [if_pos ht', h1, h4]
  exact ⟨_, rfl, ⟨hp, hw, ho, h3, h6⟩, rfl, rfl, rfl⟩

theorem prepareC_spin {conv : Bqm → Bqm} (ht : p.mtype.vtype = .spin) : prepareC conv p = prepare p := by
  unfold prepareC prepare
  have ht' : ¬ (p.toBqm 1).vartype ≠ .spin := fun h => h ht
  simp only [if_neg ht']

theorem prepareC_exact {conv : Bqm → Bqm} (h : conv (p.toBqm 1) = (p.toBqm 1).toSpin) : prepareC conv p = prepare p := by
  unfold prepareC prepare
  simp only [h]

end Sawatabi
