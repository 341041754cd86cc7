import Verif.Model.RoundingPhysical
import Verif.Spec.RoundingPhysical
import Verif.Lemmas.Rounding
import Verif.Lemmas.Prune
import Verif.Lemmas.Compile

/-!
# Lemmas about to_physical in floating point
-/

namespace Sawatabi

variable {round : ℚ → ℚ} {ph : List (String × ℚ)} {u w top : ℚ}

/-! ## Sums of rounded numbers -/

theorem roundedSum_map_error (hu : 0 ≤ u) (hr : Relative u round) (l : List ℚ) :
    ∀ (k : Nat) (d d' S : ℚ), |d| ≤ S → |d' - d| ≤ ((1 + u) ^ (k + 1) - 1) * S →
      |roundedSum round d' (l.map round) - (d + l.sum)| ≤ ((1 + u) ^ (k + 1 + l.length) - 1) * (S + (l.map abs).sum) := by
  induction l with
  | nil => intro k d d' S _ h; simpa [roundedSum] using h
  | cons t l ih =>
    intro k d d' S hS h
    have hp : (1 : ℚ) ≤ (1 + u) ^ k := one_le_pow₀ (by linarith)
    have hp1 : (1 + u) ^ (k + 1) = (1 + u) ^ k * (1 + u) := pow_succ _ _
    have ht := hr t
    have ha := abs_nonneg t
    have hS0 : 0 ≤ S := le_trans (abs_nonneg _) hS
    have hu1 : u * |t| ≤ ((1 + u) ^ (k + 1) - 1) * |t| := by
      apply mul_le_mul_of_nonneg_right _ ha
      rw [hp1]
      nlinarith
    have h1 : |d' + round t - (d + t)| ≤ ((1 + u) ^ (k + 1) - 1) * (S + |t|) := by
      have : d' + round t - (d + t) = (d' - d) + (round t - t) := by ring
      rw [this]
      have := abs_add_le (d' - d) (round t - t)
      nlinarith
    have h2 : |d' + round t| ≤ (1 + u) ^ (k + 1) * (S + |t|) := by
      have e : d' + round t = (d' + round t - (d + t)) + (d + t) := by ring
      have := abs_add_le (d' + round t - (d + t)) (d + t)
      rw [← e] at this
      have := abs_add_le d t
      nlinarith
    have h3 := hr (d' + round t)
    have h4 : |round (d' + round t) - (d + t)| ≤ ((1 + u) ^ (k + 1 + 1) - 1) * (S + |t|) := by
      have e : round (d' + round t) - (d + t) = (round (d' + round t) - (d' + round t)) + (d' + round t - (d + t)) := by ring
      rw [e]
      have := abs_add_le (round (d' + round t) - (d' + round t)) (d' + round t - (d + t))
      have h5 : u * |d' + round t| ≤ u * ((1 + u) ^ (k + 1) * (S + |t|)) := mul_le_mul_of_nonneg_left h2 hu
      have e2 : ((1 + u) ^ (k + 1 + 1) - 1) * (S + |t|) =
          u * ((1 + u) ^ (k + 1) * (S + |t|)) + ((1 + u) ^ (k + 1) - 1) * (S + |t|) := by
        rw [pow_succ]; ring
      rw [e2]
      linarith
    have h6 := ih (k + 1) (d + t) (round (d' + round t)) (S + |t|) (le_trans (abs_add_le _ _) (by linarith)) h4
    simp only [List.map_cons, List.sum_cons, List.length_cons]
    show |roundedSum round (round (d' + round t)) (l.map round) - _| ≤ _
    have e3 : d + (t + l.sum) = d + t + l.sum := by ring
    have e4 : S + (|t| + (l.map abs).sum) = S + |t| + (l.map abs).sum := by ring
    have e5 : k + 1 + (l.length + 1) = k + 1 + 1 + l.length := by ring
    rw [e3, e4, e5]
    exact h6

/-! ## The dictionaries -/

section dict
variable {κ : Type} [DecidableEq κ]

/-- The dictionary of the sums. -/
def sumsR (round : ℚ → ℚ) (l : List (κ × ℚ)) : List (κ × ℚ) := l.foldl (fun d p => daddR round d p.1 (round p.2)) []

/-- The sum of the numbers with a key. -/
def keySum (round : ℚ → ℚ) : List ℚ → Option ℚ
  | [] => none
  | v :: vs => some (roundedSum round (round v) (vs.map round))

theorem keySum_append (vs : List ℚ) (v : ℚ) : keySum round (vs ++ [v]) =
    match keySum round vs with
    | some q => some (round (q + round v))
    | none => some (round v) := by
  cases vs with
  | nil => rfl
  | cons a vs => simp [keySum, roundedSum]

theorem sumsR_append (l : List (κ × ℚ)) (p : κ × ℚ) : sumsR round (l ++ [p]) = daddR round (sumsR round l) p.1 (round p.2) := by
  simp [sumsR]

theorem daddR_get (d : List (κ × ℚ)) (k k' : κ) (v : ℚ) : dget (daddR round d k v) k' =
    if k' = k then (match dget d k with
      | some q => some (round (q + v))
      | none => some v) else dget d k' := by
  unfold daddR
  by_cases h : k' = k
  · subst h
    rw [if_pos rfl]
    cases dget d k' <;> simp [dget_dset_self]
  · rw [if_neg h]
    cases dget d k <;> exact dget_dset_ne _ _ h

theorem dkeys_dset_congr (d : List (κ × ℚ)) (k : κ) (a b : ℚ) : dkeys (dset d k a) = dkeys (dset d k b) := by
  induction d with
  | nil => rfl
  | cons x d ih =>
    simp only [dset]
    split
    · rfl
    · simp only [dkeys, List.map_cons] at ih ⊢
      rw [ih]

theorem daddR_keys (d : List (κ × ℚ)) (k : κ) (v : ℚ) : dkeys (daddR round d k v) = dkeys (dadd d k v) := by
  unfold daddR dadd
  cases dget d k with
  | none => rfl
  | some q => exact dkeys_dset_congr _ _ _ _

theorem sumsR_get (l : List (κ × ℚ)) (k : κ) :
    dget (sumsR round l) k = keySum round ((l.filter fun p => decide (p.1 = k)).map (·.2)) := by
  induction l using List.reverseRecOn with
  | nil => rfl
  | append_singleton l p ih =>
    rw [sumsR_append, daddR_get, List.filter_append, List.map_append]
    by_cases h : k = p.1
    · subst h
      rw [if_pos rfl, List.filter_cons_of_pos (by simp), ih]
      simp only [List.filter_nil, List.map_cons, List.map_nil]
      rw [keySum_append]
    · rw [if_neg h, ih, List.filter_cons_of_neg (by simpa using Ne.symm h)]
      simp

theorem sumsR_keys (l : List (κ × ℚ)) : (dkeys (sumsR round l)).Nodup ∧ ∀ k, k ∈ dkeys (sumsR round l) ↔ ∃ p ∈ l, p.1 = k := by
  induction l using List.reverseRecOn with
  | nil => simp [sumsR, dkeys]
  | append_singleton l p ih =>
    rw [sumsR_append, daddR_keys]
    refine ⟨nodup_dadd _ ih.1, fun k => ?_⟩
    rw [mem_dkeys_dadd, ih.2]
    constructor
    · rintro (rfl | ⟨q, h1, h2⟩)
      · exact ⟨p, by simp, rfl⟩
      · exact ⟨q, by simp [h1], h2⟩
    · rintro ⟨q, h1, h2⟩
      rcases List.mem_append.mp h1 with h1 | h1
      · exact .inr ⟨q, h1, h2⟩
      · simp only [List.mem_singleton] at h1
        subst h1
        exact .inl h2.symm

theorem sum_keys (d : List (κ × ℚ)) (hd : (dkeys d).Nodup) (f : κ → ℚ) :
    (d.map fun kv => kv.2 * f kv.1).sum = ((dkeys d).map fun k => (dget d k).getD 0 * f k).sum := by
  induction d with
  | nil => rfl
  | cons x d ih =>
    obtain ⟨k, v⟩ := x
    have hn := List.nodup_cons.mp hd
    simp only [dkeys, List.map_cons, List.sum_cons, dget, if_true, Option.getD_some] at ih ⊢
    rw [ih hn.2]
    congr 2
    apply List.map_congr_left
    intro k' hk'
    rw [if_neg]
    rintro rfl
    exact hn.1 hk'

/-- The error of one sum. -/
theorem keySum_error (hu : 0 ≤ u) (hr : Relative u round) (vs : List ℚ) :
    |(keySum round vs).getD 0 - vs.sum| ≤ ((1 + u) ^ vs.length - 1) * (vs.map abs).sum := by
  cases vs with
  | nil => simp [keySum]
  | cons v vs =>
    have := roundedSum_map_error hu hr vs 0 v (round v) |v| le_rfl (by simpa using hr v)
    simp only [keySum, Option.getD_some, List.sum_cons, List.length_cons, List.map_cons]
    rw [show vs.length + 1 = 0 + 1 + vs.length by ring]
    exact this

/-- The error of all sums. -/
theorem sumsR_error (hu : 0 ≤ u) (hr : Relative u round) (l : List (κ × ℚ)) {K : Nat}
    (hK : ∀ k, (l.filter fun p => decide (p.1 = k)).length ≤ K) (f : κ → ℚ) (hf : ∀ k, |f k| ≤ 1) :
    |((sumsR round l).map fun kv => kv.2 * f kv.1).sum - (l.map fun p => p.2 * f p.1).sum| ≤
      ((1 + u) ^ K - 1) * (l.map fun p => |p.2|).sum := by
  obtain ⟨hnd, hmem⟩ := sumsR_keys (round := round) l
  have hin : ∀ p ∈ l, p.1 ∈ dkeys (sumsR round l) := fun p hp => (hmem _).mpr ⟨p, hp, rfl⟩
  rw [sum_keys _ hnd, ← Tsp.sum_groups (fun p : κ × ℚ => p.1) (fun p => p.2 * f p.1) l hnd hin,
    ← Tsp.sum_groups (fun p : κ × ℚ => p.1) (fun p => |p.2|) l hnd hin]
  generalize dkeys (sumsR round l) = ks
  induction ks with
  | nil => simp
  | cons k ks ih =>
    simp only [List.map_cons, List.sum_cons, sumsR_get] at ih ⊢
    set L := l.filter fun p => decide (p.1 = k) with hL
    have e1 : (L.map fun p => p.2 * f p.1).sum = (L.map (·.2)).sum * f k := by
      have : ∀ p ∈ L, p.1 = k := fun p hp => by simpa using (List.mem_filter.mp hp).2
      clear_value L
      clear hL
      induction L with
      | nil => simp
      | cons p L ihL =>
        simp only [List.map_cons, List.sum_cons]
        rw [ihL fun p hp => this p (by simp [hp]), this p (by simp)]
        ring
    have e2 := keySum_error hu hr (L.map (·.2))
    rw [List.length_map, List.map_map] at e2
    have e3 : ((1 + u) ^ L.length - 1) * (L.map (abs ∘ fun p => p.2)).sum ≤ ((1 + u) ^ K - 1) * (L.map fun p => |p.2|).sum := by
      apply mul_le_mul_of_nonneg_right _ (abs_sum_nonneg _ _)
      have := pow_le_pow_right₀ (by linarith : (1 : ℚ) ≤ 1 + u) (hK k)
      linarith
    have e4 : |(keySum round (L.map (·.2))).getD 0 * f k - (L.map (·.2)).sum * f k| ≤
        |(keySum round (L.map (·.2))).getD 0 - (L.map (·.2)).sum| := by
      rw [← sub_mul, abs_mul]
      exact mul_le_of_le_one_right (abs_nonneg _) (hf k)
    rw [e1, mul_add, add_sub_add_comm]
    refine le_trans (abs_add_le _ _) (add_le_add ?_ ih)
    exact le_trans e4 (le_trans e2 e3)

/-- Multiples of `w` are added up exactly. -/
theorem sumsR_exact (hr : Keeps w top round) (l : List (κ × ℚ)) (hm : ∀ p ∈ l, ∃ z : ℤ, p.2 = z * w)
    (ht : (l.map fun p => |p.2|).sum ≤ top) : sumsR round l = l.foldl (fun d p => dadd d p.1 p.2) [] := by
  have key : ∀ l : List (κ × ℚ), (∀ p ∈ l, ∃ z : ℤ, p.2 = z * w) → (l.map fun p => |p.2|).sum ≤ top →
      sumsR round l = l.foldl (fun d p => dadd d p.1 p.2) [] ∧
      ∀ k, ∃ z : ℤ, (dget (sumsR round l) k).getD 0 = z * w ∧ |(dget (sumsR round l) k).getD 0| ≤ (l.map fun p => |p.2|).sum := by
    intro l
    induction l using List.reverseRecOn with
    | nil => intro _ _; exact ⟨rfl, fun k => ⟨0, by simp [sumsR, dget], by simp [sumsR, dget]⟩⟩
    | append_singleton l p ih =>
      intro hm ht
      rw [List.map_append, List.sum_append] at ht
      simp only [List.map_cons, List.map_nil, List.sum_cons, List.sum_nil, add_zero] at ht
      have hp0 := abs_nonneg p.2
      have hl0 := abs_sum_nonneg l fun p : κ × ℚ => p.2
      obtain ⟨h1, h2⟩ := ih (fun q hq => hm q (by simp [hq])) (by linarith)
      obtain ⟨z, hz⟩ := hm p (by simp)
      have hrp : round p.2 = p.2 := by
        rw [hz]
        apply hr
        rw [← hz]
        linarith
      have hsum : ∀ q, dget (sumsR round l) p.1 = some q → round (q + p.2) = q + p.2 := by
        intro q hq
        obtain ⟨z', e1, e2⟩ := h2 p.1
        rw [hq, Option.getD_some] at e1 e2
        have e3 : q + p.2 = ((z' + z : ℤ) : ℚ) * w := by rw [e1, hz]; push_cast; ring
        rw [e3]
        apply hr
        rw [← e3]
        have := abs_add_le q p.2
        linarith
      have hadd : daddR round (sumsR round l) p.1 p.2 = dadd (sumsR round l) p.1 p.2 := by
        unfold daddR dadd
        cases hd : dget (sumsR round l) p.1 with
        | none => rfl
        | some q => simp only [hsum q hd]
      rw [sumsR_append, hrp, hadd]
      refine ⟨by rw [h1, List.foldl_append]; rfl, fun k => ?_⟩
      rw [List.map_append, List.sum_append]
      simp only [List.map_cons, List.map_nil, List.sum_cons, List.sum_nil, add_zero]
      obtain ⟨z', e1, e2⟩ := h2 k
      by_cases hk : k = p.1
      · subst hk
        rw [dget_dadd_self, Option.getD_some]
        refine ⟨z' + z, by rw [e1, hz]; push_cast; ring, ?_⟩
        have := abs_add_le ((dget (sumsR round l) p.1).getD 0) p.2
        linarith
      · rw [dget_dadd_ne _ _ hk]
        exact ⟨z', e1, by linarith⟩
  exact (key l hm ht).1

end dict

/-! ## The grouping loop -/

/-- The keys and weights of the active 1-body interactions. -/
def linPairs (rows : List Row) : List (String × ℚ) := rows.filterMap fun r =>
  if r.removed then none else match r.inter with
    | .lin v => some (v.label, r.weight)
    | .quad _ _ => none

/-- The keys and weights of the active 2-body interactions. -/
def quadPairs (rows : List Row) : List ((String × String) × ℚ) := rows.filterMap fun r =>
  if r.removed then none else match r.inter with
    | .lin _ => none
    | .quad v w => some ((v.label, w.label), r.weight)

/-- An interaction without placeholders. -/
def Row.Plain (r : Row) : Prop := r.removed = false → ∃ a b, r.coef = .num a ∧ r.scale = .num b

theorem Row.weight_num {r : Row} {a b : ℚ} (ha : r.coef = .num a) (hb : r.scale = .num b) : r.weight = a * b := by
  obtain ⟨_, _, c, s, _, _, _⟩ := r
  subst ha hb
  rfl

theorem groupFoldR_ok (rows : List Row) (h : ∀ r ∈ rows, r.Plain) (g : Groups) :
    rows.foldlM (groupStepR round ph) g = .ok
      ⟨(linPairs rows).foldl (fun d p => daddR round d p.1 (round p.2)) g.linear,
        (quadPairs rows).foldl (fun d p => daddR round d p.1 (round p.2)) g.quad,
        g.willRemove ++ (rows.filter (·.removed)).map (·.name)⟩ := by
  induction rows generalizing g with
  | nil => simp [linPairs, quadPairs, pure, Except.pure]
  | cons r rows ih =>
    rw [List.foldlM_cons]
    have hr := h r (by simp)
    replace ih := ih fun r hr => h r (by simp [hr])
    by_cases hrm : r.removed = true
    · have e : groupStepR round ph g r = .ok { g with willRemove := g.willRemove ++ [r.name] } := by
        unfold groupStepR; simp only [hrm, if_true]; rfl
      rw [e, Except.bind_ok, ih]
      simp [linPairs, quadPairs, hrm]
    · have hrf : r.removed = false := by simpa using hrm
      obtain ⟨a, b, ha, hb⟩ := hr hrf
      have hw := Row.weight_num ha hb
      have e : groupStepR round ph g r = match r.inter with
          | .lin v => .ok { g with linear := daddR round g.linear v.label (round (a * b)) }
          | .quad v w => .ok { g with quad := daddR round g.quad (v.label, w.label) (round (a * b)) } := by
        unfold groupStepR
        simp only [hrf, Bool.false_eq_true, if_false, ha, hb, Coef.toExpr, PExpr.resolveR, Except.bind_ok, Except.pure_ok]
        cases r.inter <;> rfl
      rw [e]
      cases hi : r.inter with
      | lin v =>
        simp only
        rw [Except.bind_ok, ih]
        simp [linPairs, quadPairs, hrf, hi, hw]
      | quad v w =>
        simp only
        rw [Except.bind_ok, ih]
        simp [linPairs, quadPairs, hrf, hi, hw]

theorem groupFold_plain (rows : List Row) (h : ∀ r ∈ rows, r.Plain) (g : Groups) :
    rows.foldlM (groupStep ph) g = .ok
      ⟨(linPairs rows).foldl (fun d p => dadd d p.1 p.2) g.linear,
        (quadPairs rows).foldl (fun d p => dadd d p.1 p.2) g.quad,
        g.willRemove ++ (rows.filter (·.removed)).map (·.name)⟩ := by
  induction rows generalizing g with
  | nil => simp [linPairs, quadPairs, pure, Except.pure]
  | cons r rows ih =>
    rw [List.foldlM_cons]
    have hr := h r (by simp)
    replace ih := ih fun r hr => h r (by simp [hr])
    rw [groupStep_run]
    by_cases hrm : r.removed = true
    · rw [if_pos hrm, Except.bind_ok, ih]
      simp [linPairs, quadPairs, hrm]
    · have hrf : r.removed = false := by simpa using hrm
      obtain ⟨a, b, ha, hb⟩ := hr hrf
      have hw := Row.weight_num ha hb
      rw [if_neg hrm, ha, hb]
      simp only [Coef.mul, Coef.resolve, Coef.toExpr, PExpr.resolve]
      cases hi : r.inter with
      | lin v =>
        simp only
        rw [Except.bind_ok, ih]
        simp [linPairs, quadPairs, hrf, hi, hw]
      | quad v w =>
        simp only
        rw [Except.bind_ok, ih]
        simp [linPairs, quadPairs, hrf, hi, hw]

/-- The sum of the terms, by the two kinds. -/
theorem terms_pairs (rows : List Row) (h : ∀ r ∈ rows, r.Plain) (ρ : PEnv) (σ : Assign) :
    (rows.map (Row.term ρ σ)).sum =
      ((linPairs rows).map fun p => p.2 * σ p.1).sum + ((quadPairs rows).map fun p => p.2 * (σ p.1.1 * σ p.1.2)).sum := by
  induction rows with
  | nil => simp [linPairs, quadPairs]
  | cons r rows ih =>
    rw [List.map_cons, List.sum_cons, ih fun r hr => h r (by simp [hr])]
    by_cases hrm : r.removed = true
    · simp [linPairs, quadPairs, Row.term, hrm]
    · have hrf : r.removed = false := by simpa using hrm
      obtain ⟨a, b, ha, hb⟩ := h r (by simp) hrf
      have hw := Row.weight_num ha hb
      cases hi : r.inter with
      | lin v =>
        simp [linPairs, quadPairs, Row.term, hrf, hi, hw, ha, hb, Coef.eval, Inter.value]
        ring
      | quad v w =>
        simp [linPairs, quadPairs, Row.term, hrf, hi, hw, ha, hb, Coef.eval, Inter.value]
        ring

theorem weights_pairs (rows : List Row) :
    ((rows.filter fun r => !r.removed).map fun r => |r.weight|).sum =
      ((linPairs rows).map fun p => |p.2|).sum + ((quadPairs rows).map fun p => |p.2|).sum := by
  induction rows with
  | nil => simp [linPairs, quadPairs]
  | cons r rows ih =>
    by_cases hrm : r.removed = true
    · simpa [linPairs, quadPairs, hrm] using ih
    · have hrf : r.removed = false := by simpa using hrm
      cases hi : r.inter with
      | lin v =>
        simp only [linPairs, quadPairs, hrf, hi, List.filterMap_cons, List.filter_cons] at ih ⊢
        simp only [Bool.not_false, if_true, Bool.false_eq_true, if_false, List.map_cons, List.sum_cons]
        rw [ih]
        ring
      | quad v w =>
        simp only [linPairs, quadPairs, hrf, hi, List.filterMap_cons, List.filter_cons] at ih ⊢
        simp only [Bool.not_false, if_true, Bool.false_eq_true, if_false, List.map_cons, List.sum_cons]
        rw [ih]
        ring

theorem linPairs_key (rows : List Row) (k : String) :
    ((linPairs rows).filter fun p => decide (p.1 = k)).map (·.2) =
      ((rows.filter fun r => !r.removed).filter fun r => decide ((Inter.lin ⟨.spin, k⟩).Same r.inter)).map (·.weight) := by
  induction rows with
  | nil => rfl
  | cons r rows ih =>
    by_cases hrm : r.removed = true
    · simpa [linPairs, hrm] using ih
    · have hrf : r.removed = false := by simpa using hrm
      cases hi : r.inter with
      | lin v =>
        by_cases hk : v.label = k
        · simpa [linPairs, hrf, hi, Inter.Same, hk] using ih
        · simpa [linPairs, hrf, hi, Inter.Same, hk, Ne.symm hk] using ih
      | quad v w => simpa [linPairs, hrf, hi, Inter.Same] using ih

theorem quadPairs_key (rows : List Row) (k : String × String) :
    ((quadPairs rows).filter fun p => decide (p.1 = k)).map (·.2) =
      ((rows.filter fun r => !r.removed).filter fun r =>
        decide ((Inter.quad ⟨.spin, k.1⟩ ⟨.spin, k.2⟩).Same r.inter)).map (·.weight) := by
  induction rows with
  | nil => rfl
  | cons r rows ih =>
    by_cases hrm : r.removed = true
    · simpa [quadPairs, hrm] using ih
    · have hrf : r.removed = false := by simpa using hrm
      cases hi : r.inter with
      | lin v => simpa [quadPairs, hrf, hi, Inter.Same] using ih
      | quad v w =>
        obtain ⟨k1, k2⟩ := k
        by_cases hk : k1 = v.label ∧ k2 = w.label
        · obtain ⟨rfl, rfl⟩ := hk
          simpa [quadPairs, hrf, hi, Inter.Same] using ih
        · have hk' : ¬ ((v.label, w.label) = (k1, k2)) := fun h => hk (by cases h; exact ⟨rfl, rfl⟩)
          simpa only [quadPairs, hrf, hi, Inter.Same, List.filterMap_cons, Bool.false_eq_true, if_false, List.filter_cons,
            Bool.not_false, if_true, hk, hk', decide_false] using ih

theorem linPairs_count (rows : List Row) (k : String) :
    ((linPairs rows).filter fun p => decide (p.1 = k)).length =
      ((rows.filter fun r => !r.removed).filter fun r => decide ((Inter.lin ⟨.spin, k⟩).Same r.inter)).length := by
  simpa using congrArg List.length (linPairs_key rows k)

theorem quadPairs_count (rows : List Row) (k : String × String) :
    ((quadPairs rows).filter fun p => decide (p.1 = k)).length =
      ((rows.filter fun r => !r.removed).filter fun r =>
        decide ((Inter.quad ⟨.spin, k.1⟩ ⟨.spin, k.2⟩).Same r.inter)).length := by
  simpa using congrArg List.length (quadPairs_key rows k)

theorem mem_linPairs {rows : List Row} {p : String × ℚ} (h : p ∈ linPairs rows) :
    ∃ r ∈ rows.filter fun r => !r.removed, p.2 = r.weight := by
  simp only [linPairs, List.mem_filterMap] at h
  obtain ⟨r, hr, h⟩ := h
  by_cases hrm : r.removed = true
  · simp [hrm] at h
  · cases hi : r.inter <;> simp [hrm, hi] at h
    subst h
    exact ⟨r, by simp [hr, hrm], rfl⟩

theorem mem_quadPairs {rows : List Row} {p : (String × String) × ℚ} (h : p ∈ quadPairs rows) :
    ∃ r ∈ rows.filter fun r => !r.removed, p.2 = r.weight := by
  simp only [quadPairs, List.mem_filterMap] at h
  obtain ⟨r, hr, h⟩ := h
  by_cases hrm : r.removed = true
  · simp [hrm] at h
  · cases hi : r.inter <;> simp [hrm, hi] at h
    subst h
    exact ⟨r, by simp [hr, hrm], rfl⟩

/-! ## `to_physical` -/

theorem toPhysicalR_run (env : Env) (clks : Nat → Nat → ℚ) (ids : Nat → String) (m : LModel) :
    (toPhysicalR round env clks ids ph).run m =
      match (m.constraints.zipIdx.forM (mergeConstraint env clks ids)).run m with
      | .error e m₁ => .error e m₁
      | .ok _ m₁ =>
        match groupR round ph m₁ with
        | .error e => .error e m₁
        | .ok g =>
          match m₁.offset.toExpr.resolveR round ph with
          | .error e => .error e m₁
          | .ok off =>
            match (g.willRemove.forM popRow).run (restored m m₁) with
            | .error e m₂ => .error e m₂
            | .ok _ m₂ => .ok (buildPhysical m₁ g off) (markClean m₂) := by
  unfold toPhysicalR
  py_simp
  cases (m.constraints.zipIdx.forM (mergeConstraint env clks ids)).run m with
  | error e m₁ => rfl
  | ok u m₁ =>
    simp only
    cases groupR round ph m₁ with
    | error e => rfl
    | ok g =>
      simp only [Py.run_liftE_ok]
      cases m₁.offset.toExpr.resolveR round ph with
      | error e => rfl
      | ok off =>
        simp only [Py.run_liftE_ok]
        unfold restored
        cases (g.willRemove.forM popRow).run _ with
        | error e m₂ => rfl
        | ok u m₂ => rfl

/-- Grouping of a rectangular model without placeholders. -/
theorem groupR_ok {m : LModel} (hl : m.length = m.rows.length) (h : ∀ r ∈ m.rows, r.Plain) :
    groupR round ph m = .ok ⟨sumsR round (linPairs m.rows), sumsR round (quadPairs m.rows),
      (m.rows.filter (·.removed)).map (·.name)⟩ := by
  unfold groupR
  rw [hl, Int.toNat_natCast, List.take_length, groupFoldR_ok _ h, Except.bind_ok]
  simp [sumsR, pure, Except.pure]

theorem group_plain {m : LModel} (hl : m.length = m.rows.length) (h : ∀ r ∈ m.rows, r.Plain) :
    group ph m = .ok ⟨(linPairs m.rows).foldl (fun d p => dadd d p.1 p.2) [],
      (quadPairs m.rows).foldl (fun d p => dadd d p.1 p.2) [], (m.rows.filter (·.removed)).map (·.name)⟩ := by
  rw [group_ok (g := ⟨[], [], []⟩) hl, groupFold_plain _ h]
  simp

theorem LModel.Plain.rows {m : LModel} (h : m.Plain) : ∀ r ∈ m.rows, r.Plain :=
  fun r hr hf => h.2 r (List.mem_filter.mpr ⟨hr, by simp [hf]⟩)

/-- The physical model of a rectangular model without constraints and placeholders. -/
theorem toPhysicalR_plain {env : Env} {clks : Nat → Nat → ℚ} {ids : Nat → String} {m : LModel} (hl : m.length = m.rows.length)
    (hc : m.constraints = []) (h : m.Plain) {q : ℚ} (hq : m.offset = .num q) :
    (toPhysicalR round env clks ids ph).run m =
      match (((m.rows.filter (·.removed)).map (·.name)).forM popRow).run m with
      | .error e m₂ => .error e m₂
      | .ok _ m₂ => .ok (buildPhysical m ⟨sumsR round (linPairs m.rows), sumsR round (quadPairs m.rows),
          (m.rows.filter (·.removed)).map (·.name)⟩ q) (markClean m₂) := by
  rw [toPhysicalR_run, hc]
  simp only [List.zipIdx_nil, Py.run_forM_nil]
  rw [groupR_ok hl h.rows, hq]
  simp only [Coef.toExpr, PExpr.resolveR]
  rfl

theorem toPhysical_plain {env : Env} {clks : Nat → Nat → ℚ} {ids : Nat → String} {m : LModel} (hl : m.length = m.rows.length)
    (hc : m.constraints = []) (h : m.Plain) {q : ℚ} (hq : m.offset = .num q) :
    (toPhysical env clks ids ph).run m =
      match (((m.rows.filter (·.removed)).map (·.name)).forM popRow).run m with
      | .error e m₂ => .error e m₂
      | .ok _ m₂ => .ok (buildPhysical m ⟨(linPairs m.rows).foldl (fun d p => dadd d p.1 p.2) [],
          (quadPairs m.rows).foldl (fun d p => dadd d p.1 p.2) [],
          (m.rows.filter (·.removed)).map (·.name)⟩ q) (markClean m₂) := by
  rw [toPhysical_run, hc]
  simp only [List.zipIdx_nil, Py.run_forM_nil]
  rw [group_plain hl h.rows, hq]
  simp only [Coef.resolve, Coef.toExpr, PExpr.resolve]
  rfl

/-- What a physical model in floats is made of. -/
theorem toPhysicalR_ok {env : Env} {clks : Nat → Nat → ℚ} {ids : Nat → String} {m m' : LModel} {p : Physical}
    (hl : m.length = m.rows.length) (hc : m.constraints = []) (h : m.Plain)
    (hp : (toPhysicalR round env clks ids ph).run m = .ok p m') :
    m.offset = .num p.offset ∧ p.mtype = m.mtype ∧ p.linear = (sumsR round (linPairs m.rows)).filter (·.2 ≠ 0) ∧
      p.quad = (sumsR round (quadPairs m.rows)).filter (·.2 ≠ 0) := by
  obtain ⟨q, hq⟩ := h.1
  rw [toPhysicalR_plain hl hc h hq] at hp
  cases hpop : (((m.rows.filter (·.removed)).map (·.name)).forM popRow).run m with
  | error e m₂ => rw [hpop] at hp; cases hp
  | ok u m₂ =>
    rw [hpop] at hp
    cases hp
    exact ⟨hq, rfl, rfl, rfl⟩

end Sawatabi
