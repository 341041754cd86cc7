import Verif.Lemmas.Prune
import Verif.Lemmas.Arrays

/-!
# The terms of a physical model
-/

namespace Sawatabi

/-- The keys of the groups come from active interactions. -/
theorem groupFold_keys {ph : List (String × ℚ)} (rows : List Row) {g₀ g : Groups}
    (h : rows.foldlM (groupStep ph) g₀ = .ok g) :
    (∀ k ∈ dkeys g.quad, k ∈ dkeys g₀.quad ∨ ∃ r ∈ rows, r.removed = false ∧ ∃ v w, r.inter = .quad v w ∧
      k = (v.label, w.label)) ∧
    (∀ l ∈ dkeys g.linear, l ∈ dkeys g₀.linear ∨ ∃ r ∈ rows, r.removed = false ∧ ∃ v, r.inter = .lin v ∧
      l = v.label) ∧
    ((dkeys g₀.linear).Nodup → (dkeys g.linear).Nodup) ∧ ((dkeys g₀.quad).Nodup → (dkeys g.quad).Nodup) := by
  induction rows generalizing g₀ with
  | nil =>
    cases h
    exact ⟨fun k hk => .inl hk, fun k hk => .inl hk, id, id⟩
  | cons r rows ih =>
    rw [List.foldlM_cons, groupStep_run] at h
    by_cases hr : r.removed = true
    · rw [if_pos hr] at h
      obtain ⟨h1, h2, h3, h4⟩ := ih (g₀ := { g₀ with willRemove := g₀.willRemove ++ [r.name] }) h
      refine ⟨fun k hk => (h1 k hk).imp_right ?_, fun k hk => (h2 k hk).imp_right ?_, h3, h4⟩
      all_goals
        rintro ⟨r', hr', h⟩
        exact ⟨r', by simp [hr'], h⟩
    · rw [if_neg hr] at h
      have hrf : r.removed = false := by simpa using hr
      cases hc : (r.coef.mul r.scale).resolve ph with
      | error e => rw [hc] at h; cases h
      | ok c =>
        rw [hc] at h
        cases hi : r.inter with
        | lin v =>
          rw [hi] at h
          obtain ⟨h1, h2, h3, h4⟩ := ih (g₀ := { g₀ with linear := dadd g₀.linear v.label c }) h
          refine ⟨fun k hk => (h1 k hk).imp_right ?_, fun k hk => ?_, fun hn => h3 (nodup_dadd c hn), h4⟩
          · rintro ⟨r', hr', h⟩
            exact ⟨r', by simp [hr'], h⟩
          · rcases h2 k hk with h | ⟨r', hr', h⟩
            · rcases (mem_dkeys_dadd c).mp h with rfl | h
              · exact .inr ⟨r, by simp, hrf, v, hi, rfl⟩
              · exact .inl h
            · exact .inr ⟨r', by simp [hr'], h⟩
        | quad v w =>
          rw [hi] at h
          obtain ⟨h1, h2, h3, h4⟩ := ih (g₀ := { g₀ with quad := dadd g₀.quad (v.label, w.label) c }) h
          refine ⟨fun k hk => ?_, fun k hk => (h2 k hk).imp_right ?_, h3, fun hn => h4 (nodup_dadd c hn)⟩
          · rcases h1 k hk with h | ⟨r', hr', h⟩
            · rcases (mem_dkeys_dadd c).mp h with rfl | h
              · exact .inr ⟨r, by simp, hrf, v, w, hi, rfl⟩
              · exact .inl h
            · exact .inr ⟨r', by simp [hr'], h⟩
          · rintro ⟨r', hr', h⟩
            exact ⟨r', by simp [hr'], h⟩

theorem mem_of_anon {l l' : List Row} (h : l.map Row.anon = l'.map Row.anon) {r : Row} (hr : r ∈ l) :
    ∃ r' ∈ l', r'.removed = r.removed ∧ r'.inter = r.inter ∧ r'.coef = r.coef ∧ r'.scale = r.scale := by
  have : r.anon ∈ l.map Row.anon := List.mem_map_of_mem hr
  rw [h] at this
  obtain ⟨r', h1, h2⟩ := List.mem_map.mp this
  refine ⟨r', h1, ?_, ?_, ?_, ?_⟩
  · have : r'.anon.removed = r.anon.removed := by rw [h2]
    exact this
  · have : r'.anon.inter = r.anon.inter := by rw [h2]
    exact this
  · have : r'.anon.coef = r.anon.coef := by rw [h2]
    exact this
  · have : r'.anon.scale = r.anon.scale := by rw [h2]
    exact this

variable {m m' : LModel} {env : Env} {clks : Nat → Nat → ℚ} {ids : Nat → String} {ph : List (String × ℚ)} {p : Physical}
  {bs : List LModel} {m₁ : LModel} {g : Groups} {off : ℚ} {m₂ : LModel}

theorem Inter.mentions_quad {v w : PVar} {l : String} : (Inter.quad v w).mentions l ↔ v.label = l ∨ w.label = l := Iff.rfl

/-- Every variable of the physical model comes from an active interaction of the model or from a constraint. -/
theorem Conversion.vars (h : Conversion env clks ids ph m p m' bs m₁ g off m₂) {l : String} (hl : l ∈ p.varsSet) :
    (∃ r ∈ m.rows, r.removed = false ∧ r.inter.mentions l) ∨ ∃ b ∈ bs, ∃ r ∈ b.rows, r.inter.mentions l := by
  rw [h.result] at hl
  simp only [buildPhysical, mem_physicalVars] at hl
  have hsub : ∀ {κ : Type} (d : List (κ × ℚ)) (k : κ), k ∈ dkeys (d.filter (·.2 ≠ 0)) → k ∈ dkeys d := by
    intro κ d k hk
    exact (List.filter_sublist.map _).subset hk
  have hg := h.group
  replace hg := (group_prefix hg).1
  obtain ⟨h1, h2, _⟩ := groupFold_keys _ hg
  have : ∃ r ∈ m₁.rows, r.removed = false ∧ r.inter.mentions l := by
    rcases hl with hl | ⟨k, hk, hl⟩
    · rcases h2 l (hsub _ _ hl) with h | ⟨r, hr, hrm, v, hi, rfl⟩
      · cases h
      · exact ⟨r, List.mem_of_mem_take hr, hrm, by rw [hi]; rfl⟩
    · rcases h1 k (hsub _ _ hk) with h | ⟨r, hr, hrm, v, w, hi, rfl⟩
      · cases h
      · exact ⟨r, List.mem_of_mem_take hr, hrm, by rw [hi]; exact hl⟩
  obtain ⟨r, hr, hrm, hm⟩ := this
  obtain ⟨r', hr', e1, e2, _⟩ := mem_of_anon h.absorbed.rows hr
  rcases List.mem_append.mp hr' with h | h
  · exact .inl ⟨r', h, by rw [e1]; exact hrm, by rw [e2]; exact hm⟩
  · obtain ⟨b, hb, h⟩ := List.mem_flatMap.mp h
    exact .inr ⟨b, hb, r', h, by rw [e2]; exact hm⟩

/-- No temporary model without constraints. -/
theorem Conversion.nil (h : Conversion env clks ids ph m p m' bs m₁ g off m₂) (hc : m.constraints = []) : bs = [] ∧ m₁ = m := by
  have h1 := h.models
  have h2 := h.loop
  rw [hc] at h1 h2
  cases h1
  cases h2
  exact ⟨rfl, rfl⟩

theorem Conversion.ordered (h : Conversion env clks ids ph m p m' bs m₁ g off m₂) (ho : AllOrdered m.rows) :
    AllOrdered m₁.rows := by
  have h1 : Py.Preserves (onRows AllOrdered) (m.constraints.zipIdx.forM (mergeConstraint env clks ids)) :=
    .forM fun p _ => mergeConstraint_ordered env clks ids p
  have h1 := h1 m ho
  rw [h.loop] at h1
  exact h1

theorem dkeys_filter_nodup {κ : Type} {d : List (κ × ℚ)} (h : (dkeys d).Nodup) : (dkeys (d.filter (·.2 ≠ 0))).Nodup :=
  (List.filter_sublist.map _).nodup h

theorem mem_filter_getD {κ : Type} [DecidableEq κ] {d : List (κ × ℚ)} (h : (dkeys d).Nodup) (k : κ) (q : ℚ) :
    (k, q) ∈ d.filter (·.2 ≠ 0) ↔ q = (dget d k).getD 0 ∧ q ≠ 0 := by
  rw [List.mem_filter]
  constructor
  · rintro ⟨h1, h2⟩
    rw [dget_of_mem h h1]
    exact ⟨rfl, by simpa using h2⟩
  · rintro ⟨h1, h2⟩
    cases hd : dget d k with
    | none => rw [hd] at h1; exact absurd h1 h2
    | some x =>
      rw [hd] at h1
      simp only [Option.getD_some] at h1
      subst h1
      exact ⟨dget_mem hd, by simpa using h2⟩

theorem take_mem_ordered {l : List Row} (h : AllOrdered l) (n : Nat) : AllOrdered (l.take n) :=
  fun r hr => h r (List.mem_of_mem_take hr)

/-- The terms of the physical model, whatever the state: only the first `length` interactions count. -/
theorem Conversion.terms_prefix (h : Conversion env clks ids ph m p m' bs m₁ g off m₂) (ho : AllOrdered m.rows)
    {ρ : PEnv} (hρ : ρ.Extends ph) :
    (dkeys p.linear).Nodup ∧ (dkeys p.quad).Nodup ∧ (∀ k ∈ dkeys p.quad, k.1 < k.2) ∧
    (∀ l q, (l, q) ∈ p.linear ↔ q = linTotal ρ (m₁.rows.take m₁.length.toNat) l ∧ q ≠ 0) ∧
    (∀ a b q, a < b → (((a, b), q) ∈ p.quad ↔ q = pairTotal ρ (m₁.rows.take m₁.length.toNat) a b ∧ q ≠ 0)) := by
  have hg := h.group
  replace hg := (group_prefix hg).1
  obtain ⟨_, _, h3, h4, h5, h6, h7, _⟩ := groupFold_ok hρ _ hg
  have h3 := h3 List.nodup_nil
  have h4 := h4 List.nodup_nil
  have ho₁ := take_mem_ordered (h.ordered ho) m₁.length.toNat
  rw [h.result]
  refine ⟨dkeys_filter_nodup h3, dkeys_filter_nodup h4, ?_, ?_, ?_⟩
  · intro k hk
    rcases h7 k ((List.filter_sublist.map _).subset hk) with h | ⟨r, hr, _, v, w, hi, rfl⟩
    · cases h
    · have := ho₁ r hr
      rw [hi] at this
      exact this
  · intro l q
    simp only [buildPhysical]
    rw [mem_filter_getD h3, h5 l]
    simp [dget, linTotal]
  · intro a b q hab
    simp only [buildPhysical]
    rw [mem_filter_getD h4, h6 (a, b), (keyCoef_pairCoef hab ho₁).1]
    simp [dget]

/-- The terms of the physical model. -/
theorem Conversion.terms (h : Conversion env clks ids ph m p m' bs m₁ g off m₂) (hm : m.Rect) (ho : AllOrdered m.rows)
    {ρ : PEnv} (hρ : ρ.Extends ph) :
    (dkeys p.linear).Nodup ∧ (dkeys p.quad).Nodup ∧ (∀ k ∈ dkeys p.quad, k.1 < k.2) ∧
    (∀ l q, (l, q) ∈ p.linear ↔ q = linTotal ρ m₁.rows l ∧ q ≠ 0) ∧
    (∀ a b q, a < b → (((a, b), q) ∈ p.quad ↔ q = pairTotal ρ m₁.rows a b ∧ q ≠ 0)) := by
  have := h.terms_prefix ho hρ
  rwa [List.take_of_length_le (by rw [(h.rect hm).len, Int.toNat_natCast])] at this

end Sawatabi
