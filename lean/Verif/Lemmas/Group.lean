import Verif.Lemmas.DeleteFix
import Verif.Lemmas.Ordered
import Verif.Spec.Physical

/-!
# Lemmas about to_physical: the physical model
-/

namespace Sawatabi

/-! ## Placeholders -/

theorem PExpr.resolve_eval {ph : List (String × ℚ)} {e : PExpr} {q : ℚ} (h : e.resolve ph = .ok q) {ρ : PEnv}
    (hρ : ρ.Extends ph) : e.eval ρ = q := by
  induction e generalizing q with
  | num x => cases h; rfl
  | ph n =>
    simp only [PExpr.resolve] at h
    split at h
    · rename_i x hx
      cases h
      exact hρ n _ (dget_mem hx)
    · cases h
  | add a b iha ihb =>
    simp only [PExpr.resolve] at h
    cases ha : a.resolve ph with
    | error e => rw [ha] at h; cases h
    | ok x =>
      cases hb : b.resolve ph with
      | error e => rw [ha, hb] at h; cases h
      | ok y =>
        rw [ha, hb] at h
        cases h
        rw [PExpr.eval, iha ha, ihb hb]
  | mul a b iha ihb =>
    simp only [PExpr.resolve] at h
    cases ha : a.resolve ph with
    | error e => rw [ha] at h; cases h
    | ok x =>
      cases hb : b.resolve ph with
      | error e => rw [ha, hb] at h; cases h
      | ok y =>
        rw [ha, hb] at h
        cases h
        rw [PExpr.eval, iha ha, ihb hb]

theorem PExpr.resolve_ok_iff {ph : List (String × ℚ)} {e : PExpr} :
    (∃ q, e.resolve ph = .ok q) ↔ ∀ n ∈ e.placeholders, n ∈ ph.map (·.1) := by
  induction e with
  | num x => simp [PExpr.resolve, PExpr.placeholders]
  | ph n =>
    simp only [PExpr.resolve, PExpr.placeholders, List.mem_singleton, forall_eq]
    change _ ↔ n ∈ dkeys ph
    rw [← dget_isSome_iff]
    cases dget ph n <;> simp
  | add a b iha ihb =>
    simp only [PExpr.placeholders, List.mem_append, or_imp, forall_and, ← iha, ← ihb, PExpr.resolve]
    cases a.resolve ph <;> cases b.resolve ph <;> simp [bind, Except.bind, pure, Except.pure]
  | mul a b iha ihb =>
    simp only [PExpr.placeholders, List.mem_append, or_imp, forall_and, ← iha, ← ihb, PExpr.resolve]
    cases a.resolve ph <;> cases b.resolve ph <;> simp [bind, Except.bind, pure, Except.pure]

theorem Coef.resolve_eval {ph : List (String × ℚ)} {c : Coef} {q : ℚ} (h : c.resolve ph = .ok q) {ρ : PEnv}
    (hρ : ρ.Extends ph) : c.eval ρ = q := by
  rw [← Coef.eval_toExpr]
  exact PExpr.resolve_eval h hρ

theorem Coef.placeholders_toExpr (c : Coef) : c.toExpr.placeholders = c.placeholders := by cases c <;> rfl

theorem Coef.resolve_ok_iff {ph : List (String × ℚ)} {c : Coef} :
    (∃ q, c.resolve ph = .ok q) ↔ ∀ n ∈ c.placeholders, n ∈ ph.map (·.1) := by
  unfold Coef.resolve
  rw [PExpr.resolve_ok_iff, Coef.placeholders_toExpr]

theorem Coef.placeholders_mul (a b : Coef) (n : String) :
    n ∈ (a.mul b).placeholders ↔ n ∈ a.placeholders ∨ n ∈ b.placeholders := by
  cases a <;> cases b <;> simp [Coef.mul, Coef.placeholders, Coef.toExpr, PExpr.placeholders]

/-! ## Accumulating dictionaries -/

section dadd
variable {κ : Type} [DecidableEq κ]

theorem dget_dadd_self (d : List (κ × ℚ)) (k : κ) (v : ℚ) :
    dget (dadd d k v) k = some ((dget d k).getD 0 + v) := by
  unfold dadd
  cases h : dget d k with
  | none => simp [dget_dset_self]
  | some q => simp [dget_dset_self]

theorem dget_dadd_ne (d : List (κ × ℚ)) {k k₂ : κ} (v : ℚ) (h : k₂ ≠ k) : dget (dadd d k v) k₂ = dget d k₂ := by
  unfold dadd
  cases dget d k <;> exact dget_dset_ne _ _ h

theorem nodup_dadd {d : List (κ × ℚ)} {k : κ} (v : ℚ) (h : (dkeys d).Nodup) : (dkeys (dadd d k v)).Nodup := by
  unfold dadd
  cases dget d k <;> exact nodup_dset _ h

theorem mem_dkeys_dadd {d : List (κ × ℚ)} {k k₂ : κ} (v : ℚ) :
    k₂ ∈ dkeys (dadd d k v) ↔ k₂ = k ∨ k₂ ∈ dkeys d := by
  unfold dadd
  cases dget d k <;> exact mem_dkeys_dset _

theorem sum_dset (f : κ → ℚ) {d : List (κ × ℚ)} {k : κ} {q : ℚ} (h : dget d k = some q) (v : ℚ) :
    ((dset d k v).map fun kv => kv.2 * f kv.1).sum = (d.map fun kv => kv.2 * f kv.1).sum + (v - q) * f k := by
  induction d with
  | nil => cases h
  | cons p d ih =>
    obtain ⟨k', v'⟩ := p
    simp only [dget] at h
    simp only [dset]
    by_cases hk : k' = k
    · rw [if_pos hk] at h ⊢
      cases h
      subst hk
      simp only [List.map_cons, List.sum_cons]
      ring
    · rw [if_neg hk] at h ⊢
      simp only [List.map_cons, List.sum_cons, ih h]
      ring

theorem sum_dadd (f : κ → ℚ) (d : List (κ × ℚ)) (k : κ) (v : ℚ) :
    ((dadd d k v).map fun kv => kv.2 * f kv.1).sum = (d.map fun kv => kv.2 * f kv.1).sum + v * f k := by
  unfold dadd
  cases h : dget d k with
  | some q =>
    simp only [sum_dset f h]
    ring
  | none =>
    simp only
    rw [dset_of_not_mem v ((dget_eq_none_iff _ _).mp h)]
    simp

theorem sum_filter_ne (f : κ → ℚ) (d : List (κ × ℚ)) :
    ((d.filter (·.2 ≠ 0)).map fun kv => kv.2 * f kv.1).sum = (d.map fun kv => kv.2 * f kv.1).sum := by
  induction d with
  | nil => rfl
  | cons p d ih =>
    rw [List.filter_cons]
    by_cases h : p.2 = 0
    · simp only [h, ne_eq, not_true_eq_false, decide_false, Bool.false_eq_true, if_false, List.map_cons,
        List.sum_cons, zero_mul, zero_add]
      exact ih
    · have : decide (p.2 ≠ 0) = true := by simpa using h
      rw [if_pos this]
      simp only [List.map_cons, List.sum_cons, ih]

theorem dget_filter {ν : Type} {d : List (κ × ν)} (hd : (dkeys d).Nodup) (P : ν → Bool) (k : κ) :
    dget (d.filter (fun kv => P kv.2)) k = (dget d k).filter P := by
  induction d with
  | nil => rfl
  | cons p d ih =>
    obtain ⟨k', v'⟩ := p
    have hn := List.nodup_cons.mp hd
    rw [List.filter_cons]
    by_cases hP : P v' = true
    · simp only [hP, if_true, dget]
      by_cases hk : k' = k
      · simp [hk, Option.filter, hP]
      · simp only [if_neg hk]
        exact ih hn.2
    · simp only [hP]
      simp only [Bool.false_eq_true, if_false, dget]
      by_cases hk : k' = k
      · subst hk
        have : dget d k' = none := (dget_eq_none_iff _ _).mpr hn.1
        rw [ih hn.2, this]
        simp [Option.filter, hP]
      · simp only [if_neg hk]
        exact ih hn.2

end dadd

/-! ## The grouping loop -/

/-- One round of the loop. -/
theorem groupStep_run (ph : List (String × ℚ)) (g : Groups) (r : Row) :
    groupStep ph g r = if r.removed then .ok { g with willRemove := g.willRemove ++ [r.name] }
      else match (r.coef.mul r.scale).resolve ph with
        | .error e => .error e
        | .ok c => match r.inter with
          | .lin v => .ok { g with linear := dadd g.linear v.label c }
          | .quad v w => .ok { g with quad := dadd g.quad (v.label, w.label) c } := by
  unfold groupStep
  split
  · rfl
  · cases (r.coef.mul r.scale).resolve ph with
    | error e => rfl
    | ok c => cases r.inter <;> rfl

/-- The pairs of the active 2-body interactions. -/
def Row.pair? (r : Row) : Option (String × String) :=
  if r.removed then none else match r.inter with
    | .lin _ => none
    | .quad v w => some (v.label, w.label)

/-- What an interaction contributes to the (ordered) pair `k`. -/
def Row.keyCoef (ρ : PEnv) (k : String × String) (r : Row) : ℚ :=
  if r.removed then 0 else match r.inter with
    | .lin _ => 0
    | .quad v w => if (v.label, w.label) = k then r.coef.eval ρ * r.scale.eval ρ else 0

/-- The result of the grouping loop. -/
theorem groupFold_ok {ph : List (String × ℚ)} {ρ : PEnv} (hρ : ρ.Extends ph) (rows : List Row) {g₀ g : Groups}
    (h : rows.foldlM (groupStep ph) g₀ = .ok g) :
    (∀ σ : Assign, (g.linear.map fun kv => kv.2 * σ kv.1).sum + (g.quad.map fun kv => kv.2 * (σ kv.1.1 * σ kv.1.2)).sum
      = (g₀.linear.map fun kv => kv.2 * σ kv.1).sum + (g₀.quad.map fun kv => kv.2 * (σ kv.1.1 * σ kv.1.2)).sum
        + (rows.map (Row.term ρ σ)).sum) ∧
    g.willRemove = g₀.willRemove ++ (rows.filter (·.removed)).map (·.name) ∧
    ((dkeys g₀.linear).Nodup → (dkeys g.linear).Nodup) ∧ ((dkeys g₀.quad).Nodup → (dkeys g.quad).Nodup) ∧
    (∀ l, (dget g.linear l).getD 0 = (dget g₀.linear l).getD 0 + (rows.map (Row.linCoef ρ l)).sum) ∧
    (∀ k, (dget g.quad k).getD 0 = (dget g₀.quad k).getD 0 + (rows.map (Row.keyCoef ρ k)).sum) ∧
    (∀ k ∈ dkeys g.quad, k ∈ dkeys g₀.quad ∨ ∃ r ∈ rows, r.removed = false ∧ ∃ v w, r.inter = .quad v w ∧
      k = (v.label, w.label)) ∧
    (∀ l ∈ dkeys g.linear, l ∈ dkeys g₀.linear ∨ ∃ r ∈ rows, r.removed = false ∧ ∃ v, r.inter = .lin v ∧
      l = v.label) := by
  induction rows generalizing g₀ with
  | nil =>
    cases h
    simp
  | cons r rows ih =>
    rw [List.foldlM_cons, groupStep_run] at h
    by_cases hr : r.removed = true
    · rw [if_pos hr] at h
      obtain ⟨h1, h2, h3, h4, h5, h6, h7, h8⟩ := ih h
      refine ⟨fun σ => ?_, ?_, h3, h4, fun l => ?_, fun k => ?_, ?_, ?_⟩
      · rw [h1 σ]; simp [Row.term, hr]
      · rw [h2]; simp [hr]
      · rw [h5 l]; simp [Row.linCoef, hr]
      · rw [h6 k]; simp [Row.keyCoef, hr]
      · intro k hk
        rcases h7 k hk with h | ⟨r', h1, h2⟩
        · exact Or.inl h
        · exact Or.inr ⟨r', by simp [h1], h2⟩
      · intro k hk
        rcases h8 k hk with h | ⟨r', h1, h2⟩
        · exact Or.inl h
        · exact Or.inr ⟨r', by simp [h1], h2⟩
    · have hrf : r.removed = false := by simpa using hr
      rw [if_neg hr] at h
      cases hc : (r.coef.mul r.scale).resolve ph with
      | error e => rw [hc] at h; cases h
      | ok c =>
        rw [hc] at h
        have hcv : r.coef.eval ρ * r.scale.eval ρ = c := by
          rw [← Coef.eval_mul]
          exact Coef.resolve_eval hc hρ
        cases hi : r.inter with
        | lin v =>
          rw [hi] at h
          obtain ⟨h1, h2, h3, h4, h5, h6, h7, h8⟩ := ih h
          refine ⟨fun σ => ?_, ?_, fun hd => h3 (nodup_dadd _ hd), h4, fun l => ?_, fun k => ?_, ?_, ?_⟩
          · rw [h1 σ, sum_dadd]
            simp only [List.map_cons, List.sum_cons, Row.term, hrf, hi, Inter.value, hcv]
            simp only [Bool.false_eq_true, if_false]
            ring
          · rw [h2]; simp [hrf]
          · rw [h5 l]
            simp only [List.map_cons, List.sum_cons, Row.linCoef, hrf, hi, hcv]
            simp only [Bool.false_eq_true, if_false]
            by_cases hl : v.label = l
            · subst hl
              rw [dget_dadd_self, if_pos rfl, Option.getD_some]
              ring
            · rw [dget_dadd_ne _ _ (Ne.symm hl), if_neg hl]
              ring
          · rw [h6 k]; simp [Row.keyCoef, hrf, hi]
          · intro k hk
            rcases h7 k hk with h | ⟨r', h1, h2⟩
            · exact Or.inl h
            · exact Or.inr ⟨r', by simp [h1], h2⟩
          · intro k hk
            rcases h8 k hk with h | ⟨r', h1, h2⟩
            · rcases (mem_dkeys_dadd _).mp h with rfl | h
              · exact Or.inr ⟨r, by simp, hrf, v, hi, rfl⟩
              · exact Or.inl h
            · exact Or.inr ⟨r', by simp [h1], h2⟩
        | quad v w =>
          rw [hi] at h
          obtain ⟨h1, h2, h3, h4, h5, h6, h7, h8⟩ := ih h
          refine ⟨fun σ => ?_, ?_, h3, fun hd => h4 (nodup_dadd _ hd), fun l => ?_, fun k => ?_, ?_, ?_⟩
          · rw [h1 σ, sum_dadd (fun k : String × String => σ k.1 * σ k.2)]
            simp only [List.map_cons, List.sum_cons, Row.term, hrf, hi, Inter.value, hcv]
            simp only [Bool.false_eq_true, if_false]
            ring
          · rw [h2]; simp [hrf]
          · rw [h5 l]; simp [Row.linCoef, hrf, hi]
          · rw [h6 k]
            simp only [List.map_cons, List.sum_cons, Row.keyCoef, hrf, hi, hcv]
            simp only [Bool.false_eq_true, if_false]
            by_cases hl : (v.label, w.label) = k
            · subst hl
              rw [dget_dadd_self, if_pos rfl, Option.getD_some]
              ring
            · rw [dget_dadd_ne _ _ (Ne.symm hl), if_neg hl]
              ring
          · intro k hk
            rcases h7 k hk with h | ⟨r', h1, h2⟩
            · rcases (mem_dkeys_dadd _).mp h with rfl | h
              · exact Or.inr ⟨r, by simp, hrf, v, w, hi, rfl⟩
              · exact Or.inl h
            · exact Or.inr ⟨r', by simp [h1], h2⟩
          · intro k hk
            rcases h8 k hk with h | ⟨r', h1, h2⟩
            · exact Or.inl h
            · exact Or.inr ⟨r', by simp [h1], h2⟩

/-- The loop succeeds exactly if every active interaction can be resolved. -/
theorem groupFold_total (ph : List (String × ℚ)) (rows : List Row) (g₀ : Groups) :
    (∃ g, rows.foldlM (groupStep ph) g₀ = .ok g) ↔
      ∀ r ∈ rows, r.removed = false → ∃ q, (r.coef.mul r.scale).resolve ph = .ok q := by
  induction rows generalizing g₀ with
  | nil => simp [pure, Except.pure]
  | cons r rows ih =>
    rw [List.foldlM_cons, groupStep_run, List.forall_mem_cons]
    by_cases hr : r.removed = true
    · rw [if_pos hr]
      simp only [hr, Bool.true_eq_false, false_imp_iff, true_and]
      exact ih _
    · have hrf : r.removed = false := by simpa using hr
      rw [if_neg hr]
      simp only [hrf, true_imp_iff]
      cases hc : (r.coef.mul r.scale).resolve ph with
      | error e => simp [bind, Except.bind]
      | ok c =>
        simp only [Except.ok.injEq, exists_eq', true_and]
        cases hi : r.inter with
        | lin v => exact ih _
        | quad v w => exact ih _

theorem group_eq (ph : List (String × ℚ)) (m : LModel) : group ph m =
    match (m.rows.take m.length.toNat).foldlM (groupStep ph) ⟨[], [], []⟩ with
    | .ok g => if (m.rows.length : Int) < m.length then .error .indexError else .ok g
    | .error e => .error e := by
  unfold group
  cases (m.rows.take m.length.toNat).foldlM (groupStep ph) ⟨[], [], []⟩ with
  | error e => rfl
  | ok g =>
    simp only [bind, Except.bind, throw, throwThe, MonadExceptOf.throw, pure, Except.pure]

theorem group_prefix {ph : List (String × ℚ)} {m : LModel} {g : Groups} (h : group ph m = .ok g) :
    (m.rows.take m.length.toNat).foldlM (groupStep ph) ⟨[], [], []⟩ = .ok g ∧ m.length ≤ m.rows.length := by
  rw [group_eq] at h
  split at h
  · rename_i g' hg
    split at h
    · cases h
    · cases h
      exact ⟨hg, by omega⟩
  · cases h

theorem group_ok {ph : List (String × ℚ)} {m : LModel} {g : Groups} (hl : m.length = m.rows.length) :
    group ph m = m.rows.foldlM (groupStep ph) ⟨[], [], []⟩ := by
  rw [group_eq, hl, Int.toNat_natCast, List.take_length]
  cases m.rows.foldlM (groupStep ph) ⟨[], [], []⟩ with
  | error e => rfl
  | ok g => simp

/-! ## The physical model built from the groups -/

/-- The energy of the physical model. -/
theorem buildPhysical_energy {ph : List (String × ℚ)} {ρ : PEnv} (hρ : ρ.Extends ph) {m : LModel}
    (hl : m.length = m.rows.length) {g : Groups} (h : group ph m = .ok g) {off : ℚ}
    (ho : m.offset.resolve ph = .ok off) (σ : Assign) :
    (buildPhysical m g off).energy σ = m.energy ρ σ := by
  rw [group_ok (g := g) hl] at h
  obtain ⟨h1, _⟩ := groupFold_ok hρ m.rows h
  have h1 := h1 σ
  simp only [List.map_nil, List.sum_nil, zero_add] at h1
  simp only [Physical.energy, buildPhysical, LModel.energy]
  rw [sum_filter_ne, sum_filter_ne (fun k : String × String => σ k.1 * σ k.2), ← h1, Coef.resolve_eval ho hρ]
  ring

/-- An environment that extends a dictionary with distinct keys. -/
def envOf (ph : List (String × ℚ)) : PEnv := fun n => (dget ph n).getD 0

theorem envOf_extends {ph : List (String × ℚ)} (h : (dkeys ph).Nodup) : (envOf ph).Extends ph := by
  intro n q hq
  simp [envOf, dget_of_mem h hq]

theorem keyCoef_pairCoef {ρ : PEnv} {a b : String} (hab : a < b) {rows : List Row} (ho : AllOrdered rows) :
    (rows.map (Row.keyCoef ρ (a, b))).sum = pairTotal ρ rows a b ∧
    (rows.map (Row.keyCoef ρ (b, a))).sum = 0 := by
  unfold pairTotal
  constructor
  · congr 1
    apply List.map_congr_left
    intro r hr
    have ho := ho r hr
    simp only [Row.keyCoef, Row.pairCoef]
    split
    · rfl
    · cases hi : r.inter with
      | lin v => rfl
      | quad v w =>
        rw [hi] at ho
        simp only [Inter.Ordered] at ho
        simp only [Prod.mk.injEq]
        by_cases h1 : v.label = a ∧ w.label = b
        · simp [h1]
        · rw [if_neg h1, if_neg]
          rintro (h | ⟨rfl, rfl⟩)
          · exact h1 h
          · exact absurd (lt_trans ho hab) (lt_irrefl _)
  · apply List.sum_eq_zero
    intro x hx
    obtain ⟨r, hr, rfl⟩ := List.mem_map.mp hx
    have ho := ho r hr
    simp only [Row.keyCoef]
    split
    · rfl
    · cases hi : r.inter with
      | lin v => rfl
      | quad v w =>
        rw [hi] at ho
        simp only [Inter.Ordered] at ho
        simp only [Prod.mk.injEq]
        rw [if_neg]
        rintro ⟨rfl, rfl⟩
        exact absurd (lt_trans ho hab) (lt_irrefl _)

theorem mem_physicalVars (lin : List (String × ℚ)) (quad : List ((String × String) × ℚ)) (l : String) :
    l ∈ physicalVars lin quad ↔ l ∈ dkeys lin ∨ ∃ k ∈ dkeys quad, k.1 = l ∨ k.2 = l := by
  have h1 : ∀ (d : List (String × ℚ)) (s : List String),
      l ∈ d.foldl (fun s p => sadd s p.1) s ↔ l ∈ s ∨ l ∈ dkeys d := by
    intro d
    induction d with
    | nil => simp [dkeys]
    | cons p d ih =>
      intro s
      simp only [List.foldl_cons, ih, mem_sadd, dkeys, List.map_cons, List.mem_cons]
      tauto
  have h2 : ∀ (d : List ((String × String) × ℚ)) (s : List String),
      l ∈ d.foldl (fun s p => sadd (sadd s p.1.1) p.1.2) s ↔ l ∈ s ∨ ∃ k ∈ dkeys d, k.1 = l ∨ k.2 = l := by
    intro d
    induction d with
    | nil => simp [dkeys]
    | cons p d ih =>
      intro s
      simp only [List.foldl_cons, ih, mem_sadd, dkeys, List.map_cons, List.mem_cons, exists_eq_or_imp]
      constructor
      · rintro ((h | h | h) | h)
        · exact Or.inr (Or.inl (Or.inr h.symm))
        · exact Or.inr (Or.inl (Or.inl h.symm))
        · exact Or.inl h
        · exact Or.inr (Or.inr h)
      · rintro (h | (h | h) | h)
        · exact Or.inl (Or.inr (Or.inr h))
        · exact Or.inl (Or.inr (Or.inl h.symm))
        · exact Or.inl (Or.inl h.symm)
        · exact Or.inr h
  unfold physicalVars
  rw [h2, h1]
  simp

/-! ## The numbering -/

/-- The loop on distinct labels numbers the selected ones in order. -/
theorem numberFold {deleted vs : List String} (ls : List String) (n : Numbering) (hl : ls.Nodup)
    (hfresh : ∀ l ∈ ls, l ∉ dkeys n.l2i) (hi : ∀ i ∈ dkeys n.i2l, i < n.cur) :
    (ls.foldl (numberStep deleted vs) n).l2i =
      n.l2i ++ (ls.filter fun l => l ∉ deleted ∧ l ∈ vs).zipIdx n.cur ∧
    (ls.foldl (numberStep deleted vs) n).i2l =
      n.i2l ++ ((ls.filter fun l => l ∉ deleted ∧ l ∈ vs).zipIdx n.cur).map Prod.swap := by
  induction ls generalizing n with
  | nil => simp
  | cons l ls ih =>
    have hnd := List.nodup_cons.mp hl
    rw [List.foldl_cons, List.filter_cons]
    unfold numberStep
    by_cases h : l ∉ deleted ∧ l ∈ vs
    · simp only [h, if_true, not_false_eq_true, and_self, decide_true, List.zipIdx_cons, List.map_cons]
      rw [dset_of_not_mem _ (hfresh l (by simp)), dset_of_not_mem _ (fun hc => lt_irrefl _ (hi _ hc))]
      have := ih ⟨n.l2i ++ [(l, n.cur)], n.i2l ++ [(n.cur, l)], n.cur + 1⟩ hnd.2
        (by
          intro x hx
          simp only [dkeys, List.map_append, List.mem_append, List.map_cons, List.map_nil, List.mem_singleton,
            not_or]
          refine ⟨hfresh x (by simp [hx]), ?_⟩
          rintro rfl
          exact hnd.1 hx)
        (by
          intro i hi'
          simp only [dkeys, List.map_append, List.mem_append, List.map_cons, List.map_nil,
            List.mem_singleton] at hi'
          simp only
          rcases hi' with h | h
          · have := hi i h
            omega
          · omega)
      simp only at this
      unfold numberStep at this
      rw [this.1, this.2]
      simp
    · rw [if_neg h]
      have hd : decide (l ∉ deleted ∧ l ∈ vs) = false := by simpa using h
      simp only [hd]
      have := ih n hnd.2 (fun x hx => hfresh x (by simp [hx])) hi
      unfold numberStep at this
      exact this

/-- The labels that get an index, in order. -/
def numbered (m : LModel) (vs : List String) : List String := m.labels.filter fun l => l ∉ m.deleted ∧ l ∈ vs

theorem numbering_eq (m : LModel) (vs : List String) (hl : m.labels.Nodup) :
    (numbering m vs).l2i = (numbered m vs).zipIdx ∧
    (numbering m vs).i2l = (numbered m vs).zipIdx.map Prod.swap := by
  have := numberFold (deleted := m.deleted) (vs := vs) m.labels ⟨[], [], 0⟩ hl (by simp [dkeys]) (by simp [dkeys])
  simpa [numbering, numbered] using this

/-- The same if only the labels that get an index are distinct. -/
theorem numbering_nodup (m : LModel) (vs : List String) (hl : (numbered m vs).Nodup) :
    (numbering m vs).l2i = (numbered m vs).zipIdx ∧
    (numbering m vs).i2l = (numbered m vs).zipIdx.map Prod.swap := by
  have hskip : ∀ (ls : List String) (n : Numbering), ls.foldl (numberStep m.deleted vs) n =
      (ls.filter fun l => l ∉ m.deleted ∧ l ∈ vs).foldl (numberStep m.deleted vs) n := by
    intro ls
    induction ls with
    | nil => exact fun _ => rfl
    | cons a ls ih =>
      intro n
      rw [List.foldl_cons, List.filter_cons]
      by_cases h : a ∉ m.deleted ∧ a ∈ vs
      · rw [if_pos (by simpa using h), List.foldl_cons]
        exact ih _
      · rw [if_neg (by simpa using h), numberStep, if_neg h]
        exact ih _
  have := numberFold (deleted := m.deleted) (vs := vs) (numbered m vs) ⟨[], [], 0⟩ hl (by simp [dkeys]) (by simp [dkeys])
  have hf : (numbered m vs).filter (fun l => l ∉ m.deleted ∧ l ∈ vs) = numbered m vs := by
    simp [numbered]
  rw [hf] at this
  unfold numbering
  rw [hskip]
  simpa [numbered] using this

theorem dget_zipIdx {ls : List String} (hl : ls.Nodup) (l : String) (i : Nat) :
    dget ls.zipIdx l = some i ↔ ls[i]? = some l := by
  have hk : dkeys ls.zipIdx = ls := by simp [dkeys]
  constructor
  · intro h
    have := dget_mem h
    rwa [List.mem_zipIdx_iff_getElem?] at this
  · intro h
    exact dget_of_mem (by rw [hk]; exact hl) (List.mem_zipIdx_iff_getElem?.mpr h)

theorem dget_zipIdx_swap {ls : List String} (l : String) (i : Nat) :
    dget (ls.zipIdx.map Prod.swap) i = some l ↔ ls[i]? = some l := by
  have hk : (dkeys (ls.zipIdx.map Prod.swap)).Nodup := by
    simp only [dkeys, List.map_map]
    have : ((fun x => x.1) ∘ Prod.swap : String × Nat → Nat) = Prod.snd := rfl
    rw [this, List.zipIdx_map_snd]
    exact List.nodup_range'
  constructor
  · intro h
    have := dget_mem h
    obtain ⟨p, hp, he⟩ := List.mem_map.mp this
    obtain ⟨a, b⟩ := p
    cases he
    rwa [List.mem_zipIdx_iff_getElem?] at hp
  · intro h
    refine dget_of_mem hk (List.mem_map.mpr ⟨(l, i), List.mem_zipIdx_iff_getElem?.mpr h, rfl⟩)

/-- Which labels have an index, without assumptions. -/
theorem numbering_keys (m : LModel) (vs : List String) (l : String) :
    l ∈ dkeys (numbering m vs).l2i ↔ l ∈ m.labels ∧ l ∉ m.deleted ∧ l ∈ vs := by
  have h : ∀ (ls : List String) (n : Numbering), l ∈ dkeys (ls.foldl (numberStep m.deleted vs) n).l2i ↔
      l ∈ dkeys n.l2i ∨ (l ∈ ls ∧ l ∉ m.deleted ∧ l ∈ vs) := by
    intro ls
    induction ls with
    | nil => simp
    | cons a ls ih =>
      intro n
      rw [List.foldl_cons, ih]
      unfold numberStep
      by_cases ha : a ∉ m.deleted ∧ a ∈ vs
      · rw [if_pos ha]
        simp only [mem_dkeys_dset, List.mem_cons]
        constructor
        · rintro ((rfl | h) | h)
          · exact Or.inr ⟨Or.inl rfl, ha⟩
          · exact Or.inl h
          · exact Or.inr ⟨Or.inr h.1, h.2⟩
        · rintro (h | ⟨rfl | h, h2⟩)
          · exact Or.inl (Or.inr h)
          · exact Or.inl (Or.inl rfl)
          · exact Or.inr ⟨h, h2⟩
      · rw [if_neg ha]
        simp only [List.mem_cons]
        constructor
        · rintro (h | h)
          · exact Or.inl h
          · exact Or.inr ⟨Or.inr h.1, h.2⟩
        · rintro (h | ⟨rfl | h, h2⟩)
          · exact Or.inl h
          · exact absurd h2 ha
          · exact Or.inr ⟨h, h2⟩
  unfold numbering
  rw [h]
  simp [dkeys]

end Sawatabi
