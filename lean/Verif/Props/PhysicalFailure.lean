import Verif.Props.PhysicalSuccess
import Verif.Props.PhysicalState

/-!
# The model that a failing `to_physical` leaves (C23)
-/

namespace Sawatabi.Props

variable {m m' : LModel} {env : Env} {clks : Nat → Nat → ℚ} {ids : Nat → String} {ph : List (String × ℚ)} {p : Physical}

theorem zipIdx_take {α : Type} (l : List α) (k i : Nat) : (l.zipIdx i).take k = (l.take k).zipIdx i := by
  induction l generalizing k i with
  | nil => simp
  | cons a l ih =>
    cases k with
    | zero => simp
    | succ k => simp [List.zipIdx_cons, ih]

/-- A failing constraint loop has merged the constraints before the first one that has no model. -/
theorem constraintLoop_fails {cs : List ((String × Constraint) × Nat)} {a a₁ : LModel} {e : Err} (ha : a.Rect)
    (hs : a.mtype = .ising → ∀ p ∈ cs, p.1.2.SpaceFree)
    (h : (cs.forM (mergeConstraint env clks ids)).run a = .error e a₁) :
    ∃ k bs, List.Forall₂ (fun p b => ConstraintModel env (clks p.2) (ids p.2) p.1.2 a.mtype b ∧ Bare b) (cs.take k) bs ∧
      Absorbed a bs a₁ ∧ (k = 0 → a₁ = a) ∧ ∃ p, cs[k]? = some p ∧ ¬ p.1.2.Good := by
  induction cs generalizing a with
  | nil => cases h
  | cons p cs ih =>
    by_cases hg : p.1.2.Good
    · obtain ⟨t, ht⟩ := constraintLoop_succeeds (env := env) (clks := clks) (ids := ids) (cs := [p])
        (by intro q hq; rw [List.mem_singleton.mp hq]; exact hg) ha
        (by intro hi q hq; rw [List.mem_singleton.mp hq]; exact hs hi p (by simp))
      have habs := constraintLoop_absorbed _ ht
      have htr := constraintLoop_rect ha ht
      rw [Py.run_forM_cons] at ht h
      cases hp : (mergeConstraint env clks ids p).run a with
      | error e' t' => rw [hp] at ht; cases ht
      | ok u t' =>
        rw [hp] at ht h
        simp only [Py.run_forM_nil] at ht h
        cases ht
        obtain ⟨bs₀, hbs₀, habs₀⟩ := habs
        cases hbs₀ with
        | cons hb hnil =>
          cases hnil
          have hty : t.mtype = a.mtype := by rw [habs₀.same]
          obtain ⟨k, bs, hbs, habs', -, q, hq, hqg⟩ := ih htr (by
            intro hi q hq
            exact hs (by rw [← hty]; exact hi) q (by simp [hq])) h
          rw [hty] at hbs
          exact ⟨k + 1, _ :: bs, .cons hb hbs, habs₀.cons habs', fun h => (Nat.succ_ne_zero k h).elim, q, by simpa using hq, hqg⟩
    · rw [Py.run_forM_cons, mergeConstraint_run, (Constraint.toModel_run _ _ _).2 hg] at h
      cases h
      exact ⟨0, [], .nil, .refl _, fun _ => rfl, p, rfl, hg⟩

/-- The state of a failing conversion. -/
theorem toPhysical_fails (hm : m.Rect) (hu : m.names.Nodup) (hc : m.NoClash)
    (hs : m.mtype = .ising → ∀ c ∈ m.constraints, c.2.SpaceFree) {e : Err}
    (h : (toPhysical env clks ids ph).run m = .error e m') :
    ∃ k bs, List.Forall₂ (fun p b => ConstraintModel env (clks p.2) (ids p.2) p.1.2 m.mtype b ∧ Bare b)
        (m.constraints.take k).zipIdx bs ∧ Absorbed m bs m' ∧ (k = 0 → m' = m) ∧
      ((k = m.constraints.length ∧ ¬ m.Filled ph) ∨ ∃ c, m.constraints[k]? = some c ∧ ¬ c.2.Good) := by
  have h' := h
  rw [toPhysical_run] at h
  cases hl : (m.constraints.zipIdx.forM (mergeConstraint env clks ids)).run m with
  | error e' m₁ =>
    rw [hl] at h
    cases h
    obtain ⟨k, bs, hbs, habs, h0, q, hq, hqg⟩ := constraintLoop_fails hm (by
      rintro hi ⟨c, i⟩ hp
      exact hs hi c (List.fst_mem_of_mem_zipIdx hp)) hl
    refine ⟨k, bs, ?_, habs, h0, .inr ⟨q.1, ?_, hqg⟩⟩
    · rwa [zipIdx_take] at hbs
    · rw [List.getElem?_zipIdx] at hq
      obtain ⟨c, hc1, hc2⟩ := Option.map_eq_some_iff.mp hq
      rw [← hc2]
      exact hc1
  | ok u m₁ =>
    obtain ⟨bs, hbs, habs⟩ := constraintLoop_absorbed _ hl
    have hget : ∀ b ∈ bs, ∃ clk id c, ConstraintModel env clk id c m.mtype b := by
      intro b hb
      obtain ⟨i, hi, rfl⟩ := List.getElem_of_mem hb
      have := hbs.get (i := i) (by have := hbs.length_eq; omega) hi
      exact ⟨_, _, _, this.1⟩
    have hnf : ¬ m.Filled ph := by
      intro hf
      obtain ⟨p, hp⟩ := succeeds_of_loop hm hu hl habs (by
          intro b hb
          obtain ⟨_, _, _, h⟩ := hget b hb
          exact h.active) (by
          intro r hr hrm b hb hmem
          obtain ⟨_, _, _, h⟩ := hget b hb
          exact hc r hr hrm (h.names _ hmem)) (by
          intro b hb
          obtain ⟨_, _, _, h⟩ := hget b hb
          exact constraintModel_numeric h) hf
      rw [h'] at hp
      cases hp
    refine ⟨m.constraints.length, bs, by rwa [List.take_length], ?_, fun h0 => ?_, .inl ⟨rfl, hnf⟩⟩
    swap
    · exact C23_unchanged_partial hm hu (List.length_eq_zero_iff.mp h0) h'
    rw [hl] at h
    simp only at h
    cases hg : group ph m₁ with
    | error e' => rw [hg] at h; cases h; exact habs
    | ok g =>
      rw [hg] at h
      simp only at h
      cases ho : m₁.offset.resolve ph with
      | error e' => rw [ho] at h; cases h; exact habs
      | ok off =>
        rw [ho] at h
        simp only at h
        have hm₁ := constraintLoop_rect hm hl
        rw [group_ok (g := g) hm₁.len] at hg
        have hw := groupFold_removed _ _ _ hg
        rw [List.nil_append, habs.removed (by
          intro b hb
          obtain ⟨_, _, _, h⟩ := hget b hb
          exact h.active) (by
          intro r hr hrm b hb hmem
          obtain ⟨_, _, _, h⟩ := hget b hb
          exact hc r hr hrm (h.names _ hmem))] at hw
        have hp := popRows_prune hm hu g.willRemove (by rw [hw]; exact (List.filter_sublist.map _).nodup hu) (by
          intro n hn
          rw [hw] at hn
          obtain ⟨r, hr, rfl⟩ := List.mem_map.mp hn
          exact List.mem_map_of_mem (List.mem_filter.mp hr).1)
        rw [habs.restored, hp] at h
        cases h

theorem regular_distinct {c : Constraint} (h : c.Regular) : c.Distinct := by
  cases c with
  | nHot l s vs n => exact (h vs (by simp [Constraint.sets])).1
  | zeroOrOneHot l s vs => exact (h vs (by simp [Constraint.sets])).1
  | equality l s v1 v2 => exact ⟨(h v1 (by simp [Constraint.sets])).1, (h v2 (by simp [Constraint.sets])).1⟩

/-- Where a failing conversion stops: at the first constraint without model, or after all of them because a placeholder is
missing. -/
def StopsAt (m : LModel) (ph : List (String × ℚ)) (k : Nat) : Prop :=
  (∀ c ∈ m.constraints.take k, c.2.Apart) ∧
  ((k = m.constraints.length ∧ ¬ m.Filled ph) ∨ ∃ c, m.constraints[k]? = some c ∧ ¬ c.2.Apart)

/-- Rows keep their place and, but for the name, their contents. -/
def RowsStay (m m' : LModel) : Prop :=
  ∀ (i : Nat) (r : Row), m.rows[i]? = some r → ∃ n, m'.rows[i]? = some { r with name := n }

theorem fails_common (hm : m.Rect) (hu : m.names.Nodup) (hc : m.NoClash) (hr : ∀ c ∈ m.constraints, c.2.Regular)
    (hs : m.mtype = .ising → ∀ c ∈ m.constraints, c.2.SpaceFree) {e : Err}
    (h : (toPhysical env clks ids ph).run m = .error e m') :
    ∃ k bs, StopsAt m ph k ∧ (k = 0 → m' = m) ∧ RowsStay m m' ∧ Absorbed m bs m' ∧
      List.Forall₂ (fun p b => ConstraintModel env (clks p.2) (ids p.2) p.1.2 m.mtype b ∧ Bare b)
        (m.constraints.take k).zipIdx bs := by
  obtain ⟨k, bs, hbs, habs, h0, hk⟩ := toPhysical_fails hm hu hc hs h
  refine ⟨k, bs, ⟨?_, ?_⟩, h0, ?_, habs, hbs⟩
  · intro c hcm
    refine (good_iff (hr c (List.mem_of_mem_take hcm))).mp ?_
    obtain ⟨i, hi, rfl⟩ := List.getElem_of_mem hcm
    have hl := hbs.length_eq
    have := hbs.get (i := i) (by simpa using hi) (by simp at hl hi; omega)
    have hx := this.1
    simp only [List.get_eq_getElem, List.getElem_zipIdx] at hx
    generalize bs[i]'_ = b at hx
    generalize m.mtype = t at hx
    cases hx with
    | qubo hx => exact (Constraint.toModel_ok hx).1
    | ising hx _ => exact (Constraint.toModel_ok hx).1
  · refine hk.imp id ?_
    rintro ⟨c, hc1, hc2⟩
    exact ⟨c, hc1, fun ha => hc2 ((good_iff (hr c (List.mem_of_getElem? hc1))).mpr ha)⟩
  · intro i r hir
    have hrow := congrArg (fun l => l[i]?) habs.rows
    simp only [List.getElem?_map, List.getElem?_append_left (List.getElem?_eq_some_iff.mp hir).1, hir,
      Option.map_some] at hrow
    obtain ⟨r', hr', he⟩ := Option.map_eq_some_iff.mp hrow
    refine ⟨r'.name, ?_⟩
    rw [hr']
    obtain ⟨n1, i1, c1, s1, t1, d1, m1⟩ := r
    obtain ⟨n2, i2, c2, s2, t2, d2, m2⟩ := r'
    simp only [Row.anon, Row.mk.injEq] at he
    simp [he]

/-- **C23**, QUBO models with constraints: a failing conversion leaves the interactions of the constraints before the one
where it stopped, so that the penalties of these constraints are part of the energy from then on; nothing else changes. -/
theorem C23_left_qubo_partial (hm : m.Rect) (hu : m.names.Nodup) (hc : m.NoClash) (hq : m.mtype = .qubo)
    (hr : ∀ c ∈ m.constraints, c.2.Regular) {e : Err} (h : (toPhysical env clks ids ph).run m = .error e m') :
    ∃ k, StopsAt m ph k ∧ (k = 0 → m' = m) ∧ RowsStay m m' ∧
      ∀ (ρ : PEnv) {σ : Assign}, σ.IsBinary →
        m'.energy ρ σ = m.energy ρ σ + ((m.constraints.take k).map fun c => c.2.penalty σ).sum := by
  obtain ⟨k, bs, h1, h2, h3, habs, hbs⟩ := fails_common hm hu hc hr (by rw [hq]; intro h; cases h) h
  refine ⟨k, h1, h2, h3, ?_⟩
  intro ρ σ hσ
  rw [habs.energy]
  congr 1
  apply forall₂_zipIdx_sum hbs
  rintro ⟨c, i⟩ b ⟨hcm, _⟩ hcc
  rw [hq] at hcm
  cases hcm with
  | qubo hcm => exact toModel_penalty hcm (regular_distinct (hr c (List.mem_of_mem_take hcc))) ρ hσ

/-- **C23**, the retry of a QUBO model: the penalties of the constraints before the one where the first call stopped count
twice. -/
theorem C23_retry_qubo_partial (hm : m.Rect) (hu : m.names.Nodup) (hc : m.NoClash) (hq : m.mtype = .qubo)
    (hr : ∀ c ∈ m.constraints, c.2.Regular) {e : Err} (h : (toPhysical env clks ids ph).run m = .error e m') :
    ∃ k, StopsAt m ph k ∧ ∀ {env' clks' ids' ph' q m''}, (toPhysical env' clks' ids' ph').run m' = .ok q m'' →
      ∀ {ρ : PEnv}, ρ.Extends ph' → ∀ {σ : Assign}, σ.IsBinary →
      q.energy σ = m.energy ρ σ + (m.constraints.map fun c => c.2.penalty σ).sum +
        ((m.constraints.take k).map fun c => c.2.penalty σ).sum := by
  obtain ⟨k, h1, -, -, h4⟩ := C23_left_qubo_partial hm hu hc hq hr h
  refine ⟨k, h1, ?_⟩
  intro env' clks' ids' ph' q m'' h' ρ hρ σ hσ
  have hm' := toPhysical_rect env clks ids ph m hm
  have hfr := C23_frame env clks ids ph m
  rw [h] at hm' hfr
  simp only [Res.state] at hm' hfr
  have := C20_qubo_energy_partial hm' (hfr.2.2.1.trans hq) (by
    rw [hfr.2.1]; exact fun c hc => regular_distinct (hr c hc)) h' hρ hσ
  rw [this, h4 ρ hσ, hfr.2.1]
  ring

/-- **C23**, Ising models with constraints. -/
theorem C23_left_ising_partial (hm : m.Rect) (hu : m.names.Nodup) (hc : m.NoClash) (hq : m.mtype = .ising)
    (hr : ∀ c ∈ m.constraints, c.2.Regular) (hs : ∀ c ∈ m.constraints, c.2.SpaceFree) {e : Err}
    (h : (toPhysical env clks ids ph).run m = .error e m') :
    ∃ k, StopsAt m ph k ∧ (k = 0 → m' = m) ∧ RowsStay m m' ∧
      ∀ (ρ : PEnv) {s : Assign}, s.IsSpin →
        m'.energy ρ s = m.energy ρ s + ((m.constraints.take k).map fun c => c.2.penalty s.toBinary + c.2.drift).sum := by
  obtain ⟨k, bs, h1, h2, h3, habs, hbs⟩ := fails_common hm hu hc hr (fun _ => hs) h
  refine ⟨k, h1, h2, h3, ?_⟩
  intro ρ s hσ
  rw [habs.energy]
  congr 1
  apply forall₂_zipIdx_sum hbs
  rintro ⟨c, i⟩ b ⟨hcm, _⟩ hcc
  rw [hq] at hcm
  have hrc := hr c (List.mem_of_mem_take hcc)
  rw [isingModel_penalty hcm (regular_distinct hrc) ρ hσ, shift_drift (regular_distinct hrc)
    ((good_iff hrc).mpr (h1.1 c hcc))]

/-- **C23**, the retry of an Ising model. -/
theorem C23_retry_ising_partial (hm : m.Rect) (hu : m.names.Nodup) (hc : m.NoClash) (hq : m.mtype = .ising)
    (hr : ∀ c ∈ m.constraints, c.2.Regular) (hs : ∀ c ∈ m.constraints, c.2.SpaceFree) {e : Err}
    (h : (toPhysical env clks ids ph).run m = .error e m') :
    ∃ k, StopsAt m ph k ∧ ∀ {env' clks' ids' ph' q m''}, (toPhysical env' clks' ids' ph').run m' = .ok q m'' →
      ∀ {ρ : PEnv}, ρ.Extends ph' → ∀ {s : Assign}, s.IsSpin →
      q.energy s = m.energy ρ s + (m.constraints.map fun c => c.2.penalty s.toBinary + c.2.drift).sum +
        ((m.constraints.take k).map fun c => c.2.penalty s.toBinary + c.2.drift).sum := by
  obtain ⟨k, h1, -, -, h4⟩ := C23_left_ising_partial hm hu hc hq hr hs h
  refine ⟨k, h1, ?_⟩
  intro env' clks' ids' ph' q m'' h' ρ hρ s hσ
  have hm' := toPhysical_rect env clks ids ph m hm
  have hfr := C23_frame env clks ids ph m
  rw [h] at hm' hfr
  simp only [Res.state] at hm' hfr
  have := C21_drift_partial hm' (hfr.2.2.1.trans hq) (by
    rw [hfr.2.1]; exact fun c hc => regular_distinct (hr c hc)) h' hρ hσ
  rw [this, h4 ρ hσ, hfr.2.1]
  ring

/-- **C23**, exactly when a failing conversion does not change the energy of a QUBO model: if all constraints before the one
where it stopped have penalty zero (in particular if it stopped at the first). -/
theorem C23_harmless_iff (hm : m.Rect) (hu : m.names.Nodup) (hc : m.NoClash) (hq : m.mtype = .qubo)
    (hr : ∀ c ∈ m.constraints, c.2.Regular) {e : Err} (h : (toPhysical env clks ids ph).run m = .error e m') :
    ∃ k, StopsAt m ph k ∧ ∀ (ρ : PEnv) {σ : Assign}, σ.IsBinary →
      (m'.energy ρ σ = m.energy ρ σ ↔ ((m.constraints.take k).map fun c => c.2.penalty σ).sum = 0) := by
  obtain ⟨k, h1, -, -, h4⟩ := C23_left_qubo_partial hm hu hc hq hr h
  refine ⟨k, h1, fun ρ σ hσ => ?_⟩
  rw [h4 ρ hσ]
  constructor
  · intro h; linarith
  · intro h; rw [h, add_zero]

/-- A QUBO model with a good constraint followed by an equality of a variable with itself. -/
def quboStop : LModel := Ex.after (LModel.new .qubo "101") do
  let _ ← createVars "x" [2]
  addInteraction 1 (.var Ex.b0) (.str "") (.num 3) (.num 1) .none .none
  addConstraint (.nHot "c" 1 [Ex.b0, Ex.b1] 1)
  addConstraint (.equality "d" 1 [Ex.b0] [Ex.b0, Ex.b1])

/-- Without any `merge`, names do not stay unique either: each `to_physical` that raises after a constraint leaves
interactions behind, and the fourth one renames some of them to names that are in use since the second one. -/
theorem C01_failed_refuted :
    let calls (k : Nat) : List Op :=
      (List.range k).map fun i => .toPhysical (fun _ _ => 0) (fun c => toString (200 + 10 * i + c)) []
    quboStop.names.Nodup ∧ (∀ k < 4, (((calls k).foldl (Op.step ⟨0, fun _ => "t"⟩) quboStop).names).Nodup) ∧
      ¬ (((calls 4).foldl (Op.step ⟨0, fun _ => "t"⟩) quboStop).names).Nodup := by
  decide +kernel

example : quboStop.Rect ∧ quboStop.names.Nodup ∧ quboStop.NoClash ∧ quboStop.mtype = .qubo ∧
    (∀ c ∈ quboStop.constraints, c.2.Regular) ∧
    ((toPhysical ⟨0, fun _ => "t"⟩ (fun _ _ => 0) (fun _ => "1") []).run quboStop).isOk = false ∧ StopsAt quboStop [] 1 := by
  have hcs : quboStop.constraints = [("c", .nHot "c" 1 [Ex.b0, Ex.b1] 1), ("d", .equality "d" 1 [Ex.b0] [Ex.b0, Ex.b1])] := by
    decide +kernel
  refine ⟨⟨by decide, by decide, by decide, by decide⟩, by decide, ?_, by decide, ?_, by decide +kernel, ?_, ?_⟩
  · unfold LModel.NoClash; decide
  · rw [hcs]
    unfold Constraint.Regular Constraint.sets; decide
  · rw [hcs]
    simp [Constraint.Apart]
  · rw [hcs]
    exact .inr ⟨_, rfl, by simp [Constraint.Apart]⟩

example : ¬ quboHole.Filled [] ∧ StopsAt quboHole [] 1 ∧ quboHole.NoClash ∧ ∀ c ∈ quboHole.constraints, c.2.Regular := by
  have hcs : quboHole.constraints = [("c", .nHot "c" 1 [Ex.b0, Ex.b1] 1)] := by decide +kernel
  have hf : ¬ quboHole.Filled [] := by unfold LModel.Filled; decide +kernel
  refine ⟨hf, ⟨?_, .inl ⟨by rw [hcs]; rfl, hf⟩⟩, ?_, ?_⟩
  · rw [hcs]; simp [Constraint.Apart]
  · unfold LModel.NoClash; decide
  · rw [hcs]; unfold Constraint.Regular Constraint.sets; decide

end Sawatabi.Props
