import Verif.Props.PhysicalFrame
import Verif.Props.Interactions

/-!
# The logical model after `to_physical` (C07, C22, C23)
-/

namespace Sawatabi.Props

variable {m m' : LModel} {env : Env} {clks : Nat → Nat → ℚ} {ids : Nat → String} {ph : List (String × ℚ)} {p : Physical}

/-! ## C22: name clash -/

/-- A QUBO model with a removed interaction named like one of the constraint, and an active one named like the result
of the renaming in `merge`. -/
def clashing : LModel := Ex.after (LModel.new .qubo "101") do
  let _ ← createVars "x" [2]
  addInteraction 1 (.var Ex.b0) (.str "x[0] (c)") (.num 3) (.num 1) .none .none
  addInteraction 2 (.var Ex.b1) (.str "x[0] (c) (101)") (.num 5) (.num 1) .none .none
  removeInteraction .none (.str "x[0] (c)")
  addConstraint (.nHot "c" 1 [Ex.b0, Ex.b1] 1)

/-- With such names a successful conversion drops an active interaction and keeps the removed one. -/
theorem C22_clash_refuted :
    clashing.Rect ∧ clashing.names.Nodup ∧
    ∃ p m', (toPhysical ⟨0, fun _ => "t"⟩ (fun _ _ => 0) (fun _ => "1") []).run clashing = .ok p m' ∧
      m'.names = ["x[0] (c)"] ∧ m' ≠ clashing.cleaned := by
  refine ⟨⟨by decide, by decide, by decide, by decide⟩, by decide, _, _, rfl, ?_, ?_⟩
  · decide
  · decide +kernel

theorem quboOneHot_ok : quboOneHot.Rect ∧ quboOneHot.names.Nodup ∧ quboOneHot.NoClash ∧ quboOneHot.mtype = .qubo ∧
    (∀ c ∈ quboOneHot.constraints, c.2.Sound) ∧ quboOneHot.Filled [] := by
  refine ⟨⟨by decide, by decide, by decide, by decide⟩, by decide, ?_, by decide, ?_, ?_, ?_⟩
  · unfold LModel.NoClash; decide
  · intro c hc
    have : c = ("c", .nHot "c" 1 [Ex.b0, Ex.b1] 1) := by
      revert c; decide +kernel
    subst this
    exact ⟨by decide, by decide, by decide⟩
  · decide
  · decide

example : ∃ p, (toPhysical ⟨0, fun _ => "t"⟩ (fun _ _ => 0) (fun _ => "1") []).run quboOneHot = .ok p quboOneHot.cleaned :=
  C20_succeeds_partial quboOneHot_ok.1 quboOneHot_ok.2.1 quboOneHot_ok.2.2.1 quboOneHot_ok.2.2.2.1
    quboOneHot_ok.2.2.2.2.1 quboOneHot_ok.2.2.2.2.2

/-! ## C07: after the conversion -/

/-- After a successful conversion no removed interaction is left, and its name can be added again with any valid
arguments. -/
theorem C07_readd_partial (hm : m.Rect) (hu : m.names.Nodup) (hc : m.NoClash) {n : String} (hr : IsRemoved m n)
    (h : (toPhysical env clks ids ph).run m = .ok p m') :
    n ∉ m'.names ∧ (∀ k, ¬ IsRemoved m' k) ∧
    ∀ {now : ℚ} {target : PyTarget} {name : PyName} {i : Inter} {c s : PyCoef} {attributes : PyAttrs} {ts : PyTs},
      target.Denotes i → name.Names i n → c ≠ .bad → s ≠ .bad → attributes ≠ .bad → ts ≠ .bad →
      ∃ m'', (addInteraction now target name c s attributes ts).run m' = .ok ⟨⟩ m'' := by
  have := C22_only_prunes_partial hm hu hc h
  subst this
  have hn : n ∉ m.cleaned.names := by
    obtain ⟨r, hr, rfl, hrm⟩ := hr
    simp only [LModel.names, LModel.cleaned, List.map_map, List.mem_map, List.mem_filter]
    rintro ⟨r', ⟨h1, h2⟩, h3⟩
    have := List.inj_on_of_nodup_map hu h1 hr h3
    subst this
    simp [hrm] at h2
  refine ⟨hn, ?_, ?_⟩
  · rintro k ⟨r, hr, _, hrm⟩
    rw [cleaned_active m r hr] at hrm
    cases hrm
  · intro now target name i c s attributes ts hd hnm h1 h2 h3 h4
    exact (C02_add_succeeds_iff (cleaned_rect hm)).mpr ⟨⟨i, n, hd, hnm, hn⟩, h1, h2, h3, h4⟩

/-- The hypotheses are met by a model with a removed interaction. -/
example : Ex.ising.Rect ∧ Ex.ising.names.Nodup ∧ Ex.ising.NoClash ∧ IsRemoved Ex.ising "gone" ∧
    ((toPhysical ⟨0, fun _ => "t"⟩ (fun _ _ => 0) (fun _ => "1") []).run Ex.ising).isOk = true := by
  refine ⟨⟨by decide, by decide, by decide, by decide⟩, by decide, ?_, ?_, by decide +kernel⟩
  · unfold LModel.NoClash; decide
  · unfold IsRemoved; decide

/-! ## C23: failure -/

/-- Without constraints a failing conversion changes nothing. -/
theorem C23_unchanged_partial (hm : m.Rect) (hu : m.names.Nodup) (h0 : m.constraints = []) {e : Err}
    (h : (toPhysical env clks ids ph).run m = .error e m') : m' = m := by
  rw [toPhysical_run, h0] at h
  simp only [List.zipIdx_nil, Py.run_forM_nil] at h
  cases hg : group ph m with
  | error e' => rw [hg] at h; simp only at h; cases h; rfl
  | ok g =>
    rw [hg] at h
    simp only at h
    cases ho : m.offset.resolve ph with
    | error e' => rw [ho] at h; simp only at h; cases h; rfl
    | ok off =>
      rw [ho] at h
      simp only at h
      rw [group_ok (g := g) hm.len] at hg
      have hw := groupFold_removed _ _ _ hg
      rw [List.nil_append] at hw
      have hp := popRows_prune hm hu g.willRemove (by rw [hw]; exact (List.filter_sublist.map _).nodup hu) (by
        intro n hn
        rw [hw] at hn
        obtain ⟨r, hr, rfl⟩ := List.mem_map.mp hn
        exact List.mem_map_of_mem (List.mem_filter.mp hr).1)
      rw [show restored m m = m from rfl, hp] at h
      cases h

example : ∃ e m', (toPhysical ⟨0, fun _ => "t"⟩ (fun _ _ => 0) (fun _ => "1") []).run Ex.qubo = .error e m' ∧
    Ex.qubo.Rect ∧ Ex.qubo.names.Nodup ∧ Ex.qubo.constraints = [] :=
  ⟨_, _, rfl, ⟨by decide, by decide, by decide, by decide⟩, by decide, by decide⟩

/-- Whether it fails or not, the variables, the constraints, the type and the sets of deleted and fixed variables
stay. -/
theorem C23_frame (env : Env) (clks : Nat → Nat → ℚ) (ids : Nat → String) (ph : List (String × ℚ)) (m : LModel) :
    let m' := ((toPhysical env clks ids ph).run m).state
    m'.vars = m.vars ∧ m'.constraints = m.constraints ∧ m'.mtype = m.mtype ∧ m'.deleted = m.deleted ∧
      m'.fixed = m.fixed ∧ m'.id = m.id := by
  have := toPhysical_frame (I := fun s => s.vars = m.vars ∧ s.constraints = m.constraints ∧ s.mtype = m.mtype ∧
    s.deleted = m.deleted ∧ s.fixed = m.fixed ∧ s.id = m.id) (fun _ _ _ _ _ h => h) (fun _ _ h => h) env clks ids ph m
    ⟨rfl, rfl, rfl, rfl, rfl, rfl⟩
  exact this

/-- A QUBO model with a one-hot constraint and a coefficient with a placeholder. -/
def quboHole : LModel := Ex.after (LModel.new .qubo "101") do
  let _ ← createVars "x" [2]
  addInteraction 1 (.var Ex.b0) (.str "") (.expr (.ph "p")) (.num 1) .none .none
  addConstraint (.nHot "c" 1 [Ex.b0, Ex.b1] 1)

/-- With a constraint, a failing conversion (here: a missing placeholder) leaves the interactions of the constraint in
the model; the corrected retry counts the constraint twice. -/
theorem C23_retry_refuted :
    let env : Env := ⟨0, fun _ => "t"⟩
    let fill : List (String × ℚ) := [("p", 1)]
    ∃ e bad p q m₁ m₂, (toPhysical env (fun _ _ => 0) (fun _ => "1") []).run quboHole = .error e bad ∧
      bad.names ≠ quboHole.names ∧
      (toPhysical env (fun _ _ => 0) (fun _ => "1") fill).run quboHole = .ok p m₁ ∧
      (toPhysical env (fun _ _ => 0) (fun _ => "2") fill).run bad = .ok q m₂ ∧
      p.energy (fun l => if l = "x[0]" then 1 else 0) = -2 ∧
      q.energy (fun l => if l = "x[0]" then 1 else 0) = -3 := by
  refine ⟨_, _, _, _, _, _, rfl, ?_, rfl, rfl, ?_, ?_⟩
  all_goals decide +kernel

end Sawatabi.Props
