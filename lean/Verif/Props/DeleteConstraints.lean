import Verif.Props.PhysicalMade
import Verif.Props.Pipeline
import Verif.Props.Tidy
import Verif.Props.EndToEnd
import Verif.Lemmas.Proper

/-!
# C11: deleting a variable in the constraints; C96: the time of a window
-/

namespace Sawatabi.Props

/-- As many ones without a variable as with its value set to 0. -/
theorem ones_without (σ : Assign) (v : PVar) {vs : List PVar} (hv : v ∈ vs) (hd : (vs.map (·.label)).Nodup) :
    ones σ (vs.filter (· ≠ v)) = ones (σ.subst v.label 0) vs := by
  have : ∀ w ∈ vs, w.label = v.label → w = v := fun w hw h => List.inj_on_of_nodup_map hd hw hv h
  clear hd hv
  induction vs with
  | nil => rfl
  | cons w vs ih =>
    have ih := ih fun u hu => this u (List.mem_cons_of_mem _ hu)
    have hw := this w List.mem_cons_self
    unfold ones at ih ⊢
    by_cases h : w = v
    · subst h
      rw [List.filter_cons_of_neg (by simp), ih, List.filter_cons_of_neg (by simp [Assign.subst])]
    · have hl : σ.subst v.label 0 w.label = σ w.label := if_neg fun e => h (hw e)
      rw [List.filter_cons_of_pos (by simpa using h), List.filter_cons, List.filter_cons (x := w) (xs := vs), hl]
      split
      · rw [List.length_cons, List.length_cons, ih]
      · exact ih

/-- **C11** for the constraints: after a deletion, each of them has the penalty of the former one with the variable set to 0, and
asks for the same. -/
theorem C11_constraints {m m' : LModel} {v : PVar} (hc : (dkeys m.constraints).Nodup) (hd : ∀ c ∈ m.constraints, c.2.Distinct)
    (h : (deleteVariable v).run m = .ok ⟨⟩ m') :
    List.Forall₂ (fun c c' : String × Sawatabi.Constraint => c'.1 = c.1 ∧ (∀ vs ∈ c'.2.sets, v ∉ vs) ∧
      ∀ σ : Assign, c'.2.penalty σ = c.2.penalty (σ.subst v.label 0) ∧ (c'.2.Satisfied σ ↔ c.2.Satisfied (σ.subst v.label 0)))
      m.constraints m'.constraints := by
  obtain ⟨h1, h2⟩ := delete_constraints hc h
  rw [h2, List.forall₂_map_right_iff, List.forall₂_same]
  intro c hcm
  refine ⟨rfl, fun vs hvs hv => (without_sets (h1 c hcm) vs hvs v hv).1 rfl, fun σ => ?_⟩
  have h3 := h1 c hcm
  have h4 := hd c hcm
  obtain ⟨l, c⟩ := c
  cases h3 with
  | nHot l s vs n hv =>
    simp only [without, Sawatabi.Constraint.penalty, Sawatabi.Constraint.Satisfied, ones_without σ v hv h4, and_self]
  | zeroOrOneHot l s vs hv =>
    simp only [without, Sawatabi.Constraint.penalty, Sawatabi.Constraint.Satisfied, ones_without σ v hv h4, and_self]

/-- **C11**: deleting a variable sets it to 0 in the interactions and the penalties together. -/
theorem C11_objective_partial {m m' : LModel} {v : PVar} (hu : m.names.Nodup) (hc : (dkeys m.constraints).Nodup)
    (hd : ∀ c ∈ m.constraints, c.2.Distinct) (h : (deleteVariable v).run m = .ok ⟨⟩ m') (ρ : PEnv) (σ : Assign) :
    m'.energy ρ σ + (m'.constraints.map fun c => c.2.penalty σ).sum =
      m.energy ρ (σ.subst v.label 0) + (m.constraints.map fun c => c.2.penalty (σ.subst v.label 0)).sum := by
  rw [C11_delete_energy_partial hu h]
  congr 2
  have := C11_constraints hc hd h
  generalize m.constraints = cs at this ⊢
  generalize m'.constraints = cs' at this ⊢
  induction this with
  | nil => rfl
  | cons h _ ih => rw [List.map_cons, List.map_cons, ih, (h.2.2 σ).1]

/-- Calls that keep names distinct, with sets as the variables of constraints. -/
def TidySets (env : Env) (m : LModel) (op : Op) : Prop := Tidy env m op ∧ SetArgs m op

theorem without_distinct {v : PVar} {c : Sawatabi.Constraint} (h : c.Distinct) : (without v c).Distinct := by
  cases c with
  | nHot l s vs n => exact h.sublist (List.filter_sublist.map _)
  | zeroOrOneHot l s vs => exact h.sublist (List.filter_sublist.map _)
  | equality l s a b => exact h

/-- **C11** for models made by such calls. -/
theorem C11_made_objective_partial {env : Env} {m m' : LModel} {v : PVar} (hm : Made env (TidySets env) m)
    (hd : ∀ c ∈ m.constraints, c.2.Distinct) (h : (deleteVariable v).run m = .ok ⟨⟩ m') (ρ : PEnv) (σ : Assign) :
    m'.energy ρ σ + (m'.constraints.map fun c => c.2.penalty σ).sum =
      m.energy ρ (σ.subst v.label 0) + (m.constraints.map fun c => c.2.penalty (σ.subst v.label 0)).sum :=
  C11_objective_partial (C01_made_partial (made_mono (fun _ _ h => h.1) hm)) (made_proper (made_mono (fun _ _ h => h.2) hm)).cons hd h ρ σ

/-- **C11** up to the physical model: for QUBO models, deleting a variable and converting gives the energy of the model, with the
penalties of its constraints, at the variable set to 0. -/
theorem C11_physical_partial {env env' : Env} {clks : Nat → Nat → ℚ} {ids : Nat → String} {ph : List (String × ℚ)} {m m' m'' : LModel}
    {p : Physical} {v : PVar} (hm : Made env (TidySets env) m) (hq : m.mtype = .qubo) (hd : ∀ c ∈ m.constraints, c.2.Distinct)
    (h : (deleteVariable v).run m = .ok ⟨⟩ m') (hp : (toPhysical env' clks ids ph).run m' = .ok p m'') {ρ : PEnv} (hρ : ρ.Extends ph)
    {σ : Assign} (hb : σ.IsBinary) :
    p.energy σ = m.energy ρ (σ.subst v.label 0) + (m.constraints.map fun c => c.2.penalty (σ.subst v.label 0)).sum := by
  have hu := C01_made_partial (made_mono (fun _ _ h => h.1) hm)
  have hc := (made_proper (made_mono (fun _ _ h => h.2) hm)).cons
  have hs : Op.step env m (.delete v) = m' := by simp only [Op.step, Op.call, h]; rfl
  have hm' : Made env (Tidy env) m' := by
    rw [← hs]
    exact .step m (.delete v) (made_mono (fun _ _ h => h.1) hm) trivial fun _ _ e => by cases e
  have hq' : m'.mtype = .qubo := by
    obtain ⟨cs, rfl⟩ := deleteVariable_ok hu h
    exact hq
  have hd' : ∀ c ∈ m'.constraints, c.2.Distinct := by
    rw [(delete_constraints hc h).2]
    intro c hcm
    obtain ⟨c, h1, rfl⟩ := List.mem_map.mp hcm
    exact without_distinct (hd c h1)
  rw [C20_made_partial hm' hq' hd' hp hρ hb, C11_made_objective_partial hm hd h]

/-- **C11** up to the physical model, Ising. The value 0 is that of the spin in the interactions, but that of the bit in the
penalties, where the spin would be -1. The constants are those of the constraints without the variable. -/
theorem C11_physical_ising_partial {env env' : Env} {clks : Nat → Nat → ℚ} {ids : Nat → String} {ph : List (String × ℚ)}
    {m m' m'' : LModel} {p : Physical} {v : PVar} (hm : Made env (TidySets env) m) (hq : m.mtype = .ising)
    (hd : ∀ c ∈ m.constraints, c.2.Distinct) (h : (deleteVariable v).run m = .ok ⟨⟩ m')
    (hp : (toPhysical env' clks ids ph).run m' = .ok p m'') {ρ : PEnv} (hρ : ρ.Extends ph) {s : Assign} (hs : s.IsSpin) :
    p.energy s = m.energy ρ (s.subst v.label 0) + (m.constraints.map fun c => c.2.penalty (s.subst v.label (-1)).toBinary).sum +
      (m'.constraints.map fun c => c.2.drift).sum := by
  have hu := C01_made_partial (made_mono (fun _ _ h => h.1) hm)
  have hc := (made_proper (made_mono (fun _ _ h => h.2) hm)).cons
  have hst : Op.step env m (.delete v) = m' := by simp only [Op.step, Op.call, h]; rfl
  have hm' : Made env (Tidy env) m' := by
    rw [← hst]
    exact .step m (.delete v) (made_mono (fun _ _ h => h.1) hm) trivial fun _ _ e => by cases e
  have hq' : m'.mtype = .ising := by
    obtain ⟨cs, rfl⟩ := deleteVariable_ok hu h
    exact hq
  have hd' : ∀ c ∈ m'.constraints, c.2.Distinct := by
    rw [(delete_constraints hc h).2]
    intro c hcm
    obtain ⟨c, h1, rfl⟩ := List.mem_map.mp hcm
    exact without_distinct (hd c h1)
  have hbin : (s.subst v.label (-1)).toBinary = s.toBinary.subst v.label 0 := by
    funext l
    unfold Assign.toBinary Assign.subst
    split <;> norm_num
  rw [C21_made_partial hm' hq' hd' hp hρ hs, C11_delete_energy_partial hu h, List.sum_map_add, ← add_assoc, hbin]
  congr 2
  have := C11_constraints hc hd h
  generalize m.constraints = cs at this ⊢
  generalize m'.constraints = cs' at this ⊢
  induction this with
  | nil => rfl
  | cons h _ ih => rw [List.map_cons, List.map_cons, List.sum_cons, List.sum_cons, ih, (h.2.2 s.toBinary).1]

/-- An Ising model with an interaction and a two-hot constraint. -/
def Ex.threeOps : List Op := [.variables "x" [3], .add 1 (.var Ex.x0) (.str "") (.num 1) (.num 1) .none .none,
  .addConstraint (.nHot "c" 5 [Ex.x0, Ex.x1, ⟨.spin, "x[2]"⟩] 2)]

def Ex.three : LModel := Ex.threeOps.foldl (Op.step ⟨0, fun _ => "t"⟩) (LModel.new .ising "101")

/-- `C11_physical_ising_partial` -/
example : Made ⟨0, fun _ => "t"⟩ (TidySets ⟨0, fun _ => "t"⟩) Ex.three ∧ Ex.three.mtype = .ising ∧
    (∀ c ∈ Ex.three.constraints, c.2.Distinct) ∧ ∃ m' p m'', (deleteVariable Ex.x0).run Ex.three = .ok ⟨⟩ m' ∧
      (toPhysical ⟨0, fun _ => "t"⟩ (fun _ _ => 0) (fun _ => "2") []).run m' = .ok p m'' := by
  refine ⟨made_ops _ (.new _ _) (by simp [Ex.threeOps]) fun _ op h => ?_, by decide +kernel, ?_, _, _, _, rfl, rfl⟩
  · simp only [Ex.threeOps, List.mem_cons, List.not_mem_nil, or_false] at h
    rcases h with rfl | rfl | rfl
    · exact ⟨trivial, trivial⟩
    · exact ⟨trivial, trivial⟩
    · refine ⟨trivial, ?_⟩
      simp only [SetArgs, Sawatabi.Constraint.SetVars]
      decide
  · rw [show Ex.three.constraints = [("c", .nHot "c" 5 [Ex.x0, Ex.x1, ⟨.spin, "x[2]"⟩] 2)] by decide +kernel]
    simp only [List.mem_singleton]
    rintro c rfl
    unfold Sawatabi.Constraint.Distinct
    decide

/-- The hypotheses of `C11_made_objective_partial` and `C11_physical_partial`. -/
example : Made ⟨0, fun _ => "t"⟩ (TidySets ⟨0, fun _ => "t"⟩) (Ex.usable 3) ∧ (Ex.usable 3).mtype = .qubo ∧
    ∃ m' p m'', (deleteVariable ⟨.binary, "x[2]"⟩).run (Ex.usable 3) = .ok ⟨⟩ m' ∧
      (toPhysical ⟨0, fun _ => "t"⟩ (fun _ _ => 0) (fun _ => "2") []).run m' = .ok p m'' := by
  refine ⟨made_ops _ (.new _ _) (by simp [Ex.usableOps, Ex.usableAdd, Ex.usableCon]) fun _ op h => ?_, by decide +kernel, _, _, _, rfl, rfl⟩
  simp only [Ex.usableOps, List.take_succ_cons, List.take_zero, List.mem_cons, List.not_mem_nil, or_false] at h
  rcases h with rfl | rfl | rfl
  · exact ⟨trivial, trivial⟩
  · exact ⟨trivial, trivial⟩
  · refine ⟨trivial, ?_⟩
    unfold Ex.usableCon
    simp only [SetArgs, Sawatabi.Constraint.SetVars]
    decide

/-- `C11_constraints`, `C11_objective_partial`: a one-hot constraint with three variables, one of which is deleted. -/
example : (Ex.usable 3).names.Nodup ∧ (dkeys (Ex.usable 3).constraints).Nodup ∧ (∀ c ∈ (Ex.usable 3).constraints, c.2.Distinct) ∧
    (∃ m', (deleteVariable ⟨.binary, "x[2]"⟩).run (Ex.usable 3) = .ok ⟨⟩ m') ∧ (Ex.usable 3).constraints ≠ [] := by
  have hcs : (Ex.usable 3).constraints = [("one", .nHot "one" 3 [⟨.binary, "x[0]"⟩, ⟨.binary, "x[1]"⟩, ⟨.binary, "x[2]"⟩] 1)] := by
    decide +kernel
  refine ⟨by decide +kernel, by decide +kernel, ?_, ⟨_, rfl⟩, by rw [hcs]; simp⟩
  rw [hcs]
  simp only [List.mem_singleton]
  rintro c rfl
  unfold Sawatabi.Constraint.Distinct
  decide

open Stream Pipeline in
/-- **C96**: the time of a window is the last whole microsecond before its end. -/
theorem C96_time {δ : Type} {wi : Windowing} (h : wi.Valid) (els : List (El δ)) {a b : ℤ} (ha : wi.step = a / 1000000)
    (hb : wi.size = b / 1000000) {w : Win δ} (hw : w ∈ windows wi els) :
    ∃ k : ℤ, w.elements = between els (k * wi.step) (k * wi.step + wi.size) ∧ k * wi.step ≤ w.ts ∧ w.ts < k * wi.step + wi.size ∧
      ∀ n : ℤ, (n : ℚ) / 1000000 < k * wi.step + wi.size → (n : ℚ) / 1000000 ≤ w.ts := by
  obtain ⟨k, rfl, _⟩ := ((C96_windows h els).2 w).mp hw
  have hpos : 0 < wi.size := by
    cases wi with
    | sliding s p => exact h.1
    | fixed s => exact h
  have hb0 : 1 ≤ b := by
    rw [hb] at hpos
    have : (0 : ℚ) < b := by linarith
    exact_mod_cast this
  have hb1 : (1 : ℚ) ≤ b := by exact_mod_cast hb0
  refine ⟨k, rfl, ?_, ?_, fun n hn => ?_⟩
  · simp only [tick]; linarith
  · simp only [tick]; linarith
  · simp only [tick]
    rw [ha, hb] at hn ⊢
    have : (n : ℚ) < k * a + b := by linarith
    have : n < k * a + b := by exact_mod_cast this
    have : (n : ℚ) + 1 ≤ k * a + b := by exact_mod_cast this
    linarith

open Stream Pipeline in
/-- `C96_time`: windows of three seconds every two seconds. -/
example : (Windowing.sliding 3 2).Valid ∧ (Windowing.sliding 3 2).step = ((2000000 : ℤ) : ℚ) / 1000000 ∧
    (Windowing.sliding 3 2).size = ((3000000 : ℤ) : ℚ) / 1000000 ∧ windows (.sliding 3 2) (timed [7, 8]) ≠ [] := by
  refine ⟨by norm_num [Windowing.Valid], by norm_num [Windowing.step], by norm_num [Windowing.size], by decide +kernel⟩

end Sawatabi.Props
