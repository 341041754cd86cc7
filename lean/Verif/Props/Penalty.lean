import Verif.Props.EndToEnd

/-!
# The penalty method (C83)

If every constraint is stronger than the largest difference of logical energies, the optimal samples are exactly the best
assignments that satisfy all constraints.
-/

namespace Sawatabi.Props

variable {m m' : LModel} {env : Env} {clks : Nat → Nat → ℚ} {ids : Nat → String} {ph : List (String × ℚ)} {p : Physical}

theorem one_le_sq {x : ℤ} (h : x ≠ 0) : (1 : ℚ) ≤ (x : ℚ) ^ 2 := by
  have : (1 : ℤ) ≤ x ^ 2 := by
    have := sq_pos_of_ne_zero h
    omega
  exact_mod_cast this

theorem two_le_prod {k : Nat} (h : 1 < k) : (1 : ℚ) ≤ (k : ℚ) * ((k : ℚ) - 1) := by
  have h2 : (2 : ℚ) ≤ (k : ℚ) := by exact_mod_cast h
  nlinarith

theorem prod_zero {k : Nat} (h : k ≤ 1) : (k : ℚ) * ((k : ℚ) - 1) = 0 := by
  rcases Nat.le_one_iff_eq_zero_or_eq_one.mp h with rfl | rfl <;> norm_num

/-- A violated constraint costs at least its strength more than a satisfied one. -/
theorem penalty_violated {c : Constraint} {σ τ : Assign} (hw : 0 ≤ c.weight) (hs : c.Satisfied τ) (hv : ¬ c.Satisfied σ) :
    c.penalty τ + c.weight ≤ c.penalty σ := by
  cases c with
  | nHot l s vs n =>
    simp only [Constraint.Satisfied, Constraint.weight, Constraint.penalty] at *
    have h1 : (1 : ℚ) ≤ ((ones σ vs : ℚ) - n) ^ 2 := by
      have := one_le_sq (x := (ones σ vs : ℤ) - n) (by omega)
      push_cast at this
      exact this
    rw [hs]
    nlinarith
  | zeroOrOneHot l s vs =>
    simp only [Constraint.Satisfied, Constraint.weight, Constraint.penalty] at *
    have h1 := two_le_prod (k := ones σ vs) (by omega)
    rw [prod_zero hs]
    nlinarith
  | equality l s v1 v2 =>
    simp only [Constraint.Satisfied, Constraint.weight, Constraint.penalty] at *
    have h1 : (1 : ℚ) ≤ ((ones σ v1 : ℚ) - ones σ v2) ^ 2 := by
      have := one_le_sq (x := (ones σ v1 : ℤ) - ones σ v2) (by omega)
      push_cast at this
      exact this
    rw [hs]
    nlinarith

/-- Satisfied constraints cost the same, and no assignment costs less. -/
theorem penalty_satisfied {c : Constraint} {σ τ : Assign} (hs : c.Satisfied τ) (ht : c.Satisfied σ) :
    c.penalty τ = c.penalty σ := by
  cases c with
  | nHot l s vs n => simp only [Constraint.Satisfied, Constraint.penalty] at *; rw [hs, ht]
  | zeroOrOneHot l s vs =>
    simp only [Constraint.Satisfied, Constraint.penalty] at *
    rw [prod_zero hs, prod_zero ht]
  | equality l s v1 v2 => simp only [Constraint.Satisfied, Constraint.penalty] at *; rw [hs, ht]; simp

theorem penalty_le {c : Constraint} {σ τ : Assign} (hw : 0 ≤ c.weight) (hs : c.Satisfied τ) : c.penalty τ ≤ c.penalty σ := by
  by_cases h : c.Satisfied σ
  · rw [penalty_satisfied hs h]
  · have := penalty_violated hw hs h
    linarith

theorem sum_map_le {α : Type} {l : List α} {f g : α → ℚ} (h : ∀ a ∈ l, f a ≤ g a) : (l.map f).sum ≤ (l.map g).sum := by
  induction l with
  | nil => simp
  | cons b l ih =>
    simp only [List.map_cons, List.sum_cons]
    exact add_le_add (h b List.mem_cons_self) (ih fun x hx => h x (List.mem_cons_of_mem _ hx))

theorem sum_le_of_mem {α : Type} {l : List α} {f g : α → ℚ} {w : ℚ} (h : ∀ a ∈ l, f a ≤ g a) {a : α} (ha : a ∈ l)
    (hw : f a + w ≤ g a) : (l.map f).sum + w ≤ (l.map g).sum := by
  induction l with
  | nil => cases ha
  | cons b l ih =>
    simp only [List.map_cons, List.sum_cons]
    rcases List.mem_cons.mp ha with rfl | ha'
    · have : (l.map f).sum ≤ (l.map g).sum := sum_map_le fun x hx => h x (List.mem_cons_of_mem _ hx)
      linarith
    · have h1 := ih (fun x hx => h x (List.mem_cons_of_mem _ hx)) ha'
      have h2 := h b List.mem_cons_self
      linarith

/-- All constraints hold. -/
def Feasible (m : LModel) (σ : Assign) : Prop := ∀ c ∈ m.constraints, c.2.Satisfied σ

/-- Each constraint is stronger than every difference of logical energies of binary assignments. -/
def Strong (m : LModel) (ρ : PEnv) : Prop := ∀ c ∈ m.constraints, ∀ σ τ : Assign, σ.IsBinary → τ.IsBinary →
  m.energy ρ σ - m.energy ρ τ < c.2.weight

/-- If some assignment satisfies all constraints, the minimisers of the objective are the assignments of lowest logical
energy among those that satisfy all constraints. -/
theorem C83_minimisers {ρ : PEnv} (hs : Strong m ρ) {τ : Assign} (hb : τ.IsBinary) (hf : Feasible m τ) {σ : Assign}
    (hσ : σ.IsBinary) : IsMinimiser (objective m ρ) σ ↔
      Feasible m σ ∧ ∀ τ' : Assign, τ'.IsBinary → Feasible m τ' → m.energy ρ σ ≤ m.energy ρ τ' := by
  have hw : ∀ c ∈ m.constraints, 0 ≤ c.2.weight := fun c hc => by
    have := hs c hc τ τ hb hb
    linarith
  have hviol : ∀ σ : Assign, σ.IsBinary → ∀ τ : Assign, τ.IsBinary → Feasible m τ → ¬ Feasible m σ →
      objective m ρ τ < objective m ρ σ := by
    intro σ hσ τ hb hf hn
    simp only [Feasible, not_forall] at hn
    obtain ⟨c, hc, hn⟩ := hn
    have h1 := sum_le_of_mem (fun a ha => penalty_le (σ := σ) (hw a ha) (hf a ha)) hc
      (penalty_violated (hw c hc) (hf c hc) hn)
    have h2 := hs c hc τ σ hb hσ
    unfold objective
    linarith
  have hsame : ∀ σ τ : Assign, Feasible m σ → Feasible m τ →
      (m.constraints.map fun c => c.2.penalty σ).sum = (m.constraints.map fun c => c.2.penalty τ).sum := by
    intro σ τ h1 h2
    congr 1
    exact List.map_congr_left fun c hc => penalty_satisfied (h1 c hc) (h2 c hc)
  constructor
  · intro hmin
    have hfe : Feasible m σ := by
      by_contra hn
      have := hviol σ hσ τ hb hf hn
      have := hmin τ hb
      linarith
    refine ⟨hfe, fun τ' hb' hf' => ?_⟩
    have h1 := hmin τ' hb'
    unfold objective at h1
    rw [hsame σ τ' hfe hf'] at h1
    linarith
  · rintro ⟨hfe, hmin⟩ τ' hb'
    by_cases hf' : Feasible m τ'
    · have h1 := hmin τ' hb' hf'
      unfold objective
      rw [hsame σ τ' hfe hf']
      linarith
    · exact le_of_lt (hviol τ' hb' σ hσ hfe hf')

theorem binary_int {σ : Assign} (h : σ.IsBinary) : ∃ f : String → ℤ, (∀ v, MType.qubo.vtype.Domain (f v)) ∧ σ = fun v => (f v : ℚ) := by
  refine ⟨fun v => if σ v = 0 then 0 else 1, fun v => ?_, ?_⟩
  · by_cases h0 : σ v = 0 <;> simp [h0, MType.vtype, VType.Domain]
  · funext v
    rcases h v with h0 | h0 <;> simp [h0]

/-- The optimal samples of the exact solver are the best assignments that satisfy all constraints. -/
theorem C83_exact (hm : Made env KnownKeys m) (hq : m.mtype = .qubo) (hd : ∀ c ∈ m.constraints, c.2.Distinct)
    (hph : (ph.map (·.1)).Nodup) (h : (toPhysical env clks ids ph).run m = .ok p m') {ρ : PEnv} (hρ : ρ.Extends ph)
    (hne : ¬ Empty p) (hs : Strong m ρ) {τ : Assign} (hb : τ.IsBinary) (hf : Feasible m τ) (log : List Bqm) :
    ∃ res log', (localSolve none p).run log = .ok res log' ∧ (∃ best ∈ res, ∀ r ∈ res, best.2 ≤ r.2) ∧
      ∀ best ∈ res, (∀ r ∈ res, best.2 ≤ r.2) → ∀ f : String → ℤ, (∀ v, m.mtype.vtype.Domain (f v)) →
        Feasible m (fun v => (complete f best.1 v : ℚ)) ∧
        ∀ τ' : Assign, τ'.IsBinary → Feasible m τ' → m.energy ρ (fun v => (complete f best.1 v : ℚ)) ≤ m.energy ρ τ' := by
  obtain ⟨res, log', h1, h2, b, hb1, hb2, hb3⟩ := C82_exact hm (.inr ⟨hq, hd⟩) hph h hρ hne log
  refine ⟨res, log', h1, ⟨b, hb1, hb2⟩, fun best hbest hmin f hfd => ?_⟩
  obtain ⟨e1, e2⟩ := h2 f hfd best hbest
  have hbin : Assign.IsBinary fun v => (complete f best.1 v : ℚ) := by
    intro v
    have := e1 v
    rw [hq] at this
    rcases this with h | h <;> simp [h]
  refine (C83_minimisers hs hb hf hbin).mp fun τ' hb' => ?_
  rw [← e2]
  obtain ⟨g, hg, rfl⟩ := binary_int hb'
  exact le_trans (hmin b hb1) (hb3 g (by rw [hq]; exact hg))

/-- The example has a constraint of strength 5 and energies between -3 and 0. -/
theorem Ex.penalty_strong : Strong Ex.penaltyModel fun _ => 0 := by
  have hc : Ex.penaltyModel.constraints = [("c", .nHot "c" 5 [Ex.b0, Ex.b1] 1)] := by decide +kernel
  have he : ∀ σ : Assign, Ex.penaltyModel.energy (fun _ => 0) σ = - (3 * σ "x[0]") := by
    intro σ
    have h1 : Ex.penaltyModel.rows.map (fun r => (r.removed, r.coef, r.scale, r.inter)) =
        [(false, .num 3, .num 1, .lin Ex.b0)] := by decide +kernel
    have h2 : Ex.penaltyModel.offset = .num 0 := by decide +kernel
    have h3 : Ex.penaltyModel.rows.map (Row.term (fun _ => 0) σ) =
        (Ex.penaltyModel.rows.map fun r => (r.removed, r.coef, r.scale, r.inter)).map fun t =>
          if t.1 then 0 else t.2.1.eval (fun _ => 0) * t.2.2.1.eval (fun _ => 0) * t.2.2.2.value σ := by
      rw [List.map_map]; rfl
    unfold LModel.energy
    rw [h3, h1, h2]
    simp [Coef.eval, Inter.value, Ex.b0]
  intro c hcm σ τ hσ hτ
  rw [hc, List.mem_singleton] at hcm
  subst hcm
  rw [he, he]
  simp only [Constraint.weight]
  rcases hσ "x[0]" with h | h <;> rcases hτ "x[0]" with h' | h' <;> rw [h, h'] <;> norm_num

example : Feasible Ex.penaltyModel fun v => if v = "x[1]" then 1 else 0 := by
  have hc : Ex.penaltyModel.constraints = [("c", .nHot "c" 5 [Ex.b0, Ex.b1] 1)] := by decide +kernel
  intro c hcm
  rw [hc, List.mem_singleton] at hcm
  subst hcm
  simp only [Constraint.Satisfied]
  decide +kernel

end Sawatabi.Props
