import Verif.Props.Tidy
import Verif.Props.Registry

/-!
# Fixing a variable that is in constraints

C14 is false if a constraint has the variable. Here is what the next physical model is then: `fix_variable` substitutes
the value into the interactions, while the penalties stay functions of the variable.
-/

namespace Sawatabi.Props

variable {m m' m'' : LModel} {env env' : Env} {clk : Nat → ℚ} {clks : Nat → Nat → ℚ} {ids : Nat → String}
  {ph : List (String × ℚ)} {p : Physical} {v : PVar} {a : ℚ}

/-- After `fix_variable` the model is again one of these. -/
theorem fix_made (hm : Made env (Tidy env) m) (h : (fixVariable clk v (.num a)).run m = .ok ⟨⟩ m') :
    Made env (Tidy env) m' ∧ m'.constraints = m.constraints ∧ m'.mtype = m.mtype := by
  have hs : Op.step env m (.fix clk v (.num a)) = m' := by
    show ((fixVariable clk v (.num a)).run m).state = m'
    rw [h]
    rfl
  refine ⟨?_, ?_, ?_⟩
  · have := Made.step (P := Tidy env) m (.fix clk v (.num a)) hm trivial (fun _ _ e => by cases e)
    rwa [hs] at this
  · rw [← hs]
    exact (step_fix_constraints env clk v (.num a) m).1
  · rw [← hs]
    exact fix_frame (I := fun s : LModel => s.mtype = m.mtype) (fun _ _ _ _ _ h => h) (fun _ _ h => h) clk v (.num a)
      (fun _ h => h) m rfl

/-- **C14**, QUBO: the physical model after fixing a variable. The interactions have the value in place of the variable (up
to removed ones that come back, C13), the penalties do not. -/
theorem C14_exact_qubo (hm : Made env (Tidy env) m) (hq : m.mtype = .qubo) (hd : ∀ c ∈ m.constraints, c.2.Distinct)
    (h : (fixVariable clk v (.num a)).run m = .ok ⟨⟩ m') (hp : (toPhysical env' clks ids ph).run m' = .ok p m'')
    {ρ : PEnv} (hρ : ρ.Extends ph) {σ : Assign} (hb : σ.IsBinary) :
    p.energy σ = m.energy ρ (σ.subst v.label a) - revived m v ρ (σ.subst v.label a) +
      (m.constraints.map fun c => c.2.penalty σ).sum := by
  obtain ⟨hm', hc, ht⟩ := fix_made hm h
  rw [C20_made_partial hm' (ht.trans hq) (by rw [hc]; exact hd) hp hρ hb, (C13_made hm h ρ σ).1, hc]

/-- **C14**, Ising. -/
theorem C14_exact_ising (hm : Made env (Tidy env) m) (hq : m.mtype = .ising) (hd : ∀ c ∈ m.constraints, c.2.Distinct)
    (h : (fixVariable clk v (.num a)).run m = .ok ⟨⟩ m') (hp : (toPhysical env' clks ids ph).run m' = .ok p m'')
    {ρ : PEnv} (hρ : ρ.Extends ph) {s : Assign} (hs : s.IsSpin) :
    p.energy s = m.energy ρ (s.subst v.label a) - revived m v ρ (s.subst v.label a) +
      (m.constraints.map fun c => c.2.penalty s.toBinary + c.2.drift).sum := by
  obtain ⟨hm', hc, ht⟩ := fix_made hm h
  rw [C21_made_partial hm' (ht.trans hq) (by rw [hc]; exact hd) hp hρ hs, (C13_made hm h ρ s).1, hc]

/-- **C14**: the physical model depends on the fixed variable exactly as the penalties of the constraints do. -/
theorem C14_depends (hm : Made env (Tidy env) m) (hq : m.mtype = .qubo) (hd : ∀ c ∈ m.constraints, c.2.Distinct)
    (h : (fixVariable clk v (.num a)).run m = .ok ⟨⟩ m') (hp : (toPhysical env' clks ids ph).run m' = .ok p m'')
    {ρ : PEnv} (hρ : ρ.Extends ph) {σ : Assign} (hb : σ.IsBinary) {b : ℚ} (hb' : b = 0 ∨ b = 1) :
    p.energy (σ.subst v.label b) - p.energy σ =
      (m.constraints.map fun c => c.2.penalty (σ.subst v.label b)).sum - (m.constraints.map fun c => c.2.penalty σ).sum := by
  obtain ⟨hm', hc, ht⟩ := fix_made hm h
  have hbin : (σ.subst v.label b).IsBinary := by
    intro l
    unfold Assign.subst
    split
    · exact hb'
    · exact hb l
  rw [C20_made_partial hm' (ht.trans hq) (by rw [hc]; exact hd) hp hρ hb,
    C20_made_partial hm' (ht.trans hq) (by rw [hc]; exact hd) hp hρ hbin, (C13_made hm h ρ σ).2 b, hc]
  ring

/-- A model with one interaction and a constraint that exactly one of two variables is 1. -/
def fixOps : List Op :=
  [.variables "x" [2], .add 1 (.var Ex.b0) (.str "") (.num 3) (.num 1) .none .none,
   .addConstraint (.nHot "c" 1 [Ex.b0, Ex.b1] 1)]

def fixModel (mt : MType) : LModel := fixOps.foldl (Op.step tidyEnv) (LModel.new mt "1")

theorem fixModel_made (mt : MType) : Made tidyEnv (Tidy tidyEnv) (fixModel mt) := by
  have h1 := Made.step (env := tidyEnv) (P := Tidy tidyEnv) _ (.variables "x" [2]) (.new mt "1") trivial fun _ _ h => by cases h
  have h2 := Made.step (env := tidyEnv) (P := Tidy tidyEnv) _ (.add 1 (.var Ex.b0) (.str "") (.num 3) (.num 1) .none .none) h1 trivial
    fun _ _ h => by cases h
  exact Made.step (env := tidyEnv) (P := Tidy tidyEnv) _ (.addConstraint (.nHot "c" 1 [Ex.b0, Ex.b1] 1)) h2 trivial fun _ _ h => by cases h

theorem fixModel_distinct (mt : MType) : ∀ c ∈ (fixModel mt).constraints, c.2.Distinct := by
  have : (fixModel mt).constraints = [("c", .nHot "c" 1 [Ex.b0, Ex.b1] 1)] := by cases mt <;> decide +kernel
  intro c hc
  rw [this, List.mem_singleton] at hc
  subst hc
  show Constraint.Distinct (.nHot "c" 1 [Ex.b0, Ex.b1] 1)
  unfold Constraint.Distinct
  decide

example : (fixModel .qubo).mtype = .qubo ∧ (∀ c ∈ (fixModel .qubo).constraints, c.2.Distinct) ∧
    (fixModel .qubo).constraints ≠ [] ∧
    ∃ m', (fixVariable (fun _ => 2) Ex.b0 (.num 1)).run (fixModel .qubo) = .ok ⟨⟩ m' ∧
      ∃ p m'', (toPhysical tidyEnv (fun _ _ => 0) (fun _ => "2") []).run m' = .ok p m'' :=
  ⟨rfl, fixModel_distinct _, by decide +kernel, _, rfl, _, _, rfl⟩

example : (fixModel .ising).mtype = .ising ∧ (∀ c ∈ (fixModel .ising).constraints, c.2.Distinct) ∧
    ∃ m', (fixVariable (fun _ => 2) Ex.b0 (.num 1)).run (fixModel .ising) = .ok ⟨⟩ m' ∧
      ∃ p m'', (toPhysical tidyEnv (fun _ _ => 0) (fun _ => "2") []).run m' = .ok p m'' :=
  ⟨rfl, fixModel_distinct _, _, rfl, _, _, rfl⟩

end Sawatabi.Props
