import Verif.Props.Tidy
import Verif.Props.MergeExact
import Verif.Props.PhysicalExact
import Verif.Props.PhysicalTerms
import Verif.Props.Variables

/-!
# The exact theorems on merges and conversions, for models made by public calls

As in Props/Tidy.lean; for merges the arrays must be registered by name and shape as well.
-/

namespace Sawatabi.Props

variable {m m' a b : LModel} {env env' : Env} {clk : Nat → ℚ} {clks : Nat → Nat → ℚ} {ids : Nat → String}
  {ph : List (String × ℚ)} {p : Physical}

/-- Calls that keep the table in order and register no foreign array. -/
def TidyOwn (env : Env) (m : LModel) (op : Op) : Prop := Tidy env m op ∧ ∀ a, op ≠ .variablesArray a

/-- **C18** along such histories, with merges. -/
theorem C18_made (hm : Made env (TidyOwn env) m) : VarsOk m := by
  induction hm with
  | new mt id => exact new_varsOk mt id
  | step m op _ hp _ ih iho =>
    refine step_varsOk env op m ih (fun a e => hp.2 a e) fun clk o e => iho clk o e

theorem tidyOwn_tidy (hm : Made env (TidyOwn env) m) : Made env (Tidy env) m := made_mono (fun _ _ h => h.1) hm

/-- **C22**: exactly when a conversion succeeds, and what it leaves. -/
theorem C22_made_exact (hm : Made env (Tidy env) m) :
    (∃ p, (toPhysical env' clks ids ph).run m = .ok p m') ↔
      ∃ bs : List LModel, List.Forall₂ (fun p b => ConstraintModel env' (clks p.2) (ids p.2) p.1.2 m.mtype b)
          m.constraints.zipIdx bs ∧ m.Filled ph ∧
        let ns := (m.rows.filter (·.removed)).map fun r => renamed m.id (bs.map (·.names)) r.name
        ns.Nodup ∧ (∀ n ∈ ns, n ∈ m.names) ∧ m' = markClean (m.prune fun r => !ns.contains r.name) :=
  C22_exact (tidy_rect hm) (C01_made_partial hm)

/-- **C24**: label and index are inverse to each other. -/
theorem C24_made_partial (hm : Made env (TidyOwn env) m) (hb : ∀ n ∈ dkeys m.vars, '[' ∉ n.toList)
    (h : (toPhysical env' clks ids ph).run m = .ok p m') (l : String) (i : Nat) :
    dget p.labelToIndex l = some i ↔ dget p.indexToLabel i = some l :=
  (C24_bijection_partial (C18_labels_distinct_partial (C18_made hm) hb) h).1 l i

/-- **C40**: exactly when a merge returns. -/
theorem C40_made_partial (ha : Made env (TidyOwn env) a) (hb : Made env (TidyOwn env) b) :
    (∃ s, (merge env' clk).run (a, b) = .ok ⟨⟩ s) ↔
      (a.mtype = b.mtype ∨ Convertible env' clk b) ∧ ¬RanksDiffer a b ∧ ¬SharesConstraint a b :=
  C40_success_iff_partial (C18_made ha) (C18_made hb) (tidy_rect (tidyOwn_tidy ha)) (tidy_rect (tidyOwn_tidy hb))
    (C01_made_partial (tidyOwn_tidy hb))

/-- **C40**: a merge that raises before anything is merged leaves the model; one that finds a common constraint label has
merged the arrays and the interactions, and nothing else. -/
theorem C40_made_raising_partial (ha : Made env (TidyOwn env) a) (hb : Made env (TidyOwn env) b) {e : Err} {a' b' : LModel}
    (h : (merge env' clk).run (a, b) = .error e (a', b')) :
    a' = a ∨ (e = .valueError ∧ SharesConstraint a b ∧
      (∀ n, Joined a.mtype.vtype n (dget a.vars n) (dget b'.vars n) (dget a'.vars n)) ∧
      a'.rows.map Row.anon = (a.rows ++ b'.rows).map Row.anon ∧ a'.mtype = a.mtype ∧ a'.constraints = a.constraints ∧
      a'.offset = a.offset ∧ a'.deleted = a.deleted ∧ a'.fixed = a.fixed ∧ a'.id = a.id) := by
  obtain ⟨h1, h2⟩ := C40_exact_partial (env := env') (clk := clk) (C18_made ha) (C18_made hb) (tidy_rect (tidyOwn_tidy ha))
    (tidy_rect (tidyOwn_tidy hb))
  have hex : a' = a ∨ ∃ b₁, Used env' clk a b b₁ := by
    by_cases ht : a.mtype = b.mtype
    · exact .inr ⟨b, .inl ⟨ht, rfl⟩⟩
    · cases hc : (convertMtype env' clk).run b with
      | error e' b₁ =>
        rw [h1 e' b₁ ht hc] at h
        cases h
        exact .inl rfl
      | ok u b₁ => exact .inr ⟨b₁, .inr ⟨ht, hc⟩⟩
  rcases hex with rfl | ⟨b₁, hu⟩
  · exact .inl rfl
  · obtain ⟨h3, h4, h5⟩ := h2 b₁ hu
    by_cases hr : RanksDiffer a b
    · rw [h3 hr] at h
      cases h
      exact .inl rfl
    · by_cases hs : SharesConstraint a b
      · obtain ⟨a₁, he, hrest⟩ := h4 hr hs
        rw [he] at h
        cases h
        exact .inr ⟨rfl, hs, hrest⟩
      · obtain ⟨a₁, he⟩ := h5 hr hs
        rw [he] at h
        cases h

/-- A history with arrays, interactions and a merge that raises at a common constraint label. -/
def ownOps : List Op :=
  tidyOps ++ [.addConstraint (.nHot "one" 2 [Ex.b0, Ex.b1] 1)]

def ownOne (id : String) : LModel := ownOps.foldl (Op.step tidyEnv) (LModel.new .ising id)

theorem ownOne_made (id : String) : Made tidyEnv (TidyOwn tidyEnv) (ownOne id) := by
  have : ∀ ops : List Op, (∀ op ∈ ops, ∀ m, TidyOwn tidyEnv m op ∧ ∀ clk o, op ≠ .merge clk o) → ∀ m,
      Made tidyEnv (TidyOwn tidyEnv) m → Made tidyEnv (TidyOwn tidyEnv) (ops.foldl (Op.step tidyEnv) m) := by
    intro ops
    induction ops with
    | nil => intro _ m h; exact h
    | cons op ops ih =>
      intro hops m h
      obtain ⟨h1, h2⟩ := hops op List.mem_cons_self m
      exact ih (fun o ho => hops o (List.mem_cons_of_mem _ ho)) _ (.step m op h h1 fun clk o e => absurd e (h2 clk o))
  refine this _ (fun op hop m => ?_) _ (.new _ _)
  simp only [ownOps, tidyOps, List.cons_append, List.nil_append, List.mem_cons, List.not_mem_nil, or_false] at hop
  rcases hop with rfl | rfl | rfl | rfl <;> exact ⟨⟨trivial, fun _ h => by cases h⟩, fun _ _ h => by cases h⟩

example : Made tidyEnv (TidyOwn tidyEnv) (ownOne "101") ∧ Made tidyEnv (TidyOwn tidyEnv) (ownOne "102") ∧
    ∃ e s, (merge tidyEnv fun _ => 0).run (ownOne "101", ownOne "102") = .error e s ∧ s.1.rows.length = 4 ∧
      (ownOne "101").rows.length = 2 := by
  refine ⟨ownOne_made _, ownOne_made _, _, _, rfl, by decide +kernel, by decide +kernel⟩

example : (∀ n ∈ dkeys (ownOne "101").vars, '[' ∉ n.toList) ∧
    ((toPhysical tidyEnv (fun _ _ => 0) (fun _ => "1") []).run (ownOne "101")).isOk = true := by
  exact ⟨by decide +kernel, by decide +kernel⟩

end Sawatabi.Props
