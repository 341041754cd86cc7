import Verif.Props.PhysicalFailure
import Verif.Props.PhysicalSuccess
import Verif.Props.PhysicalTerms
import Verif.Props.Attenuation
import Verif.Props.StreamState
import Verif.Props.EndToEnd
import Verif.Props.Tidy
import Verif.Props.SolveAlike
import Verif.Props.StreamExact
import Verif.Props.PrintingLines
import Verif.Props.Aggregate

/-!
# More theorems on concrete models
-/

namespace Sawatabi.Props

variable {ρ : PEnv} {σ : Assign}

/-! ## A conversion that raises -/

/-- What the conversion leaves of an Ising model with an equality of a variable with itself. -/
def Ex.stopped : LModel :=
  ((toPhysical ⟨0, fun _ => "t"⟩ (fun _ _ => 0) (fun _ => "1") []).run (isingTwo Ex.x1 Ex.x1)).state

theorem Ex.stopped_run : ∃ e, (toPhysical ⟨0, fun _ => "t"⟩ (fun _ _ => 0) (fun _ => "1") []).run (isingTwo Ex.x1 Ex.x1) =
    .error e Ex.stopped := by
  have h : ((toPhysical ⟨0, fun _ => "t"⟩ (fun _ _ => 0) (fun _ => "1") []).run (isingTwo Ex.x1 Ex.x1)).isOk = false := by
    decide +kernel
  unfold Ex.stopped
  revert h
  cases (toPhysical ⟨0, fun _ => "t"⟩ (fun _ _ => 0) (fun _ => "1") []).run (isingTwo Ex.x1 Ex.x1) with
  | ok _ _ => intro h; cases h
  | error e m => intro _; exact ⟨e, rfl⟩

/-- `C23_left_ising_partial` -/
example : ∃ k, StopsAt (isingTwo Ex.x1 Ex.x1) [] k ∧ (k = 0 → Ex.stopped = isingTwo Ex.x1 Ex.x1) := by
  obtain ⟨h1, h2, h3, h4, h5, _⟩ := isingTwo_meets Ex.x1 Ex.x1 (.inr rfl) (.inr rfl)
  obtain ⟨e, he⟩ := Ex.stopped_run
  obtain ⟨k, h6, h7, _⟩ := C23_left_ising_partial h1 h2 h3 h4 (fun c hc => (h5 c hc).1) (fun c hc => (h5 c hc).2.1) he
  exact ⟨k, h6, h7⟩

/-- `C23_retry_ising_partial`: the position is that of the second constraint, and the rows of the first one are left. -/
example : (∃ k, StopsAt (isingTwo Ex.x1 Ex.x1) [] k) ∧ (isingTwo Ex.x1 Ex.x1).rows.length < Ex.stopped.rows.length := by
  obtain ⟨h1, h2, h3, h4, h5, _⟩ := isingTwo_meets Ex.x1 Ex.x1 (.inr rfl) (.inr rfl)
  obtain ⟨e, he⟩ := Ex.stopped_run
  obtain ⟨k, h6, _⟩ := C23_retry_ising_partial h1 h2 h3 h4 (fun c hc => (h5 c hc).1) (fun c hc => (h5 c hc).2.1) he
  exact ⟨⟨k, h6⟩, by decide +kernel⟩

/-! ## The order of the interactions -/

/-- Two interactions in either order, with or without a constraint. -/
def Ex.ordered (swap con : Bool) : LModel := Ex.after (LModel.new .ising "101") do
  let _ ← createVars "x" [2]
  if swap then
    addInteraction 1 (.var Ex.x1) (.str "") (.num 5) (.num 1) .none .none
    addInteraction 1 (.var Ex.x0) (.str "") (.num 3) (.num 1) .none .none
  else
    addInteraction 1 (.var Ex.x0) (.str "") (.num 3) (.num 1) .none .none
    addInteraction 1 (.var Ex.x1) (.str "") (.num 5) (.num 1) .none .none
  if con then addConstraint (.nHot "c" 2 [Ex.x0, Ex.x1] 1)

theorem Ex.ordered_rect (swap con : Bool) : (Ex.ordered swap con).Rect := by
  cases swap <;> cases con <;> exact ⟨by decide, by decide, by decide, by decide⟩

theorem Ex.ordered_perm (con : Bool) : (Ex.ordered false con).rows.Perm (Ex.ordered true con).rows ∧
    (Ex.ordered false con).rows ≠ (Ex.ordered true con).rows := by
  cases con <;> constructor <;> decide +kernel

/-- `C27_success_partial` -/
example : (∃ p m', (toPhysical ⟨0, fun _ => "t"⟩ (fun _ _ => 0) (fun _ => "1") []).run (Ex.ordered false false) = .ok p m') ↔
    ∃ q n', (toPhysical ⟨5, fun _ => "u"⟩ (fun _ _ => 7) (fun _ => "2") []).run (Ex.ordered true false) = .ok q n' :=
  C27_success_partial (Ex.ordered_rect _ _) (Ex.ordered_rect _ _) (by decide) (Ex.ordered_perm _).1 (by decide) (by decide) (by decide)

/-- `C27_success_constraints_partial` -/
example : (∃ p m', (toPhysical ⟨0, fun _ => "t"⟩ (fun _ _ => 0) (fun _ => "1") []).run (Ex.ordered false true) = .ok p m') ↔
    ∃ q n', (toPhysical ⟨5, fun _ => "u"⟩ (fun _ _ => 7) (fun _ => "2") []).run (Ex.ordered true true) = .ok q n' := by
  refine C27_success_constraints_partial (Ex.ordered_rect _ _) (Ex.ordered_rect _ _) (by decide) ?_ (Ex.ordered_perm _).1 (by decide)
    (by decide) (by decide) fun _ => ?_
  · unfold LModel.NoClash; decide
  · rw [show (Ex.ordered false true).constraints = [("c", .nHot "c" 2 [Ex.x0, Ex.x1] 1)] by decide]
    unfold Constraint.SpaceFree Constraint.sets; decide

/-- `C27_order_partial` -/
example : ∃ p q m' n', (toPhysical ⟨0, fun _ => ""⟩ (fun _ _ => 0) (fun _ => "1") [("p", 2)]).run Ex.other = .ok p m' ∧
    (toPhysical ⟨0, fun _ => ""⟩ (fun _ _ => 0) (fun _ => "1") [("p", 2)]).run Ex.qubo = .ok q n' ∧ p.linear.Perm q.linear ∧
    p.linear ≠ q.linear := by
  refine ⟨_, _, _, _, rfl, rfl, (C27_order_partial (env := ⟨0, fun _ => ""⟩) (clks := fun _ _ => 0) (ids := fun _ => "1")
    (env' := ⟨0, fun _ => ""⟩) (clks' := fun _ _ => 0) (ids' := fun _ => "1") (ph := [("p", 2)]) (m := Ex.other) (n := Ex.qubo)
    ⟨by decide +kernel, by decide +kernel, by decide +kernel, by decide +kernel⟩
    ⟨by decide +kernel, by decide +kernel, by decide +kernel, by decide +kernel⟩ ?_ (by simp) (by decide +kernel) (by decide +kernel)
    (by decide +kernel) (by decide +kernel) (by decide +kernel) (by decide +kernel) rfl rfl).1, by decide +kernel⟩
  exact orderedDec _ (by decide +kernel)

/-! ## Models made by calls -/

theorem Ex.other_known : Made ⟨0, fun _ => ""⟩ KnownKeys Ex.other :=
  made_ops _ (.new _ _) (by simp [Ex.otherOps]) fun _ op h => by
    simp only [Ex.otherOps, List.mem_cons, List.not_mem_nil, or_false] at h
    rcases h with rfl | rfl | rfl | rfl | rfl <;> trivial

/-- `C19_made_partial`, `C26_made_sums_partial` -/
example (hρ : ρ.Extends [("p", 2)]) : ∃ p m', (toPhysical ⟨0, fun _ => ""⟩ (fun _ _ => 0) (fun _ => "1") [("p", 2)]).run Ex.other =
    .ok p m' ∧ p.energy σ = Ex.other.energy ρ σ ∧ ∀ l q, (l, q) ∈ p.linear ↔ q = linTotal ρ Ex.other.rows l ∧ q ≠ 0 :=
  ⟨_, _, rfl, C19_made_partial (env := ⟨0, fun _ => ""⟩) (clks := fun _ _ => 0) (ids := fun _ => "1") (ph := [("p", 2)])
    Ex.other_known (by decide +kernel) rfl hρ σ,
    (C26_made_sums_partial (env := ⟨0, fun _ => ""⟩) (clks := fun _ _ => 0) (ids := fun _ => "1") (ph := [("p", 2)])
      Ex.other_known (by decide +kernel) rfl hρ).1⟩

theorem Ex.other_tidy : Made ⟨0, fun _ => ""⟩ (Tidy ⟨0, fun _ => ""⟩) Ex.other :=
  made_ops _ (.new _ _) (by simp [Ex.otherOps]) fun _ op h => by
    simp only [Ex.otherOps, List.mem_cons, List.not_mem_nil, or_false] at h
    rcases h with rfl | rfl | rfl | rfl | rfl <;> trivial

/-- `C23_made_partial`: no value is given for the placeholder. -/
example : ∃ e, (toPhysical ⟨0, fun _ => ""⟩ (fun _ _ => 0) (fun _ => "1") []).run Ex.other = .error e Ex.other := by
  have h : ((toPhysical ⟨0, fun _ => ""⟩ (fun _ _ => 0) (fun _ => "1") []).run Ex.other).isOk = false := by decide +kernel
  cases hr : (toPhysical ⟨0, fun _ => ""⟩ (fun _ _ => 0) (fun _ => "1") []).run Ex.other with
  | ok _ _ => rw [hr] at h; cases h
  | error e m => exact ⟨e, by rw [C23_made_partial Ex.other_tidy (by decide +kernel) hr]⟩

theorem Ex.penalty_tidy : Made ⟨0, fun _ => "t"⟩ (Tidy ⟨0, fun _ => "t"⟩) Ex.penaltyModel :=
  made_ops _ (.new _ _) (by simp [Ex.penaltyOps]) fun _ op h => by
    simp only [Ex.penaltyOps, List.mem_cons, List.not_mem_nil, or_false] at h
    rcases h with rfl | rfl | rfl <;> trivial

theorem Ex.penalty_distinct : ∀ c ∈ Ex.penaltyModel.constraints, c.2.Distinct := by
  rw [show Ex.penaltyModel.constraints = [("c", .nHot "c" 5 [Ex.b0, Ex.b1] 1)] by decide +kernel]
  simp only [List.mem_singleton]
  rintro c rfl
  unfold Constraint.Distinct
  decide

/-- `C20_made_partial` -/
example (hρ : ρ.Extends []) (hσ : σ.IsBinary) : ∃ p m', (toPhysical ⟨0, fun _ => "t"⟩ (fun _ _ => 0) (fun _ => "1") []).run
    Ex.penaltyModel = .ok p m' ∧ Ex.penaltyModel.constraints ≠ [] ∧
    p.energy σ = Ex.penaltyModel.energy ρ σ + (Ex.penaltyModel.constraints.map fun c => c.2.penalty σ).sum :=
  ⟨_, _, rfl, by decide +kernel, C20_made_partial (env' := ⟨0, fun _ => "t"⟩) (clks := fun _ _ => 0) (ids := fun _ => "1") (ph := [])
    Ex.penalty_tidy (by decide +kernel) Ex.penalty_distinct rfl hρ hσ⟩

/-! ## Attenuation and windows -/

/-- `C72_equal`: equal values are left as they are. -/
example : ∃ m', (Ex.att "attributes.ts").run (Ex.attModel false (.num 1) [.num 10, .num 10, .num 10]) = .ok () m' ∧
    (m'.rows.map (·.scale)) = [.num 1, .num 1, .num 1] :=
  ⟨_, C72_equal (ts := [10, 10, 10]) ⟨by decide +kernel, by decide +kernel, by decide +kernel, by decide +kernel⟩ rfl (by simp)
    (by decide +kernel) (by decide +kernel), by decide +kernel⟩

open Stream in
/-- `C69_incremental_partial`: the first window's number is still there in the second one. -/
example : ∃ os st', (processAll .incremental Ex.fns [] [(false, ⟨2, [⟨0, 0, 7⟩, ⟨1, 1, 8⟩]⟩), (false, ⟨4, [⟨3, 2, 9⟩]⟩)]).run St.start =
      .ok os st' ∧ ∃ t, (mapArgs st'.calls)[1]? = some t ∧ (⟨0, 0, 7⟩ : El Nat) ∈ t.1 :=
  ⟨_, _, rfl, _, rfl, C69_incremental_partial (f := Ex.fns) (initial := []) (st' := _)
    (ws := [(false, ⟨2, [⟨0, 0, 7⟩, ⟨1, 1, 8⟩]⟩), (false, ⟨4, [⟨3, 2, 9⟩]⟩)]) (by norm_num [InOrder]) rfl (j := 0) (k := 1) (by simp)
    (w := ⟨2, [⟨0, 0, 7⟩, ⟨1, 1, 8⟩]⟩) rfl rfl _ (by simp)⟩

open Stream in
/-- Two overlapping windows. -/
def Ex.overlap : List (Bool × Win Nat) := [(false, ⟨2, [⟨0, 0, 7⟩, ⟨1, 1, 8⟩]⟩), (false, ⟨4, [⟨1, 1, 8⟩, ⟨3, 2, 9⟩]⟩)]

open Stream in
/-- `C69_never_again` -/
example : ∃ os st', (processAll .window Ex.fns [] Ex.overlap).run St.start = .ok os st' ∧
    (mapArgs st'.calls).Pairwise fun earlier later => ∀ x ∈ earlier.1, x ∉ later.2.1 := by
  refine ⟨_, _, rfl, C69_never_again (E := [⟨0, 0, 7⟩, ⟨1, 1, 8⟩, ⟨3, 2, 9⟩]) (a := 0) (b := 0) (alg := .window) (f := Ex.fns)
    (initial := []) trivial (ws := Ex.overlap) ?_ (by norm_num [InOrder, Ex.overlap]) rfl⟩
  exact ⟨0, 2, by norm_num, by norm_num, ⟨by decide +kernel, by decide⟩, 1, 4, by norm_num, by norm_num, ⟨by decide +kernel, by decide⟩, trivial⟩

open Stream in
/-- `C66_all` -/
example : ∃ os st o st', (processAll .window Ex.fns [] (Ex.overlap.take 1)).run St.start = .ok os st ∧
    (process .window Ex.fns [] false ⟨4, [⟨3, 2, 9⟩, ⟨1, 1, 8⟩]⟩).run st = .ok o st' ∧ st.ts.getD (-1) ≤ 4 ∧
    ∃ els, st'.elements = some els ∧ Timed els := by
  have h : (2 : ℚ) ≤ 4 := by norm_num
  obtain ⟨els, h1, h2, _⟩ := C66_all (alg := .window) (f := Ex.fns) (initial := []) (ws := Ex.overlap.take 1) (os := _) (st := _) rfl
    (w := ⟨4, [⟨3, 2, 9⟩, ⟨1, 1, 8⟩]⟩) (shared := false) (o := _) (st' := _) h rfl
  exact ⟨_, _, _, _, rfl, rfl, h, els, h1, h2⟩

/-! ## Texts and results -/

open Text in
/-- `C105_repr_shows` -/
example : ∃ t, (modelRepr Ex.printer).run Ex.ising = .ok t Ex.ising := ⟨_, rfl⟩

theorem Ex.other_own : Made ⟨0, fun _ => ""⟩ (TidyOwn ⟨0, fun _ => ""⟩) Ex.other :=
  made_ops _ (.new _ _) (by simp [Ex.otherOps]) fun _ op h => by
    simp only [Ex.otherOps, List.mem_cons, List.not_mem_nil, or_false] at h
    rcases h with rfl | rfl | rfl | rfl | rfl <;> exact ⟨trivial, by simp⟩

/-- `C127_made_partial` -/
example : (∀ n ∈ dkeys Ex.other.vars, '[' ∉ n.toList) ∧
    (∃ m', (toPhysical ⟨0, fun _ => ""⟩ (fun _ _ => 0) (fun _ => "1") [("p", 2)]).run Ex.other = .ok Ex.physOther m') ∧
    Honest Ex.repeats Ex.physOther.indexToLabel.length ∧
    ∃ rs log', (optiganRecords ⟨some "e", some "t", none⟩ Ex.repeats Ex.physOther 10 10000 true).run [] = .ok rs log' ∧
      decide (rs.map (·.occurrences) = [2, 1]) = true :=
  ⟨by decide +kernel, ⟨_, rfl⟩, by rw [show Ex.physOther.indexToLabel.length = 3 by decide +kernel]; exact Ex.repeats_honest,
    Ex.exists_of_okAnd (by decide +kernel)⟩

/-- `C51_downhill` and `C51_uphill`: in the Ising example, flipping the first spin of one state raises the energy, and flipping it back lowers
it. -/
example : Ex.physIsing.FromCalls ∧ (∃ s, prepare Ex.physIsing = .ok s) ∧ IsSpins [1, 1] ∧ IsSpins [-1, 1] ∧ Ex.physIsing.labels.length = 2 ∧
    Ex.physIsing.energyAt Ex.physIsing.labels [1, 1] < Ex.physIsing.energyAt Ex.physIsing.labels (([1, 1] : List ℤ).set 0 (1 * -1)) ∧
    Ex.physIsing.energyAt Ex.physIsing.labels (([-1, 1] : List ℤ).set 0 (-1 * -1)) ≤ Ex.physIsing.energyAt Ex.physIsing.labels [-1, 1] := by
  refine ⟨Ex.ising_calls, ?_, ?_, ?_, by decide +kernel, by decide +kernel, by decide +kernel⟩
  · have : (prepare Ex.physIsing).isOk = true := by decide +kernel
    cases h : prepare Ex.physIsing with
    | ok s => exact ⟨s, rfl⟩
    | error e => rw [h] at this; cases this
  all_goals unfold IsSpins; decide

end Sawatabi.Props
