import Verif.Lemmas.RoundingConstraint
import Verif.Props.PhysicalEnergy
import Verif.Props.Constraints

/-!
# Sizes and errors of the interactions of constraints
-/

namespace Sawatabi

variable {round : ℚ → ℚ} {u : ℚ} {c : Constraint}

/-- The absolute coefficient. -/
def Item.size : Item → ℚ
  | .lin _ c => |c|
  | .pair _ _ c => |c|

theorem Item.size_nonneg (it : Item) : 0 ≤ it.size := by cases it <;> exact abs_nonneg _

theorem Item.row_weight (now : ℚ) (label : String) (it : Item) : |(it.row now label).weight| = it.size := by
  cases it <;> simp [Item.row, Row.weight, Item.size]

theorem Item.rounded_size (hr : Relative u round) (it : Item) : (it.rounded round).size ≤ (1 + u) * it.size := by
  have key : ∀ q, |round q| ≤ (1 + u) * |q| := fun q => by
    have h1 := hr q
    have h2 := abs_add_le (round q - q) q
    rw [sub_add_cancel] at h2
    linarith
  cases it <;> exact key _

theorem Item.rounded_term (hr : Relative u round) (hu : 0 ≤ u) (it : Item) {σ : Assign} (hσ : ∀ l, |σ l| ≤ 1) :
    |(it.rounded round).term σ - it.term σ| ≤ u * it.size := by
  cases it with
  | lin v q =>
    simp only [Item.rounded, Item.term, Item.size]
    rw [← sub_mul, abs_mul]
    exact le_trans (mul_le_of_le_one_right (abs_nonneg _) (hσ _)) (hr q)
  | pair v w q =>
    simp only [Item.rounded, Item.term, Item.size]
    rw [← sub_mul, abs_mul]
    refine le_trans (mul_le_of_le_one_right (abs_nonneg _) ?_) (hr q)
    rw [abs_mul]
    exact mul_le_one₀ (hσ _) (abs_nonneg _) (hσ _)

theorem pairItems_size (q : ℚ) (vars vs : List PVar) : ((vs.flatMap (pairItems q vars)).map Item.size).sum =
    |q| * (vs.map fun v => (vars.map fun w => if v.label < w.label then (1 : ℚ) * 1 else 0).sum).sum := by
  rw [List.map_flatMap, sum_flatMap, ← sum_map_mul_left']
  congr 1
  apply List.map_congr_left
  intro v _
  have h := sum_pairItems (fun _ => 1) |q| vars v
  have e : (pairItems q vars v).map Item.size = (pairItems |q| vars v).map (Item.term fun _ => 1) := by
    unfold pairItems
    rw [List.map_map, List.map_map]
    apply List.map_congr_left
    intro w _
    simp [Item.size, Item.term]
  rw [e, h, ← sum_map_mul_left']
  congr 1
  apply List.map_congr_left
  intro w _
  split <;> simp

/-- The pairs of a set. -/
theorem pairs_size (s : ℚ) (vs : List PVar) (hn : (vs.map (·.label)).Nodup) :
    ((vs.flatMap (pairItems (-2 * s) vs)).map Item.size).sum = |s| * (vs.length * (vs.length - 1)) := by
  rw [pairItems_size]
  have h := pairs_square (fun _ => 1) vs hn
  simp only [total, List.map_const', List.sum_replicate, nsmul_eq_mul, mul_one] at h ⊢
  rw [abs_mul, show |(-2 : ℚ)| = 2 by norm_num]
  linear_combination |s| * h

theorem sum_size_append (a b : List Item) : ((a ++ b).map Item.size).sum = (a.map Item.size).sum + (b.map Item.size).sum := by
  rw [List.map_append, List.sum_append]

theorem equality_union {v1 v2 : List PVar} (h : ((v1 ++ v2).map (·.label)).Nodup) : sunion v1 v2 = v1 ++ v2 := by
  rw [List.map_append, List.nodup_append] at h
  apply sunion_disjoint h.2.1.of_map
  intro v hv hv1
  exact h.2.2 _ (List.mem_map_of_mem hv1) _ (List.mem_map_of_mem hv) rfl

/-- The sum of the absolute coefficients of a constraint. -/
theorem items_mass (hg : c.Good) (hd : c.Distinct) : (c.items.map Item.size).sum = c.mass := by
  cases c with
  | nHot l s vs n =>
    have h1 := pairs_size s vs hd
    simp only [Constraint.items, Constraint.mass]
    rw [List.map_flatMap, sum_flatMap] at h1 ⊢
    simp only [List.map_cons, List.sum_cons]
    rw [sum_map_add', h1]
    simp only [Item.size, List.map_const', List.sum_replicate, nsmul_eq_mul, abs_mul]
    norm_num
    ring
  | zeroOrOneHot l s vs => exact pairs_size s vs hd
  | equality l s v1 v2 =>
    have hdis := Props.equality_disjoint hg hd
    have hun := equality_union hdis
    simp only [Constraint.items, Constraint.mass]
    rw [sum_size_append, sum_size_append, sum_size_append, pairs_size s v1 hd.1, pairs_size s v2 hd.2, hun]
    have h3 : ((v1.flatMap fun v => v2.map fun w => Item.pair v w (2 * s)).map Item.size).sum = 2 * |s| * (v1.length * v2.length) := by
      rw [List.map_flatMap, sum_flatMap]
      simp only [List.map_map, Function.comp_def, Item.size, List.map_const', List.sum_replicate, nsmul_eq_mul, abs_mul]
      norm_num
      ring
    rw [h3]
    simp only [List.map_map, Function.comp_def, Item.size, List.map_const', List.sum_replicate, nsmul_eq_mul, abs_mul,
      List.length_append]
    push_cast
    norm_num
    ring

/-! ## Which variables -/

theorem same_iff_ends (i j : Inter) : i.Same j ↔ i.ends = j.ends := by
  cases i <;> cases j <;> simp [Inter.Same, Inter.ends]

/-- The labels of the variables of the stored interaction. -/
def Item.ends (it : Item) : List String := (it.row 0 "").inter.ends

theorem Item.row_ends (now : ℚ) (label : String) (it : Item) : (it.row now label).inter.ends = it.ends := by
  cases it <;> rfl

theorem Item.rounded_ends (it : Item) : (it.rounded round).ends = it.ends := by
  cases it <;> rfl

theorem Item.ends_pair {v w : PVar} {q : ℚ} (h : v.label < w.label) : (Item.pair v w q).ends = [v.label, w.label] := by
  simp [Item.ends, Item.row, h, Inter.ends]

theorem mem_pairItems {q : ℚ} {vars : List PVar} {v : PVar} {it : Item} (h : it ∈ pairItems q vars v) :
    ∃ w ∈ vars, v.label < w.label ∧ it = .pair v w q := by
  unfold pairItems at h
  obtain ⟨w, hw, rfl⟩ := List.mem_map.mp h
  obtain ⟨h1, h2⟩ := List.mem_filter.mp hw
  exact ⟨w, h1, by simpa using h2, rfl⟩

/-- Where the name of an interaction is a function of its variables, interactions with distinct names have distinct
variables. -/
theorem ends_nodup_of {its : List Item} {label : String} (f : List String → String) (hn : (its.map (·.name label)).Nodup)
    (hf : ∀ it ∈ its, it.name label = f it.ends) : (its.map Item.ends).Nodup := by
  have e : its.map (·.name label) = (its.map Item.ends).map f := by
    rw [List.map_map]
    exact List.map_congr_left hf
  rw [e] at hn
  exact hn.of_map

/-- No two interactions of a constraint are about the same variables. -/
theorem items_ends (hg : c.Good) (hd : c.Distinct) : (c.items.map Item.ends).Nodup := by
  cases c with
  | nHot l s vs n =>
    refine ends_nodup_of (fun e => match e with
      | [a] => a ++ " (" ++ l ++ ")"
      | [a, b] => a ++ "*" ++ b ++ " (" ++ l ++ ")"
      | _ => "") hg.1 fun it hit => ?_
    simp only [Constraint.items, List.mem_flatMap, List.mem_cons] at hit
    obtain ⟨v, _, rfl | hit⟩ := hit
    · rfl
    · obtain ⟨w, _, h, rfl⟩ := mem_pairItems hit
      rw [Item.ends_pair h]
      rfl
  | zeroOrOneHot l s vs =>
    refine ends_nodup_of (fun e => match e with
      | [a, b] => a ++ "*" ++ b ++ " (" ++ l ++ ")"
      | _ => "") hg.1 fun it hit => ?_
    simp only [Constraint.items, List.mem_flatMap] at hit
    obtain ⟨v, _, hit⟩ := hit
    obtain ⟨w, _, h, rfl⟩ := mem_pairItems hit
    rw [Item.ends_pair h]
    rfl
  | equality l s v1 v2 =>
    have hdis := Props.equality_disjoint hg hd
    rw [List.map_append, List.nodup_append] at hdis
    have hno : ∀ v ∈ v1, ∀ w ∈ v2, v.label ≠ w.label := fun v hv w hw =>
      hdis.2.2 _ (List.mem_map_of_mem hv) _ (List.mem_map_of_mem hw)
    refine ends_nodup_of (fun e => match e with
      | [a] => a ++ " (" ++ l ++ ")"
      | [a, b] => if a ∈ v2.map (·.label) ∧ b ∈ v1.map (·.label) then b ++ "*" ++ a ++ " (" ++ l ++ ")"
          else a ++ "*" ++ b ++ " (" ++ l ++ ")"
      | _ => "") hg.1 fun it hit => ?_
    simp only [Constraint.items, List.mem_append, List.mem_flatMap, List.mem_map] at hit
    rcases hit with ((⟨v, _, rfl⟩ | ⟨v, hv, hit⟩) | ⟨v, hv, hit⟩) | ⟨v, hv, w, hw, rfl⟩
    · rfl
    · obtain ⟨w, hw, h, rfl⟩ := mem_pairItems hit
      rw [Item.ends_pair h]
      show _ = if _ then _ else _
      rw [if_neg]
      · rfl
      · rintro ⟨h1, -⟩
        obtain ⟨x, hx, e⟩ := List.mem_map.mp h1
        exact hno v hv x hx e.symm
    · obtain ⟨w, hw, h, rfl⟩ := mem_pairItems hit
      rw [Item.ends_pair h]
      show _ = if _ then _ else _
      rw [if_neg]
      · rfl
      · rintro ⟨-, h1⟩
        obtain ⟨x, hx, e⟩ := List.mem_map.mp h1
        exact hno x hx w hw e
    · by_cases h : v.label < w.label
      · rw [Item.ends_pair h]
        show _ = if _ then _ else _
        rw [if_neg]
        · rfl
        · rintro ⟨h1, -⟩
          obtain ⟨x, hx, e⟩ := List.mem_map.mp h1
          exact hno v hv x hx e.symm
      · have e : (Item.pair v w (2 * s)).ends = [w.label, v.label] := by simp [Item.ends, Item.row, h, Inter.ends]
        rw [e]
        show _ = if _ then _ else _
        rw [if_pos ⟨List.mem_map_of_mem hw, List.mem_map_of_mem hv⟩]
        rfl

/-- They are about variables of the constraint. -/
theorem items_over {it : Item} (hit : it ∈ c.items) : ∀ l ∈ it.ends, l ∈ c.over := by
  have pair : ∀ (v w : PVar) (q : ℚ), v.label ∈ c.over → w.label ∈ c.over → ∀ l ∈ (Item.pair v w q).ends, l ∈ c.over := by
    intro v w q hv hw l hl
    by_cases h : v.label < w.label <;> simp [Item.ends, Item.row, h, Inter.ends] at hl <;> rcases hl with rfl | rfl <;>
      assumption
  have lin : ∀ (v : PVar) (q : ℚ), v.label ∈ c.over → ∀ l ∈ (Item.lin v q).ends, l ∈ c.over := by
    intro v q hv l hl
    simp [Item.ends, Item.row, Inter.ends] at hl
    rwa [hl]
  have inOver : ∀ vs ∈ c.sets, ∀ v ∈ vs, v.label ∈ c.over := fun vs hvs v hv =>
    List.mem_map_of_mem (List.mem_flatten.mpr ⟨vs, hvs, hv⟩)
  cases c with
  | nHot l s vs n =>
    have hin := inOver vs (by simp [Constraint.sets])
    simp only [Constraint.items, List.mem_flatMap, List.mem_cons] at hit
    obtain ⟨v, hv, rfl | hit⟩ := hit
    · exact lin _ _ (hin v hv)
    · obtain ⟨w, hw, h, rfl⟩ := mem_pairItems hit
      exact pair _ _ _ (hin v hv) (hin w hw)
  | zeroOrOneHot l s vs =>
    have hin := inOver vs (by simp [Constraint.sets])
    simp only [Constraint.items, List.mem_flatMap] at hit
    obtain ⟨v, hv, hit⟩ := hit
    obtain ⟨w, hw, h, rfl⟩ := mem_pairItems hit
    exact pair _ _ _ (hin v hv) (hin w hw)
  | equality l s v1 v2 =>
    have hin1 := inOver v1 (by simp [Constraint.sets])
    have hin2 := inOver v2 (by simp [Constraint.sets])
    simp only [Constraint.items, List.mem_append, List.mem_flatMap, List.mem_map] at hit
    rcases hit with ((⟨v, hv, rfl⟩ | ⟨v, hv, hit⟩) | ⟨v, hv, hit⟩) | ⟨v, hv, w, hw, rfl⟩
    · rcases Props.mem_sunion.mp hv with hv | hv
      · exact lin _ _ (hin1 v hv)
      · exact lin _ _ (hin2 v hv)
    · obtain ⟨w, hw, h, rfl⟩ := mem_pairItems hit
      exact pair _ _ _ (hin1 v hv) (hin1 w hw)
    · obtain ⟨w, hw, h, rfl⟩ := mem_pairItems hit
      exact pair _ _ _ (hin2 v hv) (hin2 w hw)
    · exact pair _ _ _ (hin1 v hv) (hin2 w hw)

/-- A constraint has at most one interaction about given variables, and none unless they are its variables. -/
theorem items_about (hg : c.Good) (hd : c.Distinct) (i : Inter) :
    (((c.itemsR round).map (Item.row 0 c.label)).filter fun r => decide (i.Same r.inter)).length ≤
      if (i.ends.all fun l => c.over.contains l) = true then 1 else 0 := by
  have e : (((c.itemsR round).map (Item.row 0 c.label)).filter fun r => decide (i.Same r.inter)).length =
      ((c.items.map Item.ends).filter fun x => decide (i.ends = x)).length := by
    unfold Constraint.itemsR
    rw [List.map_map, List.filter_map, List.filter_map, List.length_map, List.length_map]
    congr 2
    funext it
    simp only [Function.comp, same_iff_ends, Item.row_ends, Item.rounded_ends]
  rw [e]
  have hnd := items_ends hg hd
  have h1 : ((c.items.map Item.ends).filter fun x => decide (i.ends = x)).length ≤ 1 := by
    have h2 : ((c.items.map Item.ends).filter fun x => decide (i.ends = x)).Nodup := hnd.filter _
    have h3 : ∀ x ∈ (c.items.map Item.ends).filter fun x => decide (i.ends = x), x = i.ends := fun x hx => by
      have := (List.mem_filter.mp hx).2
      exact (by simpa using this : i.ends = x).symm
    generalize (c.items.map Item.ends).filter (fun x => decide (i.ends = x)) = l at h2 h3
    match l with
    | [] => simp
    | [x] => simp
    | x :: y :: l =>
      exfalso
      have hx := h3 x (by simp)
      have hy := h3 y (by simp)
      rw [hx, hy] at h2
      simp at h2
  split
  · exact h1
  · rename_i hno
    rw [Nat.le_zero, List.length_eq_zero_iff, List.filter_eq_nil_iff]
    intro x hx
    obtain ⟨it, hit, rfl⟩ := List.mem_map.mp hx
    simp only [decide_eq_true_eq]
    intro he
    apply hno
    rw [he, List.all_eq_true]
    intro l hl
    simpa using items_over hit l hl

/-! ## The model without constraints -/

variable {m : LModel} {K : Nat}

theorem flat_atMost (hK : m.SharedAtMost K) (hg : ∀ c ∈ m.constraints, c.2.Good) (hd : ∀ c ∈ m.constraints, c.2.Distinct) :
    (m.flat round).AtMost K := by
  intro i
  rw [flat_active, List.filter_append, List.length_append]
  refine le_trans (Nat.add_le_add_left ?_ _) (hK i)
  unfold LModel.penaltyRows
  generalize m.constraints = cs at hg hd
  induction cs with
  | nil => simp
  | cons c cs ih =>
    rw [List.flatMap_cons, List.filter_append, List.length_append]
    have h1 := items_about (round := round) (hg c (by simp)) (hd c (by simp)) i
    have h2 := ih (fun x hx => hg x (by simp [hx])) fun x hx => hd x (by simp [hx])
    rw [List.filter_cons]
    split at h1
    · rename_i h
      rw [if_pos h, List.length_cons]
      omega
    · rename_i h
      rw [if_neg h]
      omega

theorem penaltyRows_weights (hu : 0 ≤ u) (hr : Relative u round) (hg : ∀ c ∈ m.constraints, c.2.Good)
    (hd : ∀ c ∈ m.constraints, c.2.Distinct) :
    ((m.penaltyRows round).map fun r => |r.weight|).sum ≤ (1 + u) * (m.constraints.map fun c => c.2.mass).sum := by
  unfold LModel.penaltyRows
  generalize m.constraints = cs at hg hd
  induction cs with
  | nil => simp
  | cons c cs ih =>
    rw [List.flatMap_cons, List.map_append, List.sum_append, List.map_cons, List.sum_cons, mul_add]
    refine add_le_add ?_ (ih (fun x hx => hg x (by simp [hx])) fun x hx => hd x (by simp [hx]))
    rw [← items_mass (hg c (by simp)) (hd c (by simp)), ← sum_map_mul_left']
    unfold Constraint.itemsR
    rw [List.map_map, List.map_map]
    apply List.sum_le_sum
    intro it _
    simp only [Function.comp, Item.row_weight]
    exact Item.rounded_size hr it

theorem flat_weights (hu : 0 ≤ u) (hr : Relative u round) (hg : ∀ c ∈ m.constraints, c.2.Good)
    (hd : ∀ c ∈ m.constraints, c.2.Distinct) : (m.flat round).weights ≤ (1 + u) * m.totalWeights := by
  have h1 := penaltyRows_weights (m := m) hu hr hg hd
  have h2 : 0 ≤ m.weights := List.sum_nonneg (by simp)
  unfold LModel.totalWeights
  show (((m.flat round).active).map _).sum ≤ _
  rw [flat_active, List.map_append, List.sum_append]
  have h3 : (m.active.map fun r => |r.weight|).sum = m.weights := rfl
  rw [h3]
  nlinarith

theorem flat_energy_eq (ρ : PEnv) (σ : Assign) : (m.flat round).energy ρ σ =
    m.energy ρ σ - (m.constraints.map fun c => ((c.2.itemsR round).map (Item.term σ)).sum).sum := by
  have hact : ∀ rows : List Row, ((rows.filter fun r => !r.removed).map fun r => r.term ρ σ).sum = (rows.map fun r => r.term ρ σ).sum := by
    intro rows
    induction rows with
    | nil => rfl
    | cons r rows ih =>
      by_cases h : r.removed = true
      · rw [List.filter_cons_of_neg (by simp [h]), ih]
        simp [Row.term, h]
      · rw [List.filter_cons_of_pos (by simp [h]), List.map_cons, List.sum_cons, ih, List.map_cons, List.sum_cons]
  have hpen : ((m.penaltyRows round).map fun r => r.term ρ σ).sum =
      (m.constraints.map fun c => ((c.2.itemsR round).map (Item.term σ)).sum).sum := by
    unfold LModel.penaltyRows
    rw [List.map_flatMap, sum_flatMap]
    congr 1
    apply List.map_congr_left
    intro c _
    rw [List.map_map]
    congr 1
    apply List.map_congr_left
    intro it _
    exact Item.row_term _ _ it ρ σ
  have e : (m.flat round).energy ρ σ = m.offset.eval ρ - ((m.active ++ m.penaltyRows round).map fun r => r.term ρ σ).sum := rfl
  have e' : m.energy ρ σ = m.offset.eval ρ - (m.rows.map fun r => r.term ρ σ).sum := rfl
  rw [e, e', List.map_append, List.sum_append, hpen]
  unfold LModel.active
  rw [hact]
  ring

theorem items_penalty (hg : c.Good) (hd : c.Distinct) {σ : Assign} (hb : σ.IsBinary) :
    -(c.items.map (Item.term σ)).sum = c.penalty σ := by
  have h := (Constraint.toModel_run 0 "" c).1 hg
  rw [← toModel_energy h (fun _ => 0) σ]
  exact Props.toModel_penalty h hd _ hb

theorem flat_energy (hu : 0 ≤ u) (hr : Relative u round) (hg : ∀ c ∈ m.constraints, c.2.Good)
    (hd : ∀ c ∈ m.constraints, c.2.Distinct) (ρ : PEnv) {σ : Assign} (hb : σ.IsBinary) :
    |(m.flat round).energy ρ σ - (m.energy ρ σ + (m.constraints.map fun c => c.2.penalty σ).sum)| ≤
      u * (m.constraints.map fun c => c.2.mass).sum := by
  have hσ : ∀ l, |σ l| ≤ 1 := fun l => by rcases hb l with h | h <;> simp [h]
  rw [flat_energy_eq]
  have key : ∀ cs : List (String × Constraint), (∀ c ∈ cs, c.2.Good) → (∀ c ∈ cs, c.2.Distinct) →
      |(cs.map fun c => ((c.2.itemsR round).map (Item.term σ)).sum).sum + (cs.map fun c => c.2.penalty σ).sum| ≤
        u * (cs.map fun c => c.2.mass).sum := by
    intro cs hg hd
    induction cs with
    | nil => simp
    | cons c cs ih =>
      simp only [List.map_cons, List.sum_cons, mul_add]
      have h1 := ih (fun x hx => hg x (by simp [hx])) fun x hx => hd x (by simp [hx])
      have h2 : |((c.2.itemsR round).map (Item.term σ)).sum + c.2.penalty σ| ≤ u * c.2.mass := by
        rw [← items_penalty (hg c (by simp)) (hd c (by simp)) hb, ← items_mass (hg c (by simp)) (hd c (by simp))]
        unfold Constraint.itemsR
        generalize c.2.items = its
        clear * - hu hr hσ
        induction its with
        | nil => simp
        | cons it its ih =>
          simp only [List.map_cons, List.sum_cons, mul_add]
          have h3 := Item.rounded_term hr hu it hσ
          have h4 := abs_add_le ((it.rounded round).term σ - it.term σ)
            (((its.map (Item.rounded round)).map (Item.term σ)).sum + -(its.map (Item.term σ)).sum)
          refine le_trans (le_of_eq ?_) (le_trans h4 (add_le_add h3 ih))
          congr 1
          ring
      have h5 := abs_add_le (((c.2.itemsR round).map (Item.term σ)).sum + c.2.penalty σ)
        ((cs.map fun c => ((c.2.itemsR round).map (Item.term σ)).sum).sum + (cs.map fun c => c.2.penalty σ).sum)
      refine le_trans (le_of_eq ?_) (le_trans h5 (add_le_add h2 h1))
      congr 1
      ring
  refine le_trans (le_of_eq ?_) (key m.constraints hg hd)
  rw [← abs_neg]
  congr 1
  ring

/-! ## `to_physical` as that of the model without constraints -/

variable {env : Env} {clks : Nat → Nat → ℚ} {ids : Nat → String} {ph : List (String × ℚ)} {p : Physical} {m' : LModel}

theorem toModelR_exact {c : Constraint} (h : c.Good → c.itemsR round = c.items) (now : ℚ) (id : String) :
    c.toModelR round now id = c.toModel now id := by
  by_cases hg : c.Good
  · rw [(Constraint.toModelR_run _ _ _).1 hg, (Constraint.toModel_run _ _ _).1 hg, h hg]
  · rw [(Constraint.toModelR_run _ _ _).2 hg, (Constraint.toModel_run _ _ _).2 hg]

theorem mergeConstraintR_exact {x : (String × Constraint) × Nat} (h : x.1.2.Good → x.1.2.itemsR round = x.1.2.items) (m : LModel) :
    (mergeConstraintR round env clks ids x).run m = (mergeConstraint env clks ids x).run m := by
  rw [mergeConstraintR_run, mergeConstraint_run, toModelR_exact h]
  cases x.1.2.toModel (clks x.2 0) (ids x.2) with
  | error e => rfl
  | ok cm =>
    simp only
    cases (merge env (clks x.2)).run (m, cm) <;> rfl

theorem mergeLoopR_exact (xs : List ((String × Constraint) × Nat)) (h : ∀ x ∈ xs, x.1.2.Good → x.1.2.itemsR round = x.1.2.items)
    (m : LModel) :
    (xs.forM (mergeConstraintR round env clks ids)).run m = (xs.forM (mergeConstraint env clks ids)).run m := by
  induction xs generalizing m with
  | nil => rfl
  | cons x xs ih =>
    rw [Py.run_forM_cons, Py.run_forM_cons, mergeConstraintR_exact (h x (by simp))]
    cases (mergeConstraint env clks ids x).run m with
    | error e m => rfl
    | ok _ m => exact ih (fun y hy => h y (by simp [hy])) m

theorem itemsR_id (c : Constraint) : c.itemsR id = c.items := by
  unfold Constraint.itemsR
  conv_rhs => rw [← List.map_id c.items]
  apply List.map_congr_left
  intro it _
  cases it <;> rfl

theorem zipIdx_good {P : Constraint → Prop} (h : ∀ x ∈ m.constraints.zipIdx, P x.1.2) : ∀ c ∈ m.constraints, P c.2 := by
  intro c hc
  obtain ⟨i, hi, rfl⟩ := List.mem_iff_getElem.mp hc
  exact h (m.constraints[i], i) (by simp [List.mk_mem_zipIdx_iff_getElem?, hi])

theorem good_zipIdx {P : Constraint → Prop} (h : ∀ c ∈ m.constraints, P c.2) : ∀ x ∈ m.constraints.zipIdx, P x.1.2 := by
  intro x hx
  exact h _ (List.fst_mem_of_mem_zipIdx hx)

/-- The loop of a QUBO model in floats, from the model itself. -/
theorem loopR_merged (hm : m.Rect) (hq : m.mtype = .qubo) (hpl : m.Plain) :
    (∃ e a₁ b₁, (m.constraints.zipIdx.forM (mergeConstraintR round env clks ids)).run m = .error e b₁ ∧
      (m.constraints.zipIdx.forM (mergeConstraint env clks ids)).run m = .error e a₁ ∧ SameShape a₁ b₁) ∨
    ∃ a₁ b₁, (m.constraints.zipIdx.forM (mergeConstraintR round env clks ids)).run m = .ok ⟨⟩ b₁ ∧
      (m.constraints.zipIdx.forM (mergeConstraint env clks ids)).run m = .ok ⟨⟩ a₁ ∧ SameShape a₁ b₁ ∧
      (∀ c ∈ m.constraints, c.2.Good) ∧ MergedR round m b₁ := by
  rcases quboLoopR (round := round) (env := env) (clks := clks) (ids := ids) m.constraints.zipIdx hq (.refl m) with
    h | ⟨a₁, b₁, h1, h2, h3, h4, h5⟩
  · exact .inl h
  · exact .inr ⟨a₁, b₁, h1, h2, h3, zipIdx_good h4, Absorbed.mergedR hm.1 hpl h5⟩

/-- The loop without rounding. -/
theorem loop_merged (hm : m.Rect) (hq : m.mtype = .qubo) (hpl : m.Plain) {a₁ : LModel}
    (h : (m.constraints.zipIdx.forM (mergeConstraint env clks ids)).run m = .ok ⟨⟩ a₁) :
    (∀ c ∈ m.constraints, c.2.Good) ∧ MergedR id m a₁ := by
  rcases loopR_merged (round := id) (env := env) (clks := clks) (ids := ids) hm hq hpl with ⟨e, a, b, -, h2, -⟩ | ⟨a, b, h1, h2, -, h4, h5⟩
  · rw [h] at h2
    cases h2
  · rw [mergeLoopR_exact _ (fun x _ _ => itemsR_id _), h] at h1
    cases h1
    exact ⟨h4, h5⟩

theorem MergedR.build {b : LModel} (h : MergedR round m b) (g : Groups) (q : ℚ) : buildPhysical b g q = buildPhysical (m.flat round) g q := by
  obtain ⟨R, C, A, L, rfl⟩ : ∃ R C A L, b = { m with rows := R, attrCols := C, attrs := A, length := L } := ⟨_, _, _, _, h.same⟩
  rfl

theorem MergedR.offset {b : LModel} (h : MergedR round m b) : b.offset = m.offset := by
  obtain ⟨R, C, A, L, rfl⟩ : ∃ R C A L, b = { m with rows := R, attrCols := C, attrs := A, length := L } := ⟨_, _, _, _, h.same⟩
  rfl

theorem flat_removed : (m.flat round).rows.filter (·.removed) = [] := by
  rw [List.filter_eq_nil_iff]
  intro r hr
  rcases List.mem_append.mp hr with h | h
  · have := (List.mem_filter.mp h).2
    simpa using this
  · simp [penaltyRows_active r h]

/-- The physical model in floats is that of the model without constraints. -/
theorem flat_run (hm : m.Rect) (hq : m.mtype = .qubo) (hpl : m.Plain) (h : (toPhysicalRC round env clks ids ph).run m = .ok p m') :
    (∀ c ∈ m.constraints, c.2.Good) ∧ ∃ m₁, (toPhysicalR round env clks ids ph).run (m.flat round) = .ok p m₁ := by
  obtain ⟨q, hoff⟩ := hpl.1
  rw [toPhysicalRC_run] at h
  rcases loopR_merged (round := round) (env := env) (clks := clks) (ids := ids) hm hq hpl with
    ⟨e, a₁, b₁, h1, -, -⟩ | ⟨a₁, b₁, h1, -, -, hg, hb⟩
  · rw [h1] at h
    cases h
  · refine ⟨hg, ?_⟩
    rw [h1] at h
    simp only at h
    rw [groupR_ok hb.len hb.plain] at h
    simp only [hb.offset, hoff, Coef.toExpr, PExpr.resolveR] at h
    rw [toPhysicalR_plain (flat_rect m).1 rfl (flat_plain hpl) (show (m.flat round).offset = .num q from hoff), flat_removed]
    simp only [List.map_nil, Py.run_forM_nil]
    split at h
    · cases h
    · cases h
      refine ⟨markClean (m.flat round), ?_⟩
      rw [hb.build, hb.lin, hb.quad]
      rfl

end Sawatabi
