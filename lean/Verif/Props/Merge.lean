import Verif.Lemmas.Arrays
import Verif.Lemmas.MergeVars
import Verif.Props.Conversion
import Verif.Props.Variables

/-!
# Merging (C38, C39, C40, C41)
-/

namespace Sawatabi.Props

variable {env : Env} {clk : Nat → ℚ} {a b a' b' : LModel}

/-! ## C38: energies -/

/-- After a successful merge the energy is the sum of the model's and that of the argument as the merge left it
(a merge of different types converts its argument). -/
theorem C38_merge_energy_partial (h : (merge env clk).run (a, b) = .ok ⟨⟩ (a', b')) (ρ : PEnv) (σ : Assign) :
    a'.energy ρ σ = a.energy ρ σ + b'.energy ρ σ := by
  have key : ∀ b, mergeSame.run (a, b) = .ok ⟨⟩ (a', b') → a'.energy ρ σ = a.energy ρ σ + b'.energy ρ σ := by
    intro b h
    obtain ⟨w, cols, _, _, hs⟩ := mergeSame_eq h
    cases hs
    simp only [LModel.energy, mergedRest, mergedTable]
    rw [mergedRows_sum _ (fun r => rfl), Coef.eval_add]
    ring
  rw [merge_run] at h
  split at h
  · exact key b h
  · cases hc : (convertMtype env clk).run b with
    | error e b₁ => rw [hc] at h; cases h
    | ok u b₁ => rw [hc] at h; exact key b₁ h

/-- Models of the same type: the sum of both energies, for every assignment. -/
theorem C38_merge_same_type (ht : a.mtype = b.mtype) (h : (merge env clk).run (a, b) = .ok ⟨⟩ (a', b')) (ρ : PEnv)
    (σ : Assign) : a'.energy ρ σ = a.energy ρ σ + b.energy ρ σ := by
  rw [C38_merge_energy_partial h]
  rw [merge_run, if_pos ht] at h
  have := mergeSame_snd a b
  rw [h] at this
  simp only [Res.state] at this
  rw [this]

theorem merge_converted (ht : a.mtype ≠ b.mtype) (h : (merge env clk).run (a, b) = .ok ⟨⟩ (a', b')) :
    (convertMtype env clk).run b = .ok ⟨⟩ b' := by
  rw [merge_run, if_neg ht] at h
  cases hc : (convertMtype env clk).run b with
  | error e b₁ => rw [hc] at h; cases h
  | ok u b₁ =>
    rw [hc] at h
    have := mergeSame_snd a b₁
    simp only at h
    rw [h] at this
    simp only [Res.state] at this
    rw [this]

/-- A QUBO model merged into an Ising model: the sum of the energies of corresponding assignments and the error of the
conversion (C35). -/
theorem C38_merge_into_ising_partial (ha : a.mtype = .ising) (hb : b.mtype = .qubo) (hu : b.names.Nodup)
    (h : (merge env clk).run (a, b) = .ok ⟨⟩ (a', b')) (ρ : PEnv) (x : Assign) :
    a'.energy ρ x.toSpin = a.energy ρ x.toSpin + b.energy ρ x + (b.rows.map (isingShift ρ x)).sum := by
  have hc := merge_converted (by rw [ha, hb]; simp) h
  rw [C38_merge_energy_partial h]
  rw [convertMtype_run, hb] at hc
  rw [C35_toIsing_exact_partial hu hb hc]
  ring

/-- An Ising model merged into a QUBO model. -/
theorem C38_merge_into_qubo_partial (ha : a.mtype = .qubo) (hb : b.mtype = .ising) (hu : b.names.Nodup)
    (h : (merge env clk).run (a, b) = .ok ⟨⟩ (a', b')) (ρ : PEnv) (z : Assign) :
    a'.energy ρ z.toBinary = a.energy ρ z.toBinary + b.energy ρ z + (b.rows.map (quboShift ρ z)).sum := by
  have hc := merge_converted (by rw [ha, hb]; simp) h
  rw [C38_merge_energy_partial h]
  rw [convertMtype_run, hb] at hc
  rw [C35_toQubo_exact_partial hu hb hc]
  ring

/-- If all scales of the argument are 1, energy differences add up. -/
theorem C38_merge_into_ising_gap_partial (ha : a.mtype = .ising) (hb : b.mtype = .qubo) (hu : b.names.Nodup)
    (hs : UnitScales b) (h : (merge env clk).run (a, b) = .ok ⟨⟩ (a', b')) (ρ : PEnv) (x y : Assign) :
    a'.energy ρ x.toSpin - a'.energy ρ y.toSpin =
      (a.energy ρ x.toSpin - a.energy ρ y.toSpin) + (b.energy ρ x - b.energy ρ y) := by
  have hc := merge_converted (by rw [ha, hb]; simp) h
  rw [C38_merge_energy_partial h, C38_merge_energy_partial h]
  rw [convertMtype_run, hb] at hc
  have := C35_toIsing_gap_partial hu hb hs hc ρ x y
  linear_combination this

theorem C38_merge_into_qubo_gap_partial (ha : a.mtype = .qubo) (hb : b.mtype = .ising) (hu : b.names.Nodup)
    (hs : UnitScales b) (h : (merge env clk).run (a, b) = .ok ⟨⟩ (a', b')) (ρ : PEnv) (x y : Assign) :
    a'.energy ρ x.toBinary - a'.energy ρ y.toBinary =
      (a.energy ρ x.toBinary - a.energy ρ y.toBinary) + (b.energy ρ x - b.energy ρ y) := by
  have hc := merge_converted (by rw [ha, hb]; simp) h
  rw [C38_merge_energy_partial h, C38_merge_energy_partial h]
  rw [convertMtype_run, hb] at hc
  have := C35_toQubo_gap_partial hu hb hs hc ρ x y
  linear_combination this

/-- The models of the examples. -/
def mergeA : LModel := Ex.after (LModel.new .ising "101") do
  let _ ← createVars "x" [2]
  let _ ← createVars "y" [1, 3]
  addInteraction 1 (.var Ex.x0) (.str "") (.num 3) (.num 1) (.dict [("k", .num 4)]) .none
  addInteraction 1 (.var Ex.x1) (.str "") (.num 5) (.num 1) .none .none
  addConstraint (.nHot "one" 2 [Ex.b0, Ex.b1] 1)

def mergeB : LModel := Ex.after (LModel.new .ising "102") do
  let _ ← createVars "y" [2, 1]
  let _ ← createVars "z" [1]
  addInteraction 1 (.var Ex.x0) (.str "") (.num 7) (.num 2) (.dict [("l", .num 9)]) .none
  setOffset (.num 11)
  addConstraint (.nHot "two" 2 [Ex.b0, Ex.b1] 1)

def mergeQ : LModel := Ex.after (LModel.new .qubo "103") do
  let _ ← createVars "x" [1]
  addInteraction 1 (.var Ex.b0) (.str "") (.num 2) (.num 1) .none .none

example : mergeA.mtype = mergeB.mtype ∧ ((merge convEnv fun _ => 0).run (mergeA, mergeB)).isOk = true := by decide

example : mergeA.mtype = .ising ∧ mergeQ.mtype = .qubo ∧ mergeQ.names.Nodup ∧ UnitScales mergeQ ∧
    ((merge convEnv fun _ => 0).run (mergeA, mergeQ)).isOk = true ∧
    ((merge convEnv fun _ => 0).run (mergeQ, mergeA)).isOk = true := by
  refine ⟨by decide, by decide, by decide, ?_, by decide +kernel, by decide +kernel⟩
  intro r hr
  have hr : r ∈ [_] := hr
  rw [List.mem_singleton.mp hr]
  exact fun _ => rfl

/-- A merge of different types does not add the energies. -/
theorem C38_merge_types_refuted :
    ∃ s, (merge convEnv fun _ => 0).run (mergeA, mergeQ) = .ok ⟨⟩ s ∧
      ∀ ρ, s.1.energy ρ (Assign.toSpin fun _ => 1) ≠
        mergeA.energy ρ (Assign.toSpin fun _ => 1) + mergeQ.energy ρ fun _ => 1 := by
  refine ⟨_, rfl, fun ρ => ?_⟩
  have h1 := C38_merge_into_ising_partial (a := mergeA) (b := mergeQ) (env := convEnv) (clk := fun _ => 0) (by decide)
    (by decide) (by decide) rfl ρ fun _ => 1
  rw [h1]
  have h2 : (mergeQ.rows.map (isingShift ρ fun _ => 1)).sum = 2 := by
    show ((2 : ℚ) * (1 + 1) / 2 + 0) = 2
    norm_num
  rw [h2]
  intro h
  linarith

/-! ## C39: variables -/

/-- What a merge makes of two arrays of the same name. -/
inductive Joined (vt : VType) (n : String) : Option VArray → Option VArray → Option VArray → Prop
  | neither : Joined vt n none none none
  | left (x : VArray) : Joined vt n (some x) none (some x)
  | right (y : VArray) : Joined vt n none (some y) (some y)
  | both (x y z : VArray) (hr : x.shape.length = y.shape.length) (hz : IsArray n (List.zipWith max x.shape y.shape) vt z) :
      Joined vt n (some x) (some y) (some z)

/-- After a successful merge of models of the same type, the model has exactly the arrays of both; an array of both has
the elementwise maximum as its shape. -/
theorem C39_merge_arrays (ha : VarsOk a) (hb : VarsOk b) (ht : a.mtype = b.mtype) (hra : a.Rect) (hrb : b.Rect)
    (h : (merge env clk).run (a, b) = .ok ⟨⟩ (a', b')) (n : String) :
    Joined a.mtype.vtype n (dget a.vars n) (dget b.vars n) (dget a'.vars n) := by
  rw [merge_run, if_pos ht] at h
  cases hr : rankClash a b with
  | true =>
    rw [mergeSame_run, hr, if_pos rfl] at h
    cases h
  | false =>
    obtain ⟨w, cols, _, hw, _, hrun⟩ := mergeSame_ok ha hb ht hra hrb hr
    rw [hrun] at h
    split at h
    · cases h
    · cases h
      simp only [mergedRest, mergedTable, hw n]
      cases hx : dget a.vars n with
      | none => cases hy : dget b.vars n with
        | none => exact .neither
        | some y => exact .right y
      | some x => cases hy : dget b.vars n with
        | none => exact .left x
        | some y => exact .both x y _ ((rankClash_false ha.keys).mp hr n x y hx hy) (stdArray_isArray _ _ _)

/-- With different types, the same holds for the argument as the merge left it, and that has the arrays of the argument with
the variable type changed. -/
theorem C39_merge_arrays_types (ha : VarsOk a) (hb : VarsOk b) (ht : a.mtype ≠ b.mtype) (hra : a.Rect) (hrb : b.Rect)
    (h : (merge env clk).run (a, b) = .ok ⟨⟩ (a', b')) (n : String) :
    Joined a.mtype.vtype n (dget a.vars n) (dget b'.vars n) (dget a'.vars n) ∧
    (∀ y, dget b.vars n = some y → ∃ y', dget b'.vars n = some y' ∧ IsArray n y.shape a.mtype.vtype y') ∧
    (dget b.vars n = none → dget b'.vars n = none) := by
  have hc := merge_converted ht h
  obtain ⟨hb', hmt⟩ := convertMtype_varsOk env clk b hb
  rw [hc] at hb' hmt
  have hrb' : b'.Rect := by
    have := convertMtype_rect env clk b hrb
    rw [hc] at this
    exact this
  have ht' : a.mtype = b'.mtype := by rw [MType.eq_other ht]; exact hmt.symm
  have hmerge : (merge env clk).run (a, b') = .ok ⟨⟩ (a', b') := by
    rw [merge_run, if_neg ht, hc] at h
    rw [merge_run, if_pos ht']
    exact h
  have hI : (∀ y, dget b.vars n = some y → dget b'.vars n = some (stdArray n y.shape b.mtype.other.vtype)) ∧
      (dget b.vars n = none → dget b'.vars n = none) := by
    have key : ∀ mt f o f₂ g₂ o₂, (genConv env mt f o f₂ g₂ o₂ clk).run b = .ok ⟨⟩ b' →
        (∀ y, dget b.vars n = some y → dget b'.vars n = some (stdArray n y.shape mt.vtype)) ∧
        (dget b.vars n = none → dget b'.vars n = none) := by
      intro mt f o f₂ g₂ o₂ hrun
      have := genConv_frame (I := fun s : LModel =>
        (∀ y, dget b.vars n = some y → dget s.vars n = some (stdArray n y.shape mt.vtype)) ∧
        (dget b.vars n = none → dget s.vars n = none)) (fun _ _ _ _ _ h => h) (fun _ _ h => h) env mt f o f₂ g₂ o₂ clk b (by
          obtain ⟨m', hm', _, _, hk, hget⟩ := retype_varsOk hb mt
          rw [hm']
          refine ⟨fun y hy => hget n y hy, ?_⟩
          intro hn
          simp only [Res.state]
          rw [dget_eq_none_iff] at hn ⊢
          rw [hk]
          exact hn)
      rw [hrun] at this
      exact this
    rw [convertMtype_run] at hc
    cases hbm : b.mtype with
    | qubo =>
      simp only [toIsing_run, hbm] at hc
      exact key .ising _ _ _ _ _ hc
    | ising =>
      simp only [toQubo_run, hbm] at hc
      exact key .qubo _ _ _ _ _ hc
  refine ⟨C39_merge_arrays ha hb' ht' hra hrb' hmerge n, ?_, hI.2⟩
  intro y hy
  refine ⟨_, hI.1 y hy, ?_⟩
  rw [MType.eq_other ht]
  exact stdArray_isArray _ _ _

theorem forall₂_le_max_left {s c : List Nat} (h : s.length = c.length) :
    List.Forall₂ (· ≤ ·) s (List.zipWith max s c) ∧ List.Forall₂ (· ≤ ·) c (List.zipWith max s c) := by
  induction s generalizing c with
  | nil => cases c with
    | nil => exact ⟨.nil, .nil⟩
    | cons d c => simp at h
  | cons x s ih => cases c with
    | nil => simp at h
    | cons d c =>
      have := ih (c := c) (by simpa using h)
      exact ⟨.cons (le_max_left _ _) this.1, .cons (le_max_right _ _) this.2⟩

theorem joined_labels (ha : VarsOk a) (hb : VarsOk b) (ha' : VarsOk a')
    (hj : ∀ n, Joined a.mtype.vtype n (dget a.vars n) (dget b.vars n) (dget a'.vars n)) (l : String)
    (hl : l ∈ a.allLabels ∨ l ∈ b.allLabels) : l ∈ a'.allLabels := by
  have hboth : ∀ {x y z : VArray} {n : String}, x.shape.length = y.shape.length →
      IsArray n (List.zipWith max x.shape y.shape) a.mtype.vtype z → ∀ idx,
      InShape idx x.shape ∨ InShape idx y.shape → InShape idx z.shape := by
    intro x y z n hr hz idx hi
    rw [hz.shape]
    obtain ⟨h1, h2⟩ := forall₂_le_max_left hr
    rcases hi with hi | hi
    · exact hi.mono h1
    · exact hi.mono h2
  rw [mem_allLabels ha']
  rcases hl with hl | hl
  · obtain ⟨n, x, idx, hx, hi, rfl⟩ := (mem_allLabels ha).mp hl
    have := hj n
    rw [hx] at this
    revert this
    cases hy : dget b.vars n with
    | none =>
      cases hz : dget a'.vars n with
      | none => intro h; cases h
      | some z => intro h; cases h; exact ⟨n, _, idx, hz, hi, rfl⟩
    | some y =>
      cases hz : dget a'.vars n with
      | none => intro h; cases h
      | some z =>
        intro h
        cases h with
        | both _ _ _ hr hz' => exact ⟨n, z, idx, hz, hboth hr hz' idx (.inl hi), rfl⟩
  · obtain ⟨n, y, idx, hy, hi, rfl⟩ := (mem_allLabels hb).mp hl
    have := hj n
    rw [hy] at this
    revert this
    cases hx : dget a.vars n with
    | none =>
      cases hz : dget a'.vars n with
      | none => intro h; cases h
      | some z => intro h; cases h; exact ⟨n, _, idx, hz, hi, rfl⟩
    | some x =>
      cases hz : dget a'.vars n with
      | none => intro h; cases h
      | some z =>
        intro h
        cases h with
        | both _ _ _ hr hz' => exact ⟨n, z, idx, hz, hboth hr hz' idx (.inr hi), rfl⟩

/-- No label of either model is lost. -/
theorem C39_merge_labels (ha : VarsOk a) (hb : VarsOk b) (hra : a.Rect) (hrb : b.Rect)
    (h : (merge env clk).run (a, b) = .ok ⟨⟩ (a', b')) (l : String) (hl : l ∈ a.allLabels ∨ l ∈ b.allLabels) :
    l ∈ a'.allLabels := by
  have ha' := merge_varsOk env clk ha hb
  rw [h] at ha'
  simp only [Res.state] at ha'
  by_cases ht : a.mtype = b.mtype
  · exact joined_labels ha hb ha' (C39_merge_arrays ha hb ht hra hrb h) l hl
  · have hj := C39_merge_arrays_types ha hb ht hra hrb h
    have hb' := (convertMtype_varsOk env clk b hb).1
    rw [merge_converted ht h] at hb'
    refine joined_labels ha hb' ha' (fun n => (hj n).1) l (hl.imp_right ?_)
    intro hl
    obtain ⟨n, y, idx, hy, hi, rfl⟩ := (mem_allLabels hb).mp hl
    obtain ⟨y', hy', harr⟩ := (hj n).2.1 y hy
    exact (mem_allLabels hb').mpr ⟨n, y', idx, hy', by rw [harr.shape]; exact hi, rfl⟩

/-- A non-standard array (here: a slice registered with `variables(array)`) loses a label in a merge. -/
theorem C39_foreign_array_refuted :
    let a := Ex.after (LModel.new .ising "1") (variablesArray ⟨[1], [Ex.x1]⟩)
    let b := Ex.after (LModel.new .ising "2") (createVars "x" [1])
    ∃ s, (merge convEnv fun _ => 0).run (a, b) = .ok ⟨⟩ s ∧ a.allLabels = ["x[1]"] ∧ s.1.allLabels = ["x[0]"] := by
  refine ⟨_, rfl, by decide, by decide⟩

/-- The elementwise maximum may contain labels of neither model. -/
example : ((merge convEnv fun _ => 0).run (mergeA, mergeB)).state.1.allLabels =
    ["x[0]", "x[1]", "y[0][0]", "y[0][1]", "y[0][2]", "y[1][0]", "y[1][1]", "y[1][2]", "z[0]"] := by decide

theorem mergeA_varsOk : VarsOk mergeA :=
  .mk (by decide) (by
    intro n a h
    have h : (n, a) ∈ [("x", stdArray "x" [2] .spin), ("y", stdArray "y" [1, 3] .spin)] := h
    simp only [List.mem_cons, List.not_mem_nil, or_false, Prod.mk.injEq] at h
    rcases h with ⟨rfl, rfl⟩ | ⟨rfl, rfl⟩
    · exact ⟨stdArray_isArray _ _ _, by decide, by decide, by decide⟩
    · exact ⟨stdArray_isArray _ _ _, by decide, by decide, by decide⟩)

theorem mergeB_varsOk : VarsOk mergeB :=
  .mk (by decide) (by
    intro n a h
    have h : (n, a) ∈ [("y", stdArray "y" [2, 1] .spin), ("z", stdArray "z" [1] .spin)] := h
    simp only [List.mem_cons, List.not_mem_nil, or_false, Prod.mk.injEq] at h
    rcases h with ⟨rfl, rfl⟩ | ⟨rfl, rfl⟩
    · exact ⟨stdArray_isArray _ _ _, by decide, by decide, by decide⟩
    · exact ⟨stdArray_isArray _ _ _, by decide, by decide, by decide⟩)

/-! ## C40: failures -/

/-- For well-formed models of the same type without a common constraint label, a merge raises exactly if an array of both
has different ranks, and then neither model changes. -/
theorem C40_merge_atomic_partial (ha : VarsOk a) (hb : VarsOk b) (ht : a.mtype = b.mtype) (hra : a.Rect) (hrb : b.Rect)
    (hc : ∀ l ∈ dkeys a.constraints, l ∉ dkeys b.constraints) :
    ((∃ n x y, dget a.vars n = some x ∧ dget b.vars n = some y ∧ x.shape.length ≠ y.shape.length) →
      (merge env clk).run (a, b) = .error .valueError (a, b)) ∧
    ((¬∃ n x y, dget a.vars n = some x ∧ dget b.vars n = some y ∧ x.shape.length ≠ y.shape.length) →
      ∃ a', (merge env clk).run (a, b) = .ok ⟨⟩ (a', b)) := by
  rw [merge_run, if_pos ht]
  have hcc : constraintClash a b = false := by
    rw [constraintClash, List.any_eq_false]
    intro p hp
    simpa using hc p.1 (List.mem_map_of_mem (f := (·.1)) hp)
  constructor
  · rintro ⟨n, x, y, hx, hy, hne⟩
    have : rankClash a b = true := by
      cases h : rankClash a b with
      | true => rfl
      | false => exact absurd ((rankClash_false ha.keys).mp h n x y hx hy) hne
    rw [mergeSame_run, if_pos this]
  · intro hno
    have : rankClash a b = false := by
      apply (rankClash_false ha.keys).mpr
      intro n x y hx hy
      by_contra hne
      exact hno ⟨n, x, y, hx, hy, hne⟩
    obtain ⟨w, cols, _, _, _, hrun⟩ := mergeSame_ok ha hb ht hra hrb this
    rw [hrun, hcc, if_neg (by simp)]
    exact ⟨_, rfl⟩

/-- A merge of models of the same type never changes its argument. -/
theorem C40_argument_unchanged_partial (ht : a.mtype = b.mtype) : ((merge env clk).run (a, b)).state.2 = b := by
  rw [merge_run, if_pos ht]
  exact mergeSame_snd a b

example : mergeA.Rect ∧ mergeB.Rect ∧ (∀ l ∈ dkeys mergeA.constraints, l ∉ dkeys mergeB.constraints) := by
  refine ⟨?_, ?_, by decide⟩
  · exact ⟨by decide, by decide, by decide, by decide⟩
  · exact ⟨by decide, by decide, by decide, by decide⟩

/-- A common constraint label: the merge raises after it has changed the variables and the interactions. -/
theorem C40_constraint_clash_refuted :
    let b := Ex.after mergeB (addConstraint (.nHot "one" 2 [Ex.b0] 1))
    ∃ s, (merge convEnv fun _ => 0).run (mergeA, b) = .error .valueError s ∧
      s.1.vars ≠ mergeA.vars ∧ s.1.rows ≠ mergeA.rows := by
  refine ⟨_, rfl, by decide, by decide⟩

/-- Different types: a successful merge changes its argument's type, variables and interactions. -/
theorem C40_argument_refuted :
    ∃ s, (merge convEnv fun _ => 0).run (mergeA, mergeQ) = .ok ⟨⟩ s ∧ s.2.mtype ≠ mergeQ.mtype ∧ s.2.vars ≠ mergeQ.vars ∧
      s.2.rows ≠ mergeQ.rows := by
  refine ⟨_, rfl, by decide +kernel, by decide +kernel, by decide +kernel⟩

/-- Different types: also a merge that raises because of a rank changes its argument. -/
theorem C40_argument_failed_refuted :
    let b := Ex.after mergeQ (createVars "x" [1, 1])
    ∃ s, (merge convEnv fun _ => 0).run (mergeA, b) = .error .valueError s ∧ s.2.mtype ≠ b.mtype := by
  refine ⟨_, rfl, by decide +kernel⟩

/-! ## C41: constraints and attributes -/

theorem convertMtype_constraints (env : Env) (clk : Nat → ℚ) (b : LModel) :
    ((convertMtype env clk).run b).state.constraints = b.constraints := by
  have key : ∀ mt f o f₂ g₂ o₂, ((genConv env mt f o f₂ g₂ o₂ clk).run b).state.constraints = b.constraints := by
    intro mt f o f₂ g₂ o₂
    refine genConv_frame (I := fun s : LModel => s.constraints = b.constraints) (fun _ _ _ _ _ h => h) (fun _ _ h => h)
      env mt f o f₂ g₂ o₂ clk b ?_
    refine Py.Preserves.forM (I := fun s : LModel => s.constraints = b.constraints) (fun n _ s hs => ?_) _ rfl
    rw [retypeVar_run]
    repeat' split
    all_goals exact hs
  rw [convertMtype_run]
  cases hbm : b.mtype with
  | qubo => simp only [toIsing_run, hbm]; exact key _ _ _ _ _ _
  | ising => simp only [toQubo_run, hbm]; exact key _ _ _ _ _ _

/-- A successful merge as one of models of the same type. -/
theorem merge_same (h : (merge env clk).run (a, b) = .ok ⟨⟩ (a', b')) : mergeSame.run (a, b') = .ok ⟨⟩ (a', b') := by
  by_cases ht : a.mtype = b.mtype
  · rw [merge_run, if_pos ht] at h
    have := mergeSame_snd a b
    rw [h] at this
    simp only [Res.state] at this
    rw [this] at h ⊢
    exact h
  · have hc := merge_converted ht h
    rw [merge_run, if_neg ht, hc] at h
    exact h

theorem merge_argument_constraints (h : (merge env clk).run (a, b) = .ok ⟨⟩ (a', b')) : b'.constraints = b.constraints := by
  by_cases ht : a.mtype = b.mtype
  · rw [merge_run, if_pos ht] at h
    have := mergeSame_snd a b
    rw [h] at this
    simp only [Res.state] at this
    rw [this]
  · have hc := merge_converted ht h
    have := convertMtype_constraints env clk b
    rw [hc] at this
    exact this

theorem merge_argument_rect (hb : b.Rect) (h : (merge env clk).run (a, b) = .ok ⟨⟩ (a', b')) : b'.Rect := by
  by_cases ht : a.mtype = b.mtype
  · rw [merge_run, if_pos ht] at h
    have := mergeSame_snd a b
    rw [h] at this
    simp only [Res.state] at this
    rw [this]
    exact hb
  · have hc := merge_converted ht h
    have := convertMtype_rect env clk b hb
    rw [hc] at this
    exact this

/-- The name a merge gives to an interaction whose name both models use. -/
def suffixed (n id : String) : String := n ++ " (" ++ id ++ ")"

/-- The last opening parenthesis separates the name from the id. -/
theorem suffixed_inj {n n' id id' : String} (hi : '(' ∉ id.toList) (hi' : '(' ∉ id'.toList)
    (h : suffixed n id = suffixed n' id') : n = n' ∧ id = id' := by
  have h' := congrArg (fun s : String => s.toList.reverse) h
  simp only [suffixed, String.toList_append, List.reverse_append] at h'
  have h1 : ")".toList.reverse = [')'] := by decide
  have h2 : " (".toList.reverse = ['(', ' '] := by decide
  rw [h1, h2] at h'
  simp only [List.cons_append, List.nil_append, List.cons.injEq, true_and] at h'
  obtain ⟨e1, e2⟩ := split_at (by simpa using hi) (by simpa using hi') h'
  refine ⟨?_, String.toList_inj.mp (List.reverse_injective e1)⟩
  simp only [List.cons.injEq, true_and] at e2
  exact String.toList_inj.mp (List.reverse_injective e2)

theorem mergedRows_names {a b : LModel} (hl : a.length = a.rows.length) :
    (mergedRows a b).map (·.name) =
      a.names.map (fun n => if n ∈ a.names ∧ n ∈ b.names then suffixed n a.id else n) ++
      b.names.map (fun n => if n ∈ a.names ∧ n ∈ b.names then suffixed n b.id else n) := by
  have hd : ∀ n, dupName a b n = true ↔ n ∈ a.names ∧ n ∈ b.names := by
    intro n; simp [dupName, hasName_iff, LModel.names]
  have hgen : ∀ (rs : List Row) (k : Nat) (id : String), (∀ i, k ≤ i → i < k + rs.length →
        (if (i : Int) < a.length then a.id else b.id) = id) →
      (rs.zipIdx k).map (fun p => (if dupName a b p.1.name then
        { p.1 with name := p.1.name ++ " (" ++ (if (p.2 : Int) < a.length then a.id else b.id) ++ ")" } else p.1).name) =
      rs.map fun r => if r.name ∈ a.names ∧ r.name ∈ b.names then suffixed r.name id else r.name := by
    intro rs
    induction rs with
    | nil => intro _ _ _; rfl
    | cons r rs ih =>
      intro k id hk
      rw [List.zipIdx_cons, List.map_cons, List.map_cons, ih (k + 1) id fun i h1 h2 => hk i (by omega)
        (by simp only [List.length_cons]; omega)]
      congr 1
      simp only [hk k le_rfl (by simp), hd]
      split <;> rfl
  unfold mergedRows
  rw [List.map_map, List.zipIdx_append, List.map_append]
  congr 1
  · refine (hgen a.rows 0 a.id fun i _ h2 => if_pos (by rw [hl]; omega)).trans ?_
    simp [LModel.names, Function.comp_def]
  · refine (hgen b.rows (0 + a.rows.length) b.id fun i h1 _ => if_neg (by rw [hl]; omega)).trans ?_
    simp [LModel.names, Function.comp_def]

/-- When the names of the merged rows are distinct. -/
theorem merged_nodup {A B : List String} {ia ib : String} (hna : A.Nodup) (hnb : B.Nodup) (hia : '(' ∉ ia.toList)
    (hib : '(' ∉ ib.toList) :
    (A.map (fun n => if n ∈ A ∧ n ∈ B then suffixed n ia else n) ++
      B.map (fun n => if n ∈ A ∧ n ∈ B then suffixed n ib else n)).Nodup ↔
    ∀ n ∈ A, n ∈ B → ia ≠ ib ∧ ∀ id ∈ [ia, ib], (suffixed n id ∈ A ↔ suffixed n id ∈ B) := by
  simp only [List.mem_cons, List.not_mem_nil, or_false, forall_eq_or_imp, forall_eq]
  constructor
  · intro hn n hA hB
    rw [List.nodup_append] at hn
    obtain ⟨h1, h2, h3⟩ := hn
    have i1 := List.inj_on_of_nodup_map h1
    have i2 := List.inj_on_of_nodup_map h2
    have h4 : ∀ x ∈ A, ∀ y ∈ B, (if x ∈ A ∧ x ∈ B then suffixed x ia else x) ≠
        if y ∈ A ∧ y ∈ B then suffixed y ib else y := fun x hx y hy =>
      h3 _ (List.mem_map_of_mem hx) _ (List.mem_map_of_mem hy)
    refine ⟨?_, ⟨?_, ?_⟩, ?_, ?_⟩
    · intro e
      have := h4 n hA n hB
      rw [if_pos ⟨hA, hB⟩, if_pos ⟨hA, hB⟩, e] at this
      exact this rfl
    · intro hs
      by_contra hsB
      have := i1 hA hs (by rw [if_pos ⟨hA, hB⟩, if_neg (fun h => hsB h.2)])
      rw [← this] at hsB
      exact hsB hB
    · intro hs
      by_contra hsA
      have := h4 n hA _ hs
      rw [if_pos ⟨hA, hB⟩, if_neg (fun h => hsA h.1)] at this
      exact this rfl
    · intro hs
      by_contra hsB
      have := h4 _ hs n hB
      rw [if_neg (fun h => hsB h.2), if_pos ⟨hA, hB⟩] at this
      exact this rfl
    · intro hs
      by_contra hsA
      have := i2 hB hs (by rw [if_pos ⟨hA, hB⟩, if_neg (fun h => hsA h.1)])
      rw [← this] at hsA
      exact hsA hA
  · intro hc
    rw [List.nodup_append]
    refine ⟨hna.map_on ?_, hnb.map_on ?_, ?_⟩
    · intro x hx y hy e
      by_cases hxB : x ∈ B <;> by_cases hyB : y ∈ B <;> simp only [hx, hy, hxB, hyB, and_self, and_false, if_true, if_false] at e
      · exact (suffixed_inj hia hia e).1
      · exact absurd (e ▸ (hc x hx hxB).2.1.mp (e ▸ hy)) hyB
      · exact absurd (e ▸ (hc y hy hyB).2.1.mp (e ▸ hx)) hxB
      · exact e
    · intro x hx y hy e
      by_cases hxB : x ∈ A <;> by_cases hyB : y ∈ A <;> simp only [hx, hy, hxB, hyB, and_true, if_true, if_false] at e
      · exact (suffixed_inj hib hib e).1
      · exact absurd (e ▸ (hc x hxB hx).2.2.mpr (e ▸ hy)) hyB
      · exact absurd (e ▸ (hc y hyB hy).2.2.mpr (e ▸ hx)) hxB
      · exact e
    · intro u hu v hv
      obtain ⟨x, hx, rfl⟩ := List.mem_map.mp hu
      obtain ⟨y, hy, rfl⟩ := List.mem_map.mp hv
      intro e
      by_cases hxB : x ∈ B <;> by_cases hyA : y ∈ A <;> simp only [hx, hy, hxB, hyA, and_true, and_false, false_and, if_true, if_false] at e
      · exact (hc x hx hxB).1 (suffixed_inj hia hib e).2
      · exact hyA (e ▸ (hc x hx hxB).2.1.mpr (e ▸ hy))
      · exact hxB (e ▸ (hc y hyA hy).2.2.mp (e ▸ hx))
      · exact hxB (e ▸ hy)

/-- Which merges keep names unique, for models with unique names and ids without an opening parenthesis (they are digits): if
a name is used by both models then their ids differ, and a name that already looks like that name with one of the ids added is
used by both models or by none. -/
theorem C01_merge_iff (hl : a.length = a.rows.length) (hna : a.names.Nodup) (hia : '(' ∉ a.id.toList)
    (hib : '(' ∉ b'.id.toList) (h : (merge env clk).run (a, b) = .ok ⟨⟩ (a', b')) (hnb : b'.names.Nodup) :
    a'.names.Nodup ↔ ∀ n ∈ a.names, n ∈ b'.names → a.id ≠ b'.id ∧
      ∀ id ∈ [a.id, b'.id], (n ++ " (" ++ id ++ ")" ∈ a.names ↔ n ++ " (" ++ id ++ ")" ∈ b'.names) := by
  replace h := merge_same h
  generalize b' = b at h hnb hib
  obtain ⟨w, cols, _, _, hs⟩ := mergeSame_eq h
  cases hs
  have hnames : (mergedRest (mergedTable { a with vars := w } b cols) b).names = (mergedRows a b).map (·.name) := rfl
  rw [hnames, mergedRows_names hl]
  exact merged_nodup hna hnb hia hib

example : mergeA.length = mergeA.rows.length ∧ mergeA.names.Nodup ∧ mergeB.names.Nodup ∧ '(' ∉ mergeA.id.toList ∧
    '(' ∉ mergeB.id.toList ∧ "x[0]" ∈ mergeA.names ∧ "x[0]" ∈ mergeB.names ∧
    ((merge convEnv fun _ => 0).run (mergeA, mergeB)).isOk = true := by decide +kernel

/-- After a successful merge the constraints are the disjoint union. -/
theorem C41_merge_constraints (hk : (dkeys b.constraints).Nodup) (h : (merge env clk).run (a, b) = .ok ⟨⟩ (a', b')) :
    (∀ l, l ∈ dkeys a.constraints → l ∉ dkeys b.constraints) ∧
    (∀ l, dget a'.constraints l = (dget a.constraints l).or (dget b.constraints l)) := by
  have hbc := merge_argument_constraints h
  rw [← hbc] at hk ⊢
  replace h := merge_same h
  generalize b' = b at h hk
  obtain ⟨w, cols, _, hcc, hs⟩ := mergeSame_eq h
  cases hs
  have hdis : ∀ l, l ∈ dkeys a.constraints → l ∉ dkeys b.constraints := by
    intro l hl
    rw [constraintClash, List.any_eq_false] at hcc
    obtain ⟨p, hp, rfl⟩ := List.mem_map.mp hl
    simpa using hcc p hp
  refine ⟨hdis, ?_⟩
  intro l
  simp only [mergedRest, mergedTable]
  rw [dget_dupdate _ _ hk]
  cases hx : dget a.constraints l with
  | none => simp
  | some x =>
    have := hdis l ((dget_isSome_iff _ _).mp ⟨x, hx⟩)
    rw [← dget_eq_none_iff] at this
    rw [this]
    rfl

/-- Every interaction (of the argument: as the merge left it, see C38) keeps its fields and its registered attribute values,
under its old name, or with the id of its model added if both models have the name; attributes of the other model are
`nan`. -/
theorem C41_merge_interactions (hra : a.Rect) (hrb : b.Rect) (h : (merge env clk).run (a, b) = .ok ⟨⟩ (a', b')) :
    (∀ k, k ∈ a'.attrs ↔ k ∈ a.attrs ∨ k ∈ b'.attrs) ∧
    a'.rows.length = a.rows.length + b'.rows.length ∧
    (∀ (i : Nat) r, a.rows[i]? = some r → ∃ r', a'.rows[i]? = some r' ∧ r'.anon = r.anon ∧
      r'.name = (if r.name ∈ b'.names then r.name ++ " (" ++ a.id ++ ")" else r.name) ∧
      ∀ k ∈ a'.attrs, a'.cell k i = if k ∈ a.attrs then a.cell k i else some .nan) ∧
    (∀ (i : Nat) r, b'.rows[i]? = some r → ∃ r', a'.rows[a.rows.length + i]? = some r' ∧ r'.anon = r.anon ∧
      r'.name = (if r.name ∈ a.names then r.name ++ " (" ++ b'.id ++ ")" else r.name) ∧
      ∀ k ∈ a'.attrs, a'.cell k (a.rows.length + i) = if k ∈ b'.attrs then b'.cell k i else some .nan) := by
  replace hrb := merge_argument_rect hrb h
  replace h := merge_same h
  generalize b' = b at h hrb
  obtain ⟨w, cols, hcols, _, hs⟩ := mergeSame_eq h
  cases hs
  have hrow : ∀ (i : Nat) r, (a.rows ++ b.rows)[i]? = some r → ∃ r', (mergedRows a b)[i]? = some r' ∧ r'.anon = r.anon ∧
      r'.name = if r.name ∈ a.names ∧ r.name ∈ b.names then r.name ++ " (" ++ (if i < a.length then a.id else b.id) ++ ")"
        else r.name := by
    intro i r hr
    have hdup : dupName a b r.name = true ↔ r.name ∈ a.names ∧ r.name ∈ b.names := by
      simp [dupName, LModel.hasName, LModel.names]
    unfold mergedRows
    rw [List.getElem?_map, List.getElem?_zipIdx, hr]
    simp only [Option.map_some, Nat.zero_add, Option.some.injEq, exists_eq_left']
    by_cases hd : dupName a b r.name = true
    · rw [if_pos hd, if_pos (hdup.mp hd)]
      exact ⟨rfl, rfl⟩
    · rw [if_neg hd, if_neg (fun hc => hd (hdup.mpr hc))]
      exact ⟨rfl, rfl⟩
  have hgetA : ∀ k, k ∈ a.attrs → ∃ c, dget a.attrCols k = some c ∧ c.length = a.rows.length := by
    intro k hk
    rw [← hra.keys] at hk
    obtain ⟨c, hc⟩ := (dget_isSome_iff _ _).mpr hk
    exact ⟨c, hc, hra.cols _ (dget_mem hc)⟩
  have hgetB : ∀ k, k ∈ b.attrs → ∃ c, dget b.attrCols k = some c ∧ c.length = b.rows.length := by
    intro k hk
    rw [← hrb.keys] at hk
    obtain ⟨c, hc⟩ := (dget_isSome_iff _ _).mpr hk
    exact ⟨c, hc, hrb.cols _ (dget_mem hc)⟩
  have hcol : ∀ k ∈ mergedAttrs a b, ∃ ca cb, dget cols k = some (ca ++ cb) ∧ ca.length = a.rows.length ∧
      (∀ i < a.rows.length, ca[i]? = if k ∈ a.attrs then a.cell k i else some .nan) ∧
      (∀ i < b.rows.length, cb[i]? = if k ∈ b.attrs then b.cell k i else some .nan) := by
    intro k hk
    obtain ⟨c, hc, hm⟩ := mapM_lookup hcols hk
    rw [hc]
    unfold mergedCol at hm
    simp only [throw, throwThe, MonadExceptOf.throw, pure, Except.pure] at hm
    by_cases hka : k ∈ a.attrs
    · obtain ⟨ca, hca, hlen⟩ := hgetA k hka
      simp only [hka, if_true, hca] at hm
      by_cases hkb : k ∈ b.attrs
      · obtain ⟨cb, hcb, hlenb⟩ := hgetB k hkb
        simp only [hcb] at hm
        cases hm
        refine ⟨ca, cb, rfl, hlen, ?_, ?_⟩
        · intro i _; simp [hka, LModel.cell, hca]
        · intro i _; simp [hkb, LModel.cell, hcb]
      · have hcb : dget b.attrCols k = none := by
          rw [dget_eq_none_iff, hrb.keys]; exact hkb
        simp only [hcb] at hm
        cases hm
        refine ⟨ca, _, rfl, hlen, ?_, ?_⟩
        · intro i _; simp [hka, LModel.cell, hca]
        · intro i hi
          rw [if_neg hkb, List.getElem?_replicate, if_pos]
          rw [hrb.len]; exact hi
    · have hkb : k ∈ b.attrs := (mem_mergedAttrs.mp hk).resolve_left hka
      obtain ⟨cb, hcb, hlenb⟩ := hgetB k hkb
      simp only [hka, if_false, hcb] at hm
      cases hm
      refine ⟨_, cb, rfl, by simp [hra.len], ?_, ?_⟩
      · intro i hi
        rw [if_neg hka, List.getElem?_replicate, if_pos]
        rw [hra.len]; exact hi
      · intro i _; simp [hkb, LModel.cell, hcb]
  refine ⟨fun k => mem_mergedAttrs, mergedRows_length a b, ?_, ?_⟩
  · intro i r hr
    have hi : i < a.rows.length := (List.getElem?_eq_some_iff.mp hr).1
    obtain ⟨r', h1, h2, h3⟩ := hrow i r (by rw [List.getElem?_append_left hi]; exact hr)
    refine ⟨r', h1, h2, ?_, ?_⟩
    · have hm : r.name ∈ a.names := List.mem_map.mpr ⟨r, List.mem_of_getElem? hr, rfl⟩
      rw [h3, if_pos (show (i : Int) < a.length by rw [hra.len]; omega)]
      simp only [hm, true_and]
    · intro k hk
      obtain ⟨ca, cb, hc, hl, hA, _⟩ := hcol k hk
      rw [← hA i hi]
      simp only [LModel.cell, mergedRest, mergedTable, hc, Option.bind_some]
      rw [List.getElem?_append_left (by rw [hl]; exact hi)]
  · intro i r hr
    have hi : i < b.rows.length := (List.getElem?_eq_some_iff.mp hr).1
    obtain ⟨r', h1, h2, h3⟩ := hrow (a.rows.length + i) r (by
      rw [List.getElem?_append_right (Nat.le_add_right _ _), Nat.add_sub_cancel_left]; exact hr)
    refine ⟨r', h1, h2, ?_, ?_⟩
    · have hm : r.name ∈ b.names := List.mem_map.mpr ⟨r, List.mem_of_getElem? hr, rfl⟩
      rw [h3, if_neg (show ¬ ((a.rows.length + i : Nat) : Int) < a.length by rw [hra.len]; omega)]
      simp only [hm, and_true]
    · intro k hk
      obtain ⟨ca, cb, hc, hl, _, hB⟩ := hcol k hk
      rw [← hB i hi]
      simp only [LModel.cell, mergedRest, mergedTable, hc, Option.bind_some]
      rw [List.getElem?_append_right (by rw [hl]; omega), hl, Nat.add_sub_cancel_left]

example : (((merge convEnv fun _ => 0).run (mergeA, mergeB)).state.1.rows.map (·.name)) =
    ["x[0] (101)", "x[1]", "x[0] (102)"] := by decide

/-- An attribute that came with an update is not registered, and a merge drops it. -/
theorem C41_unregistered_refuted :
    let a := Ex.after mergeA (updateInteraction 0 0 (.var Ex.x0) (.str "") none none (.dict [("new", .num 1)]) none)
    ∃ s, (merge convEnv fun _ => 0).run (a, mergeB) = .ok ⟨⟩ s ∧ a.cell "attributes.new" 0 = some (.num 1) ∧
      s.1.cell "attributes.new" 0 = none := by
  refine ⟨_, rfl, by decide +kernel, by decide +kernel⟩

end Sawatabi.Props
