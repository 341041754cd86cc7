import Verif.Lemmas.ConstraintNames
import Verif.Spec.Constraint
import Verif.Props.Examples

/-!
# C30–C34: constraints
-/

namespace Sawatabi.Props

open Sawatabi

theorem _root_.Sawatabi.IsVarSet.labels {vs : List PVar} (h : IsVarSet vs) : (vs.map (·.label)).Nodup := by
  apply List.Nodup.map_on _ h.nodup
  intro a ha b hb hab
  have h1 := h.binary a ha
  have h2 := h.binary b hb
  cases a; cases b
  simp_all

theorem total_ones {σ : Assign} (hb : σ.IsBinary) (vs : List PVar) : total σ vs = ones σ vs := by
  unfold total ones
  induction vs with
  | nil => simp
  | cons a vs ih =>
    rw [List.map_cons, List.sum_cons, ih, List.filter_cons]
    rcases hb a.label with h | h
    · simp [h]
    · simp [h]; ring

/-- Every number of ones up to the size of the set is reached. -/
theorem exists_ones {vs : List PVar} (hn : (vs.map (·.label)).Nodup) {n : Nat} (h : n ≤ vs.length) :
    ∃ σ : Assign, σ.IsBinary ∧ ones σ vs = n := by
  refine ⟨fun l => if l ∈ (vs.map (·.label)).take n then 1 else 0, fun l => ?_, ?_⟩
  · simp only
    split <;> simp
  · have : ∀ (vs : List PVar) (n : Nat), (vs.map (·.label)).Nodup → n ≤ vs.length →
        ones (fun l => if l ∈ (vs.map (·.label)).take n then 1 else 0) vs = n := by
      intro vs
      induction vs with
      | nil => intro n _ h; simp [ones] at h ⊢; exact h.symm
      | cons a vs ih =>
        intro n hn h
        rw [List.map_cons, List.nodup_cons] at hn
        cases n with
        | zero => simp [ones]
        | succ n =>
          have := ih n hn.2 (by simpa using h)
          unfold ones at this ⊢
          rw [List.filter_cons]
          simp only [List.map_cons, List.take_succ_cons, List.mem_cons, true_or, if_true, decide_true, List.length_cons]
          congr 1
          refine Eq.trans ?_ this
          congr 1
          apply List.filter_congr
          intro v hv
          have hne : v.label ≠ a.label := fun hh => hn.1 (hh ▸ List.mem_map_of_mem hv)
          simp [hne]
    exact this vs n hn h

/-! ## C30 -/

/-- **C30**, energy: the model of an N-hot constraint exists and has energy
`strength * ((ones - n)^2 - n^2)`. -/
theorem C30_nHot_energy (now : ℚ) (id l : String) (s : ℚ) (vs : List PVar) (n : Nat) (hv : IsVarSet vs) :
    ∃ cm, (Constraint.nHot l s vs n).toModel now id = .ok cm ∧
      ∀ (ρ : PEnv) (σ : Assign), σ.IsBinary → cm.energy ρ σ = s * (((ones σ vs : ℚ) - n) ^ 2 - (n : ℚ) ^ 2) := by
  refine ⟨_, (Constraint.toModel_run now id _).1 (nHot_good hv.labels hv.label), fun ρ σ hb => ?_⟩
  rw [toModel_energy ((Constraint.toModel_run now id _).1 (nHot_good hv.labels hv.label)), nHot_sum hb l s n hv.labels,
    total_ones hb]

/-- **C30**, minimisers: with a positive strength and `n ≤ |V|` they are the assignments with `n` ones. -/
theorem C30_nHot_minimisers {now : ℚ} {id l : String} {s : ℚ} {vs : List PVar} {n : Nat} {cm : LModel}
    (hv : IsVarSet vs) (hs : 0 < s) (hn : n ≤ vs.length) (h : (Constraint.nHot l s vs n).toModel now id = .ok cm)
    (ρ : PEnv) {σ : Assign} (hb : σ.IsBinary) : IsMinimiser (cm.energy ρ) σ ↔ ones σ vs = n := by
  obtain ⟨cm', h', hE⟩ := C30_nHot_energy now id l s vs n hv
  rw [h] at h'
  cases h'
  constructor
  · intro hmin
    obtain ⟨τ, hτ, hcount⟩ := exists_ones hv.labels hn
    have := hmin τ hτ
    beta_reduce at this
    rw [hE ρ σ hb, hE ρ τ hτ, hcount] at this
    have h0 : ((ones σ vs : ℚ) - n) ^ 2 ≤ 0 := by
      have := le_of_mul_le_mul_left this hs
      linarith [this]
    have h1 : (ones σ vs : ℚ) - n = 0 := by
      have := sq_nonneg ((ones σ vs : ℚ) - n)
      exact pow_eq_zero_iff (two_ne_zero) |>.mp (le_antisymm h0 this)
    have h2 : (ones σ vs : ℚ) = n := by linarith
    exact_mod_cast h2
  · intro hc τ hτ
    beta_reduce
    rw [hE ρ σ hb, hE ρ τ hτ, hc]
    apply mul_le_mul_of_nonneg_left _ (le_of_lt hs)
    nlinarith [sq_nonneg ((ones τ vs : ℚ) - n)]

example : IsVarSet [Ex.b0, Ex.b1, Ex.b2] := ⟨by decide, by decide, by decide⟩

example : ∃ cm, (Constraint.nHot "c" 3 [Ex.b0, Ex.b1, Ex.b2] 2).toModel 1 "7" = .ok cm ∧
    cm.energy (fun _ => 0) (fun l => if l = "x[1]" then 0 else 1) = -12 := by
  refine ⟨_, rfl, ?_⟩
  decide +kernel

/-! ## C31 -/

/-- **C31**, energy: `strength * k * (k - 1)` with `k` ones. -/
theorem C31_zeroOrOneHot_energy (now : ℚ) (id l : String) (s : ℚ) (vs : List PVar) (hv : IsVarSet vs) :
    ∃ cm, (Constraint.zeroOrOneHot l s vs).toModel now id = .ok cm ∧
      ∀ (ρ : PEnv) (σ : Assign), σ.IsBinary → cm.energy ρ σ = s * ((ones σ vs : ℚ) * ((ones σ vs : ℚ) - 1)) := by
  refine ⟨_, (Constraint.toModel_run now id _).1 (zeroOrOneHot_good hv.labels hv.label), fun ρ σ hb => ?_⟩
  rw [toModel_energy ((Constraint.toModel_run now id _).1 (zeroOrOneHot_good hv.labels hv.label)),
    zeroOrOneHot_sum hb l s hv.labels, total_ones hb]

/-- **C31**, minimisers: with a positive strength they are the assignments with at most one 1. -/
theorem C31_zeroOrOneHot_minimisers {now : ℚ} {id l : String} {s : ℚ} {vs : List PVar} {cm : LModel}
    (hv : IsVarSet vs) (hs : 0 < s) (h : (Constraint.zeroOrOneHot l s vs).toModel now id = .ok cm)
    (ρ : PEnv) {σ : Assign} (hb : σ.IsBinary) : IsMinimiser (cm.energy ρ) σ ↔ ones σ vs ≤ 1 := by
  obtain ⟨cm', h', hE⟩ := C31_zeroOrOneHot_energy now id l s vs hv
  rw [h] at h'
  cases h'
  have hnn : ∀ k : Nat, (0 : ℚ) ≤ (k : ℚ) * ((k : ℚ) - 1) := by
    intro k
    cases k with
    | zero => simp
    | succ k =>
      push_cast
      have : (0 : ℚ) ≤ k := Nat.cast_nonneg k
      nlinarith
  constructor
  · intro hmin
    by_contra hc
    have hc : 2 ≤ ones σ vs := by omega
    have h0 : Assign.IsBinary (fun _ => 0) := fun _ => Or.inl rfl
    have := hmin _ h0
    beta_reduce at this
    rw [hE ρ σ hb, hE ρ _ h0] at this
    have hz : ones (fun _ => 0) vs = 0 := by simp [ones]
    rw [hz] at this
    have hge : (2 : ℚ) ≤ (ones σ vs : ℚ) := by exact_mod_cast hc
    have hpos : 0 < s * ((ones σ vs : ℚ) * ((ones σ vs : ℚ) - 1)) := by
      apply mul_pos hs
      nlinarith
    simp at this
    linarith
  · intro hc τ hτ
    beta_reduce
    rw [hE ρ σ hb, hE ρ τ hτ]
    apply mul_le_mul_of_nonneg_left _ (le_of_lt hs)
    have : (ones σ vs : ℚ) * ((ones σ vs : ℚ) - 1) = 0 := by
      rcases Nat.le_one_iff_eq_zero_or_eq_one.mp hc with h | h <;> rw [h] <;> simp
    rw [this]
    exact hnn _

example : ∃ cm, (Constraint.zeroOrOneHot "c" 3 [Ex.b0, Ex.b1, Ex.b2]).toModel 1 "7" = .ok cm ∧
    cm.energy (fun _ => 0) (fun _ => 1) = 18 := by
  refine ⟨_, rfl, ?_⟩
  decide +kernel

/-! ## C32 -/

/-- **C32**, energy, for disjoint sets: `strength * (ones V1 - ones V2)^2`. Missing for the full
property: overlapping sets, where the call raises (`C32_overlap_raises_partial`). -/
theorem C32_equality_energy_partial (now : ℚ) (id l : String) (s : ℚ) (v1 v2 : List PVar) (hv : IsVarSet (v1 ++ v2)) :
    ∃ cm, (Constraint.equality l s v1 v2).toModel now id = .ok cm ∧
      ∀ (ρ : PEnv) (σ : Assign), σ.IsBinary → cm.energy ρ σ = s * ((ones σ v1 : ℚ) - (ones σ v2 : ℚ)) ^ 2 := by
  refine ⟨_, (Constraint.toModel_run now id _).1 (equality_good hv.labels hv.label), fun ρ σ hb => ?_⟩
  rw [toModel_energy ((Constraint.toModel_run now id _).1 (equality_good hv.labels hv.label)),
    equality_sum hb l s hv.labels, total_ones hb, total_ones hb]

/-- **C32**, minimisers, for disjoint sets: with a positive strength they are the assignments with
equally many ones. -/
theorem C32_equality_minimisers_partial {now : ℚ} {id l : String} {s : ℚ} {v1 v2 : List PVar} {cm : LModel}
    (hv : IsVarSet (v1 ++ v2)) (hs : 0 < s) (h : (Constraint.equality l s v1 v2).toModel now id = .ok cm)
    (ρ : PEnv) {σ : Assign} (hb : σ.IsBinary) : IsMinimiser (cm.energy ρ) σ ↔ ones σ v1 = ones σ v2 := by
  obtain ⟨cm', h', hE⟩ := C32_equality_energy_partial now id l s v1 v2 hv
  rw [h] at h'
  cases h'
  constructor
  · intro hmin
    have h0 : Assign.IsBinary (fun _ => 0) := fun _ => Or.inl rfl
    have := hmin _ h0
    beta_reduce at this
    rw [hE ρ σ hb, hE ρ _ h0] at this
    have hz : ∀ vs : List PVar, ones (fun _ => 0) vs = 0 := by intro vs; simp [ones]
    rw [hz, hz] at this
    have h0 : ((ones σ v1 : ℚ) - ones σ v2) ^ 2 ≤ 0 := by
      simp only [Nat.cast_zero, sub_self] at this
      have := le_of_mul_le_mul_left this hs
      linarith [this]
    have h1 : (ones σ v1 : ℚ) - ones σ v2 = 0 :=
      pow_eq_zero_iff (two_ne_zero) |>.mp (le_antisymm h0 (sq_nonneg _))
    have h2 : (ones σ v1 : ℚ) = ones σ v2 := by linarith
    exact_mod_cast h2
  · intro hc τ hτ
    beta_reduce
    rw [hE ρ σ hb, hE ρ τ hτ, hc]
    apply mul_le_mul_of_nonneg_left _ (le_of_lt hs)
    rw [sub_self]
    have := sq_nonneg ((ones τ v1 : ℚ) - ones τ v2)
    linarith [this]

/-- Overlapping sets: building the model raises `ValueError`. -/
theorem C32_overlap_raises_partial (now : ℚ) (id l : String) (s : ℚ) (v1 v2 : List PVar) {v : PVar} (h1 : v ∈ v1)
    (h2 : v ∈ v2) : (Constraint.equality l s v1 v2).toModel now id = .error .valueError := by
  apply (Constraint.toModel_run now id _).2
  intro hg
  have hm : Item.pair v v (2 * s) ∈ (Constraint.equality l s v1 v2).items := by
    simp only [Constraint.items, List.mem_append]
    right
    exact List.mem_flatMap.mpr ⟨v, h1, List.mem_map.mpr ⟨v, h2, rfl⟩⟩
  exact hg.2 _ hm rfl

/-- **C32** is false for overlapping sets. -/
theorem C32_equality_refuted : ¬ ∀ (now : ℚ) (id l : String) (s : ℚ) (v1 v2 : List PVar),
    IsVarSet v1 → IsVarSet v2 → ∃ cm, (Constraint.equality l s v1 v2).toModel now id = .ok cm := by
  intro h
  have hb : IsVarSet [Ex.b0, Ex.b1] := ⟨by decide, by decide, by decide⟩
  obtain ⟨cm, hcm⟩ := h 0 "1" "e" 1 [Ex.b0, Ex.b1] [Ex.b0, Ex.b1] hb hb
  rw [C32_overlap_raises_partial 0 "1" "e" 1 _ _ (v := Ex.b0) (by simp) (by simp)] at hcm
  cases hcm

example : ∃ cm, (Constraint.equality "c" 3 [Ex.b0] [Ex.b1, Ex.b2]).toModel 1 "7" = .ok cm ∧
    cm.energy (fun _ => 0) (fun l => if l = "x[0]" then 0 else 1) = 12 := by
  refine ⟨_, rfl, ?_⟩
  decide +kernel

example : IsVarSet ([Ex.b0] ++ [Ex.b1, Ex.b2]) := ⟨by decide, by decide, by decide⟩

/-! ## C33 -/

/-- Two runs of `to_model` agree up to the order of the interactions: both return, or both raise the
same exception. -/
def SameModel (a b : Res LModel Unit) : Prop :=
  (∃ m n, a = .ok () m ∧ b = .ok () n ∧ m.rows.Perm n.rows ∧ { m with rows := [] } = { n with rows := [] }) ∨
  (∃ e m n, a = .error e m ∧ b = .error e n)

theorem sameModel_of_perm (now : ℚ) (id label : String) {a b : List Item} (h : a.Perm b) :
    SameModel ((a.forM (Item.add now label)).run (LModel.new .qubo id))
      ((b.forM (Item.add now label)).run (LModel.new .qubo id)) := by
  have ha := Item.loop_run now label a .qubo id [] (by simp)
  have hb := Item.loop_run now label b .qubo id [] (by simp)
  simp only [List.map_nil, List.nil_append] at ha hb
  rw [plain_nil] at ha hb
  by_cases hg : (a.map (·.name label)).Nodup ∧ ∀ it ∈ a, it.Proper
  · left
    refine ⟨_, _, ha.1 hg, hb.1 ((good_perm h).mp hg), h.map _, ?_⟩
    simp [plain, LModel.new, h.length_eq]
  · right
    obtain ⟨m, hm⟩ := ha.2 hg
    obtain ⟨n, hn⟩ := hb.2 (fun hh => hg ((good_perm h).mpr hh))
    exact ⟨_, m, n, hm, hn⟩

/-- **C33**, N-hot: the order in which the variable set is iterated does not matter. -/
theorem C33_nHot_order (now : ℚ) (id l : String) (s : ℚ) (n : Nat) {vs vs' : List PVar} (h : vs.Perm vs') :
    SameModel ((nHotBody now l s vs n).run (LModel.new .qubo id)) ((nHotBody now l s vs' n).run (LModel.new .qubo id)) := by
  have h1 := Constraint.body_eq now (.nHot l s vs n)
  have h2 := Constraint.body_eq now (.nHot l s vs' n)
  simp only [Constraint.body, Constraint.label] at h1 h2
  rw [h1, h2]
  apply sameModel_of_perm
  exact flatMap_perm h fun v => (pairItems_perm _ h v).cons _

/-- **C33**, zero-or-one-hot. -/
theorem C33_zeroOrOneHot_order (now : ℚ) (id l : String) (s : ℚ) {vs vs' : List PVar} (h : vs.Perm vs') :
    SameModel ((zeroOrOneHotBody now l s vs).run (LModel.new .qubo id))
      ((zeroOrOneHotBody now l s vs').run (LModel.new .qubo id)) := by
  have h1 := Constraint.body_eq now (.zeroOrOneHot l s vs)
  have h2 := Constraint.body_eq now (.zeroOrOneHot l s vs')
  simp only [Constraint.body, Constraint.label] at h1 h2
  rw [h1, h2]
  apply sameModel_of_perm
  exact flatMap_perm h fun v => pairItems_perm _ h v

theorem equalityBody_eq (now : ℚ) (l : String) (s : ℚ) (u v1 v2 : List PVar) :
    equalityBody now l s u v1 v2 = (u.map (fun v => Item.lin v (-1 * s)) ++ (v1.flatMap (pairItems (-2 * s) v1) ++
      (v2.flatMap (pairItems (-2 * s) v2) ++ v1.flatMap fun v => v2.map fun w => Item.pair v w (2 * s)))).forM
        (Item.add now l) := by
  have h := Constraint.body_eq now (.equality l s v1 v2)
  apply Py.ext_run
  intro t
  have h1 : ∀ vs : List PVar, (vs.flatMap (pairItems (-2 * s) vs)).forM (Item.add now l) =
      vs.forM fun v => addPairsFrom now l s vs v := by
    intro vs
    rw [Py.forM_flatMap]
    exact Py.forM_congr (fun v => pairItems_forM _ _ _ _ _) _
  have h2 : (v1.flatMap fun v => v2.map fun w => Item.pair v w (2 * s)).forM (Item.add now l) =
      v1.forM fun v => v2.forM fun w => addPair now l v w (2 * s) := by
    rw [Py.forM_flatMap]
    apply Py.forM_congr
    intro v
    rw [Py.forM_map]
    rfl
  have h3 : (u.map fun v => Item.lin v (-1 * s)).forM (Item.add now l) =
      u.forM fun v => addLin now l v (-1 * s) := by
    rw [Py.forM_map]
    rfl
  unfold equalityBody
  rw [Py.forM_append, h3]
  simp only [Py.run_bind]
  cases (u.forM fun v => addLin now l v (-1 * s)).run t with
  | error e t => rfl
  | ok a t =>
    simp only
    rw [Py.forM_append, h1]
    simp only [Py.run_bind]
    cases (v1.forM fun v => addPairsFrom now l s v1 v).run t with
    | error e t => rfl
    | ok a t =>
      simp only
      rw [Py.forM_append, h1, h2]
      simp only [Py.run_bind]

theorem mem_sunion {a b : List PVar} {v : PVar} : v ∈ sunion a b ↔ v ∈ a ∨ v ∈ b := by
  unfold sunion
  induction b generalizing a with
  | nil => simp
  | cons x b ih =>
    rw [List.foldl_cons, ih]
    unfold sadd
    split
    · rename_i h
      constructor
      · rintro (h | h)
        · exact Or.inl h
        · exact Or.inr (by simp [h])
      · rintro (h' | h')
        · exact Or.inl h'
        · rcases List.mem_cons.mp h' with rfl | h'
          · exact Or.inl h
          · exact Or.inr h'
    · simp only [List.mem_append, List.mem_singleton, List.mem_cons]
      tauto

theorem nodup_sunion {a b : List PVar} (h : a.Nodup) : (sunion a b).Nodup := by
  unfold sunion
  induction b generalizing a with
  | nil => simpa
  | cons x b ih =>
    rw [List.foldl_cons]
    apply ih
    unfold sadd
    split
    · exact h
    · rename_i hx
      rw [List.nodup_append]
      refine ⟨h, by simp, ?_⟩
      rintro y hy z hz rfl
      simp only [List.mem_singleton] at hz
      exact hx (hz ▸ hy)

/-- **C33**, equality: nor do the orders of the three sets that are iterated. -/
theorem C33_equality_order (now : ℚ) (id l : String) (s : ℚ) {u u' v1 v1' v2 v2' : List PVar} (hn : v1.Nodup)
    (h1 : v1.Perm v1') (h2 : v2.Perm v2') (hu : u.Perm (sunion v1 v2)) (hu' : u'.Perm (sunion v1' v2')) :
    SameModel ((equalityBody now l s u v1 v2).run (LModel.new .qubo id))
      ((equalityBody now l s u' v1' v2').run (LModel.new .qubo id)) := by
  rw [equalityBody_eq, equalityBody_eq]
  apply sameModel_of_perm
  have huu : u.Perm u' := by
    refine hu.trans (List.Perm.trans ?_ hu'.symm)
    rw [List.perm_ext_iff_of_nodup (nodup_sunion hn) (nodup_sunion (h1.nodup_iff.mp hn))]
    intro a
    rw [mem_sunion, mem_sunion, h1.mem_iff, h2.mem_iff]
  refine (huu.map _).append (List.Perm.append ?_ (List.Perm.append ?_ ?_))
  · exact flatMap_perm h1 fun v => pairItems_perm _ h1 v
  · exact flatMap_perm h2 fun v => pairItems_perm _ h2 v
  · exact flatMap_perm h1 fun v => h2.map _

example : [Ex.b0, Ex.b1, Ex.b2].Perm [Ex.b2, Ex.b0, Ex.b1] := by decide
example : ((nHotBody 1 "c" 1 [Ex.b0, Ex.b1] 1).run (LModel.new .qubo "1")).state.rows.map (·.name) =
    ["x[0] (c)", "x[0]*x[1] (c)", "x[1] (c)"] := by decide +kernel
example : ((nHotBody 1 "c" 1 [Ex.b1, Ex.b0] 1).run (LModel.new .qubo "1")).state.rows.map (·.name) =
    ["x[1] (c)", "x[0] (c)", "x[0]*x[1] (c)"] := by decide +kernel

/-! ## C34 -/

theorem nodup_toSet (l : List PVar) : (toSet l).Nodup := nodup_sunion (a := []) (by simp)

theorem mem_toSet {l : List PVar} {v : PVar} : v ∈ toSet l ↔ v ∈ l := by
  have := mem_sunion (a := []) (b := l) (v := v)
  simpa [sunion, toSet] using this

theorem checkVarList_spec (l : List (Option PVar)) :
    (l ≠ [] ∧ none ∉ l → ∃ vs, checkVarList l = .ok vs ∧ ∀ v, v ∈ vs ↔ some v ∈ l) ∧
    (¬ (l ≠ [] ∧ none ∉ l) → checkVarList l = .error .typeError) := by
  have key : ∀ l : List (Option PVar),
      (none ∉ l → ∃ vs, (l.mapM fun o => match o with
        | some v => (.ok v : Except Err PVar)
        | none => .error .typeError) = .ok vs ∧ ∀ v, v ∈ vs ↔ some v ∈ l) ∧
      (none ∈ l → (l.mapM fun o => match o with
        | some v => (.ok v : Except Err PVar)
        | none => .error .typeError) = .error .typeError) := by
    intro l
    induction l with
    | nil => exact ⟨fun _ => ⟨[], rfl, by simp⟩, by simp⟩
    | cons a l ih =>
      rw [List.mapM_cons]
      cases a with
      | none => exact ⟨by simp, fun _ => rfl⟩
      | some w =>
        constructor
        · intro h
          obtain ⟨vs, hvs, hm⟩ := ih.1 (fun hh => h (by simp [hh]))
          refine ⟨w :: vs, ?_, ?_⟩
          · rw [hvs]; rfl
          · intro v
            simp [hm v]
        · intro h
          rw [ih.2 (by simpa using h)]
          rfl
  cases l with
  | nil => exact ⟨by simp, fun _ => rfl⟩
  | cons a l =>
    constructor
    · intro h
      exact (key (a :: l)).1 h.2
    · intro h
      apply (key (a :: l)).2
      by_contra hc
      exact h ⟨by simp, hc⟩

theorem checkVarsToSet_spec (a : PyVars) :
    (a.Valid → ∃ s, checkVarsToSet a = .ok s ∧ s.Nodup ∧ ∀ v, v ∈ s ↔ a.Has v) ∧
    (¬ a.Valid → checkVarsToSet a = .error .typeError) := by
  cases a with
  | array a => exact ⟨fun _ => ⟨_, rfl, nodup_toSet _, fun v => mem_toSet⟩, fun h => absurd trivial h⟩
  | var w => exact ⟨fun _ => ⟨_, rfl, by simp, fun v => by simp [PyVars.Has]⟩, fun h => absurd trivial h⟩
  | list l =>
    constructor
    · intro h
      obtain ⟨vs, hvs, hm⟩ := (checkVarList_spec l).1 h
      refine ⟨toSet vs, by simp only [checkVarsToSet, hvs]; rfl, nodup_toSet _, fun v => ?_⟩
      rw [mem_toSet, hm]
      rfl
    · intro h
      simp only [checkVarsToSet, (checkVarList_spec l).2 h]
      rfl
  | set l =>
    constructor
    · intro h
      obtain ⟨vs, hvs, hm⟩ := (checkVarList_spec l).1 h
      refine ⟨toSet vs, by simp only [checkVarsToSet, hvs]; rfl, nodup_toSet _, fun v => ?_⟩
      rw [mem_toSet, hm]
      rfl
    · intro h
      simp only [checkVarsToSet, (checkVarList_spec l).2 h]
      rfl
  | other => exact ⟨fun h => h.elim, fun _ => rfl⟩

theorem addVariable_run (a : PyVars) (vs : List PVar) : (addVariable a).run vs =
    match checkVarsToSet a with
    | .ok s => .ok () (sunion vs s)
    | .error e => .error e vs := by
  unfold addVariable
  rw [Py.run_bind]
  cases checkVarsToSet a <;> rfl

theorem removeLoop (s vs : List PVar) :
    (s.forM fun v => (do let vs ← get; if v ∉ vs then throw .valueError : Py (List PVar) Unit)).run vs =
      if ∀ v ∈ s, v ∈ vs then .ok () vs else .error .valueError vs := by
  induction s with
  | nil => simp; rfl
  | cons a s ih =>
    rw [Py.run_forM_cons]
    by_cases ha : a ∈ vs
    · have : (do let vs ← get; if a ∉ vs then throw .valueError : Py (List PVar) Unit).run vs = .ok () vs := by
        rw [Py.run_bind, Py.run_get]
        simp only [ha, not_true_eq_false, if_false]
        rfl
      rw [this]
      simp only [ih, List.mem_cons, forall_eq_or_imp, ha, true_and]
    · have : (do let vs ← get; if a ∉ vs then throw .valueError : Py (List PVar) Unit).run vs =
          .error .valueError vs := by
        rw [Py.run_bind, Py.run_get]
        simp only [ha, not_false_eq_true, if_true]
        rfl
      rw [this, if_neg]
      intro h
      exact ha (h a (by simp))

theorem removeVariable_run (a : PyVars) (vs : List PVar) : (removeVariable a).run vs =
    match checkVarsToSet a with
    | .ok s => if ∀ v ∈ s, v ∈ vs then .ok () (sdiff vs s) else .error .valueError vs
    | .error e => .error e vs := by
  unfold removeVariable
  rw [Py.run_bind]
  cases checkVarsToSet a with
  | error e => rfl
  | ok s =>
    have : (liftE (.ok s) : Py (List PVar) (List PVar)).run vs = .ok s vs := rfl
    rw [this]
    simp only
    rw [Py.run_bind, removeLoop]
    by_cases h : ∀ v ∈ s, v ∈ vs
    · simp only [if_pos h]
      rfl
    · simp only [if_neg h]

/-- **C34**, `add_variable`: union. An invalid argument raises `TypeError` and changes nothing. -/
theorem C34_add (a : PyVars) (vs : List PVar) (hn : vs.Nodup) :
    (a.Valid → ∃ vs', (addVariable a).run vs = .ok () vs' ∧ vs'.Nodup ∧ ∀ v, v ∈ vs' ↔ v ∈ vs ∨ a.Has v) ∧
    (¬ a.Valid → (addVariable a).run vs = .error .typeError vs) := by
  rw [addVariable_run]
  constructor
  · intro h
    obtain ⟨s, hs, _, hm⟩ := (checkVarsToSet_spec a).1 h
    rw [hs]
    exact ⟨_, rfl, nodup_sunion hn, fun v => by rw [mem_sunion, hm]⟩
  · intro h
    rw [(checkVarsToSet_spec a).2 h]

/-- **C34**, `remove_variable`: difference. Removing an absent variable raises `ValueError` and
changes nothing. -/
theorem C34_remove (a : PyVars) (vs : List PVar) (hn : vs.Nodup) :
    (a.Valid → (∀ v, a.Has v → v ∈ vs) →
      ∃ vs', (removeVariable a).run vs = .ok () vs' ∧ vs'.Nodup ∧ ∀ v, v ∈ vs' ↔ v ∈ vs ∧ ¬ a.Has v) ∧
    (a.Valid → ¬ (∀ v, a.Has v → v ∈ vs) → (removeVariable a).run vs = .error .valueError vs) ∧
    (¬ a.Valid → (removeVariable a).run vs = .error .typeError vs) := by
  rw [removeVariable_run]
  refine ⟨fun h hsub => ?_, fun h hsub => ?_, fun h => ?_⟩
  · obtain ⟨s, hs, _, hm⟩ := (checkVarsToSet_spec a).1 h
    simp only [hs]
    rw [if_pos (fun v hv => hsub v ((hm v).mp hv))]
    refine ⟨_, rfl, hn.filter _, fun v => ?_⟩
    unfold sdiff
    rw [List.mem_filter]
    simp [hm]
  · obtain ⟨s, hs, _, hm⟩ := (checkVarsToSet_spec a).1 h
    simp only [hs]
    rw [if_neg (fun hh => hsub fun v hv => hh v ((hm v).mpr hv))]
  · rw [(checkVarsToSet_spec a).2 h]

/-- The state after a history of calls, whether they return or raise. -/
def runOps (vs : List PVar) (ops : List SetOp) : List PVar := ops.foldl (fun vs op => (op.run.run vs).state) vs

/-- **C34**, histories: the variable set is at any time the set that the calls describe. -/
theorem C34_history (ops : List SetOp) (vs : List PVar) (hn : vs.Nodup) :
    (runOps vs ops).Nodup ∧ ∃ S, SetOps ops (· ∈ vs) S ∧ ∀ v, v ∈ runOps vs ops ↔ S v := by
  induction ops generalizing vs with
  | nil => exact ⟨hn, _, .nil _, fun v => Iff.rfl⟩
  | cons op ops ih =>
    have hstep : ∃ vs', (op.run.run vs).state = vs' ∧ vs'.Nodup ∧ op.Means (· ∈ vs) (· ∈ vs') := by
      cases op with
      | add a =>
        by_cases h : a.Valid
        · obtain ⟨vs', hr, hn', hm⟩ := (C34_add a vs hn).1 h
          refine ⟨vs', by simp only [SetOp.run, hr, Res.state], hn', ?_⟩
          have : (· ∈ vs') = fun v => v ∈ vs ∨ a.Has v := funext fun v => propext (hm v)
          rw [this]
          exact .add a _ h
        · refine ⟨vs, by simp only [SetOp.run, (C34_add a vs hn).2 h, Res.state], hn, .addBad a _ h⟩
      | remove a =>
        by_cases h : a.Valid
        · by_cases hs : ∀ v, a.Has v → v ∈ vs
          · obtain ⟨vs', hr, hn', hm⟩ := (C34_remove a vs hn).1 h hs
            refine ⟨vs', by simp only [SetOp.run, hr, Res.state], hn', ?_⟩
            have : (· ∈ vs') = fun v => v ∈ vs ∧ ¬ a.Has v := funext fun v => propext (hm v)
            rw [this]
            exact .remove a _ h hs
          · refine ⟨vs, by simp only [SetOp.run, (C34_remove a vs hn).2.1 h hs, Res.state], hn, .removeBad a _ ?_⟩
            exact fun hh => hs hh.2
        · refine ⟨vs, by simp only [SetOp.run, (C34_remove a vs hn).2.2 h, Res.state], hn, .removeBad a _ ?_⟩
          exact fun hh => h hh.1
    obtain ⟨vs', hr, hn', hmeans⟩ := hstep
    obtain ⟨h1, S, h2, h3⟩ := ih vs' hn'
    have : runOps vs (op :: ops) = runOps vs' ops := by
      unfold runOps
      rw [List.foldl_cons, hr]
    rw [this]
    exact ⟨h1, S, .cons _ _ _ _ _ hmeans h2, h3⟩

/-- **C34**, duplicates: two arguments with the same variables have the same effect on the set, and
adding variables that are present changes nothing. -/
theorem C34_duplicates (a : PyVars) (vs : List PVar) (ha : a.Valid) (h : ∀ v, a.Has v → v ∈ vs) :
    (addVariable a).run vs = .ok () vs := by
  rw [addVariable_run]
  obtain ⟨s, hs, _, hm⟩ := (checkVarsToSet_spec a).1 ha
  rw [hs]
  have : ∀ s : List PVar, (∀ v ∈ s, v ∈ vs) → sunion vs s = vs := by
    intro s
    unfold sunion
    induction s with
    | nil => intro _; rfl
    | cons x s ih =>
      intro hx
      have hxs : sadd vs x = vs := by unfold sadd; rw [if_pos (hx x (by simp))]
      rw [List.foldl_cons, hxs]
      exact ih fun v hv => hx v (by simp [hv])
  simp only [this s fun v hv => h v ((hm v).mp hv)]

example : ∃ vs', (addVariable (.list [some Ex.b1, some Ex.b2, some Ex.b1])).run [Ex.b0] = .ok () vs' ∧
    vs' = [Ex.b0, Ex.b1, Ex.b2] := ⟨_, rfl, by decide⟩
example : (removeVariable (.list [some Ex.b0, some Ex.b2])).run [Ex.b0, Ex.b1] = .error .valueError [Ex.b0, Ex.b1] := by
  decide
example : PyVars.Valid (.list [some Ex.b1, some Ex.b2, some Ex.b1]) := ⟨by decide, by decide⟩

end Sawatabi.Props
