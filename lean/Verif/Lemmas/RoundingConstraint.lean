import Verif.Model.RoundingConstraint
import Verif.Spec.RoundingConstraint
import Verif.Lemmas.RoundingPhysical
import Verif.Lemmas.Absorb

/-!
# Lemmas about constraints in floating point
-/

namespace Sawatabi

variable {round : ℚ → ℚ} {ph : List (String × ℚ)} {u : ℚ}

/-! ## The models of constraints -/

/-- An interaction with its coefficient rounded. -/
def Item.rounded (round : ℚ → ℚ) : Item → Item
  | .lin v c => .lin v (round c)
  | .pair v w c => .pair v w (round c)

/-- The interactions of a constraint's model in floats. -/
def Constraint.itemsR (round : ℚ → ℚ) (c : Constraint) : List Item := c.items.map (Item.rounded round)

theorem pairItems_rounded (c : ℚ) (vars : List PVar) (v : PVar) :
    (pairItems c vars v).map (Item.rounded round) = pairItems (round c) vars v := by
  unfold pairItems
  rw [List.map_map]
  rfl

theorem pairItems_forMR (now : ℚ) (label : String) (s : ℚ) (vars : List PVar) (v : PVar) :
    (pairItems (round (-2 * s)) vars v).forM (Item.add now label) = addPairsFromR round now label s vars v := by
  unfold pairItems addPairsFromR
  rw [Py.forM_map, Py.forM_filter]
  rfl

theorem pairItems_mapR (s : ℚ) (vars vs : List PVar) : (vs.flatMap (pairItems (-2 * s) vars)).map (Item.rounded round) =
    vs.flatMap (pairItems (round (-2 * s)) vars) := by
  rw [List.map_flatMap]
  congr 1
  funext v
  exact pairItems_rounded _ _ _

theorem Constraint.bodyR_eq (now : ℚ) (c : Constraint) : c.bodyR round now = (c.itemsR round).forM (Item.add now c.label) := by
  unfold Constraint.itemsR
  cases c with
  | nHot l s vs n =>
    simp only [Constraint.bodyR, Constraint.items, nHotBodyR, Constraint.label]
    rw [List.map_flatMap, Py.forM_flatMap]
    apply Py.forM_congr
    intro v
    apply Py.ext_run
    intro t
    rw [List.map_cons, pairItems_rounded, Py.run_forM_cons, Py.run_bind, pairItems_forMR]
    simp only [Item.add, Item.rounded]
    cases (addLin now l v (round (-1 * s * (1 - 2 * n)))).run t <;> rfl
  | zeroOrOneHot l s vs =>
    simp only [Constraint.bodyR, Constraint.items, zeroOrOneHotBodyR, Constraint.label]
    rw [pairItems_mapR, Py.forM_flatMap]
    exact Py.forM_congr (fun v => (pairItems_forMR _ _ _ _ _).symm) _
  | equality l s v1 v2 =>
    simp only [Constraint.bodyR, Constraint.items, equalityBodyR, Constraint.label]
    apply Py.ext_run
    intro t
    have h1 : ∀ vs : List PVar, (vs.flatMap (pairItems (round (-2 * s)) vs)).forM (Item.add now l) =
        vs.forM fun v => addPairsFromR round now l s vs v := by
      intro vs
      rw [Py.forM_flatMap]
      exact Py.forM_congr (fun v => pairItems_forMR _ _ _ _ _) _
    have h2 : ((v1.flatMap fun v => v2.map fun w => Item.pair v w (2 * s)).map (Item.rounded round)).forM (Item.add now l) =
        v1.forM fun v => v2.forM fun w => addPair now l v w (round (2 * s)) := by
      rw [List.map_flatMap, Py.forM_flatMap]
      apply Py.forM_congr
      intro v
      rw [List.map_map, Py.forM_map]
      rfl
    have h3 : (((sunion v1 v2).map fun v => Item.lin v (-1 * s)).map (Item.rounded round)).forM (Item.add now l) =
        (sunion v1 v2).forM fun v => addLin now l v (round (-1 * s)) := by
      rw [List.map_map, Py.forM_map]
      rfl
    rw [List.append_assoc, List.append_assoc, List.map_append, List.map_append, List.map_append, pairItems_mapR,
      pairItems_mapR, Py.forM_append, h3]
    simp only [Py.run_bind]
    cases ((sunion v1 v2).forM fun v => addLin now l v (round (-1 * s))).run t with
    | error e t => rfl
    | ok u t =>
      simp only
      rw [Py.forM_append, h1]
      simp only [Py.run_bind]
      cases (v1.forM fun v => addPairsFromR round now l s v1 v).run t with
      | error e t => rfl
      | ok u t =>
        simp only
        rw [Py.forM_append, h1, h2]
        simp only [Py.run_bind]

theorem Item.rounded_name (label : String) (it : Item) : (it.rounded round).name label = it.name label := by
  cases it <;> rfl

theorem Item.rounded_proper (it : Item) : (it.rounded round).Proper ↔ it.Proper := by
  cases it <;> exact Iff.rfl

/-- The model of a constraint in floats. -/
theorem Constraint.toModelR_run (now : ℚ) (id : String) (c : Constraint) :
    (c.Good → c.toModelR round now id = .ok (plain .qubo id ((c.itemsR round).map (Item.row now c.label)))) ∧
    (¬ c.Good → c.toModelR round now id = .error .valueError) := by
  have h := Item.loop_run now c.label (c.itemsR round) .qubo id [] (by simp)
  simp only [List.map_nil, List.nil_append] at h
  have hgood : ((c.itemsR round).map (·.name c.label)).Nodup ∧ (∀ it ∈ c.itemsR round, it.Proper) ↔ c.Good := by
    unfold Constraint.itemsR Constraint.Good
    rw [List.map_map]
    have e : ((fun x : Item => x.name c.label) ∘ Item.rounded round) = fun x => x.name c.label :=
      funext fun it => Item.rounded_name _ it
    rw [e]
    simp only [List.forall_mem_map, Item.rounded_proper]
  rw [hgood] at h
  unfold Constraint.toModelR
  rw [Constraint.bodyR_eq, ← plain_nil]
  constructor
  · intro hg
    rw [h.1 hg]
  · intro hg
    obtain ⟨m', hm'⟩ := h.2 hg
    rw [hm']

theorem plain_bare (id : String) (rows : List Row) : Bare (plain .qubo id rows) := ⟨rfl, rfl, rfl, rfl⟩

/-! ## The constraint loop -/

theorem mergeConstraintR_run (env : Env) (clks : Nat → Nat → ℚ) (ids : Nat → String)
    (p : (String × Constraint) × Nat) (m : LModel) :
    (mergeConstraintR round env clks ids p).run m = match p.1.2.toModelR round (clks p.2 0) (ids p.2) with
      | .error e => .error e m
      | .ok cm => match (merge env (clks p.2)).run (m, cm) with
        | .ok _ t => .ok () t.1
        | .error e t => .error e t.1 := by
  unfold mergeConstraintR
  rw [Py.run_bind]
  cases p.1.2.toModelR round (clks p.2 0) (ids p.2) <;> rfl

/-- The two models differ in the coefficients of their interactions only. -/
structure SameShape (a b : LModel) : Prop where
  same : b = { a with rows := b.rows }
  rows : b.rows.map (fun r => { r with coef := .num 0 }) = a.rows.map fun r => { r with coef := .num 0 }

theorem SameShape.refl (a : LModel) : SameShape a a := ⟨rfl, rfl⟩

theorem SameShape.names {a b : LModel} (h : SameShape a b) : b.names = a.names := by
  have := congrArg (List.map Row.name) h.rows
  simpa [LModel.names, Function.comp_def] using this

theorem SameShape.length {a b : LModel} (h : SameShape a b) : b.rows.length = a.rows.length := by
  simpa using congrArg List.length h.rows

/-- The coefficient left out. -/
def Row.blank (r : Row) : Row := { r with coef := .num 0 }

theorem SameShape.hasName {a b : LModel} (h : SameShape a b) (n : String) : b.hasName n = a.hasName n := by
  rw [Bool.eq_iff_iff, hasName_iff, hasName_iff]
  exact (iff_of_eq (congrArg (n ∈ ·) h.names))

theorem mergedRows_blank {a b a' b' : LModel} (h : SameShape a b) (h' : SameShape a' b') :
    (mergedRows b b').map Row.blank = (mergedRows a a').map Row.blank := by
  have hd : ∀ n, dupName b b' n = dupName a a' n := fun n => by unfold dupName; rw [h.hasName, h'.hasName]
  have hl : b.length = a.length := by rw [h.same]
  have hi : b.id = a.id := by rw [h.same]
  have hi' : b'.id = a'.id := by rw [h'.same]
  have hr : (b.rows ++ b'.rows).map Row.blank = (a.rows ++ a'.rows).map Row.blank := by
    rw [List.map_append, List.map_append]
    exact congrArg₂ _ h.rows h'.rows
  unfold mergedRows
  simp only [hd, hl, hi, hi']
  generalize b.rows ++ b'.rows = x at hr
  generalize a.rows ++ a'.rows = y at hr
  generalize 0 = k
  induction x generalizing y k with
  | nil =>
    cases y with
    | nil => rfl
    | cons => cases hr
  | cons r x ih =>
    cases y with
    | nil => cases hr
    | cons t y =>
      simp only [List.map_cons, List.cons.injEq] at hr
      simp only [List.zipIdx_cons, List.map_cons, List.cons.injEq]
      refine ⟨?_, ih _ hr.2 _⟩
      have hn : r.blank.name = t.blank.name := by rw [hr.1]
      change r.name = t.name at hn
      rw [hn]
      split
      · obtain ⟨h1, -⟩ := hr
        obtain ⟨n, i, c, sc, ts, d, rm⟩ := r
        obtain ⟨n', i', c', sc', ts', d', rm'⟩ := t
        simp only [Row.blank, Row.mk.injEq, true_and] at h1 ⊢
        exact h1.2
      · exact hr.1

theorem mergedCol_shape {a b a' b' : LModel} (h : SameShape a b) (h' : SameShape a' b') : mergedCol b b' = mergedCol a a' := by
  rw [h.same, h'.same]
  rfl

theorem mergedAttrs_shape {a b a' b' : LModel} (h : SameShape a b) (h' : SameShape a' b') :
    mergedAttrs b b' = mergedAttrs a a' := by
  rw [h.same, h'.same]
  rfl

theorem plain_shape (now : ℚ) (id : String) (c : Constraint) :
    SameShape (plain .qubo id (c.items.map (Item.row now c.label))) (plain .qubo id ((c.itemsR round).map (Item.row now c.label))) where
  same := by simp [plain, LModel.new, Constraint.itemsR]
  rows := by
    simp only [plain, Constraint.itemsR, List.map_map]
    apply List.map_congr_left
    intro it _
    cases it <;> rfl

/-- The constraint loop of a QUBO model in floats does what it does exactly, up to coefficients. -/
theorem quboLoopR {env : Env} {clks : Nat → Nat → ℚ} {ids : Nat → String} (cs : List ((String × Constraint) × Nat))
    {a b : LModel} (hq : a.mtype = .qubo) (h : SameShape a b) :
    (∃ e a₁ b₁, (cs.forM (mergeConstraintR round env clks ids)).run b = .error e b₁ ∧
      (cs.forM (mergeConstraint env clks ids)).run a = .error e a₁ ∧ SameShape a₁ b₁) ∨
    ∃ a₁ b₁, (cs.forM (mergeConstraintR round env clks ids)).run b = .ok ⟨⟩ b₁ ∧
      (cs.forM (mergeConstraint env clks ids)).run a = .ok ⟨⟩ a₁ ∧ SameShape a₁ b₁ ∧ (∀ p ∈ cs, p.1.2.Good) ∧
      Absorbed b (cs.map fun p => plain .qubo (ids p.2) ((p.1.2.itemsR round).map (Item.row (clks p.2 0) p.1.2.label))) b₁ := by
  induction cs generalizing a b with
  | nil => exact .inr ⟨a, b, rfl, rfl, h, by simp, .refl _⟩
  | cons p cs ih =>
    rw [Py.run_forM_cons, Py.run_forM_cons, mergeConstraint_run, mergeConstraintR_run]
    by_cases hg : p.1.2.Good
    · rw [(Constraint.toModel_run _ _ _).1 hg, (Constraint.toModelR_run _ _ _).1 hg]
      simp only
      have hb := plain_bare (ids p.2) ((p.1.2.itemsR round).map (Item.row (clks p.2 0) p.1.2.label))
      have ha := plain_bare (ids p.2) (p.1.2.items.map (Item.row (clks p.2 0) p.1.2.label))
      have hs := plain_shape (round := round) (clks p.2 0) (ids p.2) p.1.2
      generalize hB : plain .qubo (ids p.2) ((p.1.2.itemsR round).map (Item.row (clks p.2 0) p.1.2.label)) = B at hb hs ⊢
      generalize plain .qubo (ids p.2) (p.1.2.items.map (Item.row (clks p.2 0) p.1.2.label)) = A at ha hs ⊢
      have hqB : B.mtype = .qubo := by rw [← hB]; rfl
      have hqA : A.mtype = .qubo := by rw [← hqB, hs.same]
      have hqb : b.mtype = .qubo := by rw [h.same]; exact hq
      have hmR : (merge env (clks p.2)).run (b, B) = mergeSame.run (b, B) := by rw [merge_run, if_pos (by rw [hqb, hqB])]
      have hm : (merge env (clks p.2)).run (a, A) = mergeSame.run (a, A) := by rw [merge_run, if_pos (by rw [hq, hqA])]
      have habs := fun s => mergeSame_absorbed (a := b) (s := s) hb
      rw [hm, hmR]
      simp only [mergeSame_bare_run hb] at habs ⊢
      rw [mergeSame_bare_run ha]
      simp only [mergedAttrs_shape h hs, mergedCol_shape h hs] at habs ⊢
      cases hcols : (mergedAttrs a A).mapM (mergedCol a A) with
      | error e => exact .inl ⟨e, a, b, rfl, rfl, h⟩
      | ok cols =>
        rw [hcols] at habs
        simp only at habs ⊢
        have hshape : SameShape { mergedTable a A cols with offset := a.offset.add A.offset }
            { mergedTable b B cols with offset := b.offset.add B.offset } := by
          refine ⟨?_, mergedRows_blank h hs⟩
          have e1 := mergedAttrs_shape h hs
          clear * - h hs e1
          obtain ⟨R, rfl⟩ : ∃ R, b = { a with rows := R } := ⟨_, h.same⟩
          obtain ⟨R', rfl⟩ : ∃ R, B = { A with rows := R } := ⟨_, hs.same⟩
          rfl
        rcases ih (a := { mergedTable a A cols with offset := a.offset.add A.offset })
            (b := { mergedTable b B cols with offset := b.offset.add B.offset }) hq hshape with
          ⟨e, a₁, b₁, h1, h2, h3⟩ | ⟨a₁, b₁, h1, h2, h3, h4, h5⟩
        · exact .inl ⟨e, a₁, b₁, h1, h2, h3⟩
        · refine .inr ⟨a₁, b₁, h1, h2, h3, ?_, ?_⟩
          · intro p' hp'
            rcases List.mem_cons.mp hp' with rfl | hp'
            · exact hg
            · exact h4 p' hp'
          · rw [List.map_cons, hB]
            exact (habs _ rfl).cons h5
    · rw [(Constraint.toModel_run _ _ _).2 hg, (Constraint.toModelR_run _ _ _).2 hg]
      exact .inl ⟨_, a, b, rfl, rfl, h⟩

/-! ## `to_physical` -/

theorem toPhysicalRC_run (env : Env) (clks : Nat → Nat → ℚ) (ids : Nat → String) (m : LModel) :
    (toPhysicalRC round env clks ids ph).run m =
      match (m.constraints.zipIdx.forM (mergeConstraintR round env clks ids)).run m with
      | .error e m₁ => .error e m₁
      | .ok _ m₁ =>
        match groupR round ph m₁ with
        | .error e => .error e m₁
        | .ok g =>
          match m₁.offset.toExpr.resolveR round ph with
          | .error e => .error e m₁
          | .ok off =>
            match (g.willRemove.forM popRow).run (restored m m₁) with
            | .error e m₂ => .error e m₂
            | .ok _ m₂ => .ok (buildPhysical m₁ g off) (markClean m₂) := by
  unfold toPhysicalRC
  py_simp
  cases (m.constraints.zipIdx.forM (mergeConstraintR round env clks ids)).run m with
  | error e m₁ => rfl
  | ok u m₁ =>
    simp only
    cases groupR round ph m₁ with
    | error e => rfl
    | ok g =>
      simp only [Py.run_liftE_ok]
      cases m₁.offset.toExpr.resolveR round ph with
      | error e => rfl
      | ok off =>
        simp only [Py.run_liftE_ok]
        unfold restored
        cases (g.willRemove.forM popRow).run _ with
        | error e m₂ => rfl
        | ok u m₂ => rfl

/-- The interactions of the constraints. -/
def LModel.penaltyRows (round : ℚ → ℚ) (m : LModel) : List Row :=
  m.constraints.flatMap fun c => (c.2.itemsR round).map (Item.row 0 c.2.label)

/-- A model without constraints that has the interactions of a model and of its constraints. -/
def LModel.flat (round : ℚ → ℚ) (m : LModel) : LModel :=
  { m with rows := m.active ++ m.penaltyRows round, length := (m.active ++ m.penaltyRows round).length,
           attrCols := [], attrs := [], constraints := [] }

theorem flat_rect (m : LModel) : (m.flat round).Rect := ⟨rfl, rfl, List.nodup_nil, by simp [LModel.flat]⟩

theorem penaltyRows_active {m : LModel} : ∀ r ∈ m.penaltyRows round, r.removed = false := by
  intro r hr
  obtain ⟨c, _, hr⟩ := List.mem_flatMap.mp hr
  obtain ⟨it, _, rfl⟩ := List.mem_map.mp hr
  rfl

theorem flat_active (m : LModel) : (m.flat round).active = m.active ++ m.penaltyRows round := by
  show (m.active ++ m.penaltyRows round).filter _ = _
  rw [List.filter_append]
  congr 1
  · unfold LModel.active
    rw [List.filter_filter]
    simp
  · rw [List.filter_eq_self]
    intro r hr
    simp [penaltyRows_active r hr]

theorem Item.row_plain (now : ℚ) (label : String) (it : Item) :
    ∃ a b, (it.row now label).coef = .num a ∧ (it.row now label).scale = .num b := by
  cases it <;> exact ⟨_, _, rfl, rfl⟩

theorem flat_plain {m : LModel} (h : m.Plain) : (m.flat round).Plain := by
  refine ⟨h.1, fun r hr => ?_⟩
  rw [flat_active] at hr
  rcases List.mem_append.mp hr with hr | hr
  · exact h.2 r hr
  · obtain ⟨c, _, hr⟩ := List.mem_flatMap.mp hr
    obtain ⟨it, _, rfl⟩ := List.mem_map.mp hr
    exact Item.row_plain _ _ it

theorem flat_ordered {m : LModel} (h : AllOrdered m.rows) (hg : ∀ c ∈ m.constraints, c.2.Good) :
    AllOrdered (m.flat round).rows := by
  intro r hr
  rcases List.mem_append.mp hr with hr | hr
  · exact h r (List.mem_filter.mp hr).1
  · obtain ⟨c, hc, hr⟩ := List.mem_flatMap.mp hr
    obtain ⟨it, hit, rfl⟩ := List.mem_map.mp hr
    obtain ⟨it', hit', rfl⟩ := List.mem_map.mp hit
    have hp := (hg c hc).2 it' hit'
    clear hit hr
    rename' it' => it
    cases it with
    | lin v q => trivial
    | pair v w q =>
      simp only [Item.row, Item.rounded]
      by_cases h : v.label < w.label
      · simpa [h, Inter.Ordered] using h
      · simp only [h, if_false, Inter.Ordered]
        exact lt_of_le_of_ne (not_lt.mp h) (Ne.symm hp)

theorem weight_core (r : Row) : r.core.weight = r.weight := by
  obtain ⟨_, _, c, s, _, _, _⟩ := r
  cases c <;> cases s <;> rfl

theorem linPairs_core (rows : List Row) : linPairs (rows.map Row.core) = linPairs rows := by
  unfold linPairs
  rw [List.filterMap_map]
  congr 1
  funext r
  simp only [Function.comp, weight_core]
  rfl

theorem quadPairs_core (rows : List Row) : quadPairs (rows.map Row.core) = quadPairs rows := by
  unfold quadPairs
  rw [List.filterMap_map]
  congr 1
  funext r
  simp only [Function.comp, weight_core]
  rfl

theorem linPairs_active (rows : List Row) : linPairs (rows.filter fun r => !r.removed) = linPairs rows := by
  unfold linPairs
  induction rows with
  | nil => rfl
  | cons r rows ih =>
    by_cases h : r.removed = true
    · rw [List.filter_cons_of_neg (by simp [h]), ih, List.filterMap_cons_none (by simp [h])]
    · rw [List.filter_cons_of_pos (by simp [h]), List.filterMap_cons, List.filterMap_cons, ih]

theorem quadPairs_active (rows : List Row) : quadPairs (rows.filter fun r => !r.removed) = quadPairs rows := by
  unfold quadPairs
  induction rows with
  | nil => rfl
  | cons r rows ih =>
    by_cases h : r.removed = true
    · rw [List.filter_cons_of_neg (by simp [h]), ih, List.filterMap_cons_none (by simp [h])]
    · rw [List.filter_cons_of_pos (by simp [h]), List.filterMap_cons, List.filterMap_cons, ih]

theorem linPairs_append (a b : List Row) : linPairs (a ++ b) = linPairs a ++ linPairs b := List.filterMap_append
theorem quadPairs_append (a b : List Row) : quadPairs (a ++ b) = quadPairs a ++ quadPairs b := List.filterMap_append

/-- The models merged for the constraints of a QUBO model, in floats. -/
def LModel.penaltyModels (round : ℚ → ℚ) (clks : Nat → Nat → ℚ) (ids : Nat → String) (m : LModel) : List LModel :=
  m.constraints.zipIdx.map fun p => plain .qubo (ids p.2) ((p.1.2.itemsR round).map (Item.row (clks p.2 0) p.1.2.label))

theorem penaltyModels_cores (clks : Nat → Nat → ℚ) (ids : Nat → String) (m : LModel) :
    ((m.penaltyModels round clks ids).flatMap fun b => b.rows.map Row.core) = (m.penaltyRows round).map Row.core := by
  unfold LModel.penaltyModels LModel.penaltyRows
  rw [List.flatMap_map, List.map_flatMap]
  have key : ∀ (cs : List (String × Constraint)) (k : Nat), ((cs.zipIdx k).flatMap fun p => (plain .qubo (ids p.2)
      ((p.1.2.itemsR round).map (Item.row (clks p.2 0) p.1.2.label))).rows.map Row.core) =
      cs.flatMap fun c => ((c.2.itemsR round).map (Item.row 0 c.2.label)).map Row.core := by
    intro cs
    induction cs with
    | nil => intro k; rfl
    | cons c cs ih =>
      intro k
      rw [List.zipIdx_cons, List.flatMap_cons, List.flatMap_cons, ih]
      congr 1
      simp only [plain, List.map_map]
      apply List.map_congr_left
      intro it _
      exact (Item.core_row _ _ it).trans (Item.core_row _ _ it).symm
  exact key _ 0

theorem penaltyModels_bare (clks : Nat → Nat → ℚ) (ids : Nat → String) (m : LModel) :
    ∀ b ∈ m.penaltyModels round clks ids, b.offset = .num 0 ∧ b.length = b.rows.length ∧
      ∀ r ∈ b.rows, r.removed = false ∧ ∃ x y, r.coef = .num x ∧ r.scale = .num y := by
  intro b hb
  obtain ⟨p, _, rfl⟩ := List.mem_map.mp hb
  refine ⟨rfl, rfl, fun r hr => ?_⟩
  obtain ⟨it, _, rfl⟩ := List.mem_map.mp hr
  exact ⟨rfl, Item.row_plain _ _ it⟩

/-- The model after the constraint loop. -/
structure MergedR (round : ℚ → ℚ) (m b : LModel) : Prop where
  same : b = { m with rows := b.rows, attrCols := b.attrCols, attrs := b.attrs, length := b.length }
  len : b.length = b.rows.length
  plain : ∀ r ∈ b.rows, r.Plain
  lin : linPairs b.rows = linPairs (m.flat round).rows
  quad : quadPairs b.rows = quadPairs (m.flat round).rows

theorem Absorbed.mergedR {clks : Nat → Nat → ℚ} {ids : Nat → String} {m b : LModel} (hl : m.length = m.rows.length)
    (hpl : m.Plain) (h : Absorbed m (m.penaltyModels round clks ids) b) : MergedR round m b := by
  have hb := penaltyModels_bare (round := round) clks ids m
  have hc := h.cores
  rw [penaltyModels_cores] at hc
  have hoff : b.offset = m.offset := by
    rw [h.offset]
    obtain ⟨q, hq⟩ := hpl.1
    rw [hq]
    generalize m.penaltyModels round clks ids = bs at hb
    clear * - hb
    induction bs with
    | nil => rfl
    | cons x bs ih =>
      rw [List.foldl_cons, (hb x (by simp)).1]
      have : (Coef.num q).add (.num 0) = .num q := by simp [Coef.add]
      rw [this]
      exact ih fun y hy => hb y (by simp [hy])
  constructor
  · rw [← hoff]
    exact h.same
  · rw [h.length, hl]
    have h1 := congrArg List.length h.rows
    simp only [List.length_map, List.length_append] at h1
    rw [h1]
    push_cast
    congr 1
    generalize m.penaltyModels round clks ids = bs at hb
    clear * - hb
    induction bs with
    | nil => rfl
    | cons x bs ih =>
      simp only [List.map_cons, List.sum_cons, List.flatMap_cons, List.length_append]
      rw [ih fun y hy => hb y (by simp [hy]), (hb x (by simp)).2.1]
      push_cast
      rfl
  · intro r hr hrm
    have : r.core ∈ b.rows.map Row.core := List.mem_map_of_mem hr
    rw [hc] at this
    have key : ∀ r' : Row, r'.core = r.core → r'.removed = r.removed ∧ r'.coef = r.coef ∧ r'.scale = r.scale := by
      intro r' he
      simp only [Row.core, Row.mk.injEq, true_and] at he
      exact ⟨he.2.2.2, he.2.1, he.2.2.1⟩
    rcases List.mem_append.mp this with h1 | h1
    · obtain ⟨r', h2, h3⟩ := List.mem_map.mp h1
      obtain ⟨e1, e2, e3⟩ := key r' h3
      obtain ⟨x, y, e4, e5⟩ := hpl.rows r' h2 (by rw [e1, hrm])
      exact ⟨x, y, by rw [← e2, e4], by rw [← e3, e5]⟩
    · obtain ⟨r', h2, h3⟩ := List.mem_map.mp h1
      obtain ⟨e1, e2, e3⟩ := key r' h3
      obtain ⟨c, _, h2⟩ := List.mem_flatMap.mp h2
      obtain ⟨it, _, rfl⟩ := List.mem_map.mp h2
      obtain ⟨x, y, e4, e5⟩ := Item.row_plain 0 c.2.label it
      exact ⟨x, y, by rw [← e2, e4], by rw [← e3, e5]⟩
  · rw [← linPairs_core, hc, linPairs_append, linPairs_core, linPairs_core]
    show _ = linPairs (m.active ++ m.penaltyRows round)
    rw [linPairs_append]
    congr 1
    exact (linPairs_active _).symm
  · rw [← quadPairs_core, hc, quadPairs_append, quadPairs_core, quadPairs_core]
    show _ = quadPairs (m.active ++ m.penaltyRows round)
    rw [quadPairs_append]
    congr 1
    exact (quadPairs_active _).symm

end Sawatabi
