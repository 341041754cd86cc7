import Verif.Lemmas.Conv
import Mathlib.Tactic.LinearCombination

/-!
# Lemmas about the models of constraints
-/

namespace Sawatabi

/-! ## Adding a list of interactions to an empty model -/

/-- One interaction of a constraint's model. -/
inductive Item where
  | lin (v : PVar) (c : ℚ)
  | pair (v w : PVar) (c : ℚ)
  deriving DecidableEq, Repr

/-- The call that adds it. -/
def Item.add (now : ℚ) (label : String) : Item → Py LModel Unit
  | .lin v c => addLin now label v c
  | .pair v w c => addPair now label v w c

/-- Its name. -/
def Item.name (label : String) : Item → String
  | .lin v _ => v.label ++ " (" ++ label ++ ")"
  | .pair v w _ => v.label ++ "*" ++ w.label ++ " (" ++ label ++ ")"

/-- It has two different variables, or one. -/
def Item.Proper : Item → Prop
  | .lin _ _ => True
  | .pair v w _ => v.label ≠ w.label

instance : DecidablePred Item.Proper := fun i => by cases i <;> (unfold Item.Proper; infer_instance)

/-- The stored row. -/
def Item.row (now : ℚ) (label : String) (it : Item) : Row where
  name := it.name label
  inter := match it with
    | .lin v _ => .lin v
    | .pair v w _ => if v.label < w.label then .quad v w else .quad w v
  coef := match it with
    | .lin _ c => .num c
    | .pair _ _ c => .num c
  scale := .num 1
  timestamp := some now
  dirty := true
  removed := false

/-- What it contributes (before the sign). -/
def Item.term (σ : Assign) : Item → ℚ
  | .lin v c => c * σ v.label
  | .pair v w c => c * (σ v.label * σ w.label)

/-- A model without variables, attributes or offset. -/
def plain (mt : MType) (id : String) (rows : List Row) : LModel :=
  { LModel.new mt id with rows := rows, length := rows.length }

theorem plain_nil (mt : MType) (id : String) : plain mt id [] = LModel.new mt id := rfl

theorem Item.name_ne (label : String) (it : Item) : it.name label ≠ "" := by
  intro h
  have := congrArg String.length h
  cases it <;> simp [Item.name, String.length_append] at this

theorem addTail_plain (mt : MType) (id : String) (rows : List Row) (r : Row) :
    (addTail r []).run (plain mt id rows) = .ok ⟨⟩ (plain mt id (rows ++ [r])) := by
  unfold addTail
  rw [Py.run_bind, Py.run_modify]
  simp only
  rw [Py.run_bind, Py.run_get]
  simp only [plain, LModel.new]
  rw [Py.run_bind, Py.run_forM_nil]
  simp only
  rw [Py.run_bind, Py.run_forM_nil]
  simp only
  rw [Py.run_modify]
  simp

theorem Item.add_run (now : ℚ) (label : String) (it : Item) (mt : MType) (id : String) (rows : List Row) :
    (it.add now label).run (plain mt id rows) =
      if it.name label ∈ rows.map (·.name) ∨ ¬ it.Proper then .error .valueError (plain mt id rows)
      else .ok ⟨⟩ (plain mt id (rows ++ [it.row now label])) := by
  have hchk : ∀ (t : PyTarget) (c : ℚ),
      addChecks now (plain mt id rows) t (.str (it.name label)) (.num c) (.num 1) .none .none =
        if !t.truthy then .error .valueError else
        match getInfo t with
        | .error e => .error e
        | .ok i => if it.name label ∈ rows.map (·.name) then .error .valueError
          else .ok (⟨it.name label, i, .num c, .num 1, some now, true, false⟩, []) := by
    intro t c
    unfold addChecks
    split
    · rfl
    · simp only [checkCoef, addAttrs, addTs]
      cases getInfo t with
      | error e => rfl
      | ok i =>
        have hn : addName (.str (it.name label)) i = .ok (it.name label) := by
          simp [addName, PyName.truthy, Item.name_ne]
        simp only [hn]
        by_cases h : it.name label ∈ rows.map (·.name)
        · have : (plain mt id rows).hasName (it.name label) = true := (hasName_iff _ _).mpr h
          simp [this, h]
        · have : (plain mt id rows).hasName (it.name label) = false := by
            rw [Bool.eq_false_iff]
            exact fun hc => h ((hasName_iff _ _).mp hc)
          simp only [this, Bool.false_eq_true, if_false, if_neg h]
  cases it with
  | lin v c =>
    simp only [Item.add, addLin]
    rw [addInteraction_run]
    have := hchk (.var v) c
    simp only [Item.name] at this
    rw [this]
    simp only [PyTarget.truthy, getInfo, Bool.not_true, Bool.false_eq_true, if_false, Item.Proper, not_true_eq_false,
      or_false, Item.name]
    by_cases hm : v.label ++ " (" ++ label ++ ")" ∈ rows.map (·.name)
    · simp only [hm, if_true]
    · simp only [hm, if_false, addTail_plain]
      rfl
  | pair v w c =>
    simp only [Item.add, addPair]
    rw [addInteraction_run]
    have := hchk (.tuple [some v, some w]) c
    simp only [Item.name] at this
    rw [this]
    have htr : (PyTarget.tuple [some v, some w]).truthy = true := rfl
    by_cases hvw : v.label = w.label
    · have hi : getInfo (.tuple [some v, some w]) = .error .valueError := by simp [getInfo, hvw]
      simp only [hi, htr, Bool.not_true, Bool.false_eq_true, if_false, Item.Proper, hvw, ne_eq,
        not_true_eq_false, not_false_eq_true, or_true, if_true]
    · have hi : getInfo (.tuple [some v, some w]) = .ok (if v.label < w.label then .quad v w else .quad w v) := by
        simp only [getInfo, hvw, if_false]
        split <;> rfl
      simp only [hi, htr, Bool.not_true, Bool.false_eq_true, if_false, Item.Proper, Item.name, hvw, ne_eq,
        not_true_eq_false, not_false_eq_true, or_false]
      by_cases hm : v.label ++ "*" ++ w.label ++ " (" ++ label ++ ")" ∈ rows.map (·.name)
      · simp only [hm, if_true]
      · simp only [hm, if_false, addTail_plain]
        rfl

/-- Adding the items one after the other. -/
theorem Item.loop_run (now : ℚ) (label : String) (its : List Item) (mt : MType) (id : String) (rows : List Row)
    (hu : (rows.map (·.name)).Nodup) :
    ((rows.map (·.name) ++ its.map (·.name label)).Nodup ∧ (∀ it ∈ its, it.Proper) →
      (its.forM (Item.add now label)).run (plain mt id rows) =
        .ok ⟨⟩ (plain mt id (rows ++ its.map (Item.row now label)))) ∧
    (¬ ((rows.map (·.name) ++ its.map (·.name label)).Nodup ∧ ∀ it ∈ its, it.Proper) →
      ∃ m', (its.forM (Item.add now label)).run (plain mt id rows) = .error .valueError m') := by
  induction its generalizing rows with
  | nil =>
    constructor
    · intro _
      rw [Py.run_forM_nil, List.map_nil, List.append_nil]
    · intro h
      simp [hu] at h
  | cons it its ih =>
    have hrow : (it.row now label).name = it.name label := rfl
    rw [Py.run_forM_cons, Item.add_run]
    by_cases hbad : it.name label ∈ rows.map (·.name) ∨ ¬ it.Proper
    · rw [if_pos hbad]
      constructor
      · rintro ⟨h1, h2⟩
        exfalso
        rcases hbad with h | h
        · exact (List.nodup_append.mp h1).2.2 _ h _ (by simp) rfl
        · exact h (h2 it (by simp))
      · intro _
        exact ⟨_, rfl⟩
    · rw [if_neg hbad]
      rw [not_or, not_not] at hbad
      simp only
      have hu' : ((rows ++ [it.row now label]).map (·.name)).Nodup := by
        rw [List.map_append, List.nodup_append]
        refine ⟨hu, by simp, ?_⟩
        rintro a ha b hb rfl
        simp only [List.map_cons, List.map_nil, List.mem_singleton, hrow] at hb
        exact hbad.1 (hb ▸ ha)
      have ih := ih (rows ++ [it.row now label]) hu'
      have heq : (rows ++ [it.row now label]).map (·.name) ++ its.map (·.name label) =
          rows.map (·.name) ++ (it :: its).map (·.name label) := by
        simp [hrow]
      have heq2 : rows ++ [it.row now label] ++ its.map (Item.row now label) =
          rows ++ (it :: its).map (Item.row now label) := by simp
      rw [heq, heq2] at ih
      constructor
      · rintro ⟨h1, h2⟩
        exact ih.1 ⟨h1, fun x hx => h2 x (by simp [hx])⟩
      · intro h
        apply ih.2
        rintro ⟨h1, h2⟩
        apply h
        refine ⟨h1, ?_⟩
        intro x hx
        rcases List.mem_cons.mp hx with rfl | hx
        · exact hbad.2
        · exact h2 x hx

/-! ## The items of the constraints -/

/-- The pairs of a list with increasing labels. -/
def pairItems (c : ℚ) (vars : List PVar) (v : PVar) : List Item :=
  (vars.filter fun w => v.label < w.label).map fun w => .pair v w c

/-- The interactions of a constraint's model. -/
def Constraint.items : Constraint → List Item
  | .nHot _ s vs n => vs.flatMap fun v => .lin v (-1 * s * (1 - 2 * n)) :: pairItems (-2 * s) vs v
  | .zeroOrOneHot _ s vs => vs.flatMap (pairItems (-2 * s) vs)
  | .equality _ s v1 v2 => (sunion v1 v2).map (fun v => .lin v (-1 * s)) ++ v1.flatMap (pairItems (-2 * s) v1) ++
      v2.flatMap (pairItems (-2 * s) v2) ++ v1.flatMap fun v => v2.map fun w => .pair v w (2 * s)

theorem Py.forM_append {σ α : Type} (f : α → Py σ Unit) (l₁ l₂ : List α) (s : σ) :
    ((l₁ ++ l₂).forM f).run s = (do l₁.forM f; l₂.forM f : Py σ Unit).run s := by
  rw [Py.run_bind]
  induction l₁ generalizing s with
  | nil => rfl
  | cons a l ih =>
    rw [List.cons_append, Py.run_forM_cons, Py.run_forM_cons]
    cases (f a).run s with
    | ok u t => exact ih t
    | error e t => rfl

theorem Py.ext_run {σ α : Type} {x y : Py σ α} (h : ∀ s, x.run s = y.run s) : x = y := by
  cases x; cases y
  congr
  funext s
  exact h s

theorem Py.forM_flatMap {σ α β : Type} (f : β → Py σ Unit) (g : α → List β) (l : List α) :
    (l.flatMap g).forM f = l.forM fun a => (g a).forM f := by
  apply Py.ext_run
  induction l with
  | nil => intro s; rfl
  | cons a l ih =>
    intro s
    rw [List.flatMap_cons, Py.forM_append, Py.run_bind, Py.run_forM_cons]
    cases ((g a).forM f).run s with
    | ok u t => exact ih t
    | error e t => rfl

theorem Py.forM_map {σ α β : Type} (f : β → Py σ Unit) (g : α → β) (l : List α) :
    (l.map g).forM f = l.forM fun a => f (g a) := by
  apply Py.ext_run
  induction l with
  | nil => intro s; rfl
  | cons a l ih =>
    intro s
    rw [List.map_cons, Py.run_forM_cons, Py.run_forM_cons]
    cases (f (g a)).run s with
    | ok u t => exact ih t
    | error e t => rfl

theorem Py.forM_filter {σ α : Type} (f : α → Py σ Unit) (P : α → Prop) [DecidablePred P] (l : List α) :
    (l.filter (fun a => decide (P a))).forM f = l.forM (fun a => do if P a then f a) := by
  apply Py.ext_run
  induction l with
  | nil => intro s; rfl
  | cons a l ih =>
    intro s
    rw [Py.run_forM_cons, List.filter_cons]
    by_cases h : P a
    · simp only [h, decide_true, if_true]
      rw [Py.run_forM_cons]
      cases (f a).run s with
      | ok u t => exact ih t
      | error e t => rfl
    · simp only [h, decide_false, Bool.false_eq_true, if_false]
      exact ih s

theorem Py.forM_congr {σ α : Type} {f g : α → Py σ Unit} (h : ∀ a, f a = g a) (l : List α) : l.forM f = l.forM g := by
  have : f = g := funext h
  rw [this]

theorem pairItems_forM (now : ℚ) (label : String) (s : ℚ) (vars : List PVar) (v : PVar) :
    (pairItems (-2 * s) vars v).forM (Item.add now label) = addPairsFrom now label s vars v := by
  unfold pairItems addPairsFrom
  rw [Py.forM_map, Py.forM_filter]
  rfl

theorem Constraint.body_eq (now : ℚ) (c : Constraint) : c.body now = c.items.forM (Item.add now c.label) := by
  cases c with
  | nHot l s vs n =>
    simp only [Constraint.body, Constraint.items, nHotBody, Constraint.label]
    rw [Py.forM_flatMap]
    apply Py.forM_congr
    intro v
    apply Py.ext_run
    intro t
    rw [Py.run_forM_cons, Py.run_bind, pairItems_forM]
    simp only [Item.add]
    cases (addLin now l v (-1 * s * (1 - 2 * n))).run t <;> rfl
  | zeroOrOneHot l s vs =>
    simp only [Constraint.body, Constraint.items, zeroOrOneHotBody, Constraint.label]
    rw [Py.forM_flatMap]
    exact Py.forM_congr (fun v => (pairItems_forM _ _ _ _ _).symm) _
  | equality l s v1 v2 =>
    simp only [Constraint.body, Constraint.items, equalityBody, Constraint.label]
    apply Py.ext_run
    intro t
    have h1 : ∀ vs : List PVar, (vs.flatMap (pairItems (-2 * s) vs)).forM (Item.add now l) =
        vs.forM fun v => addPairsFrom now l s vs v := by
      intro vs
      rw [Py.forM_flatMap]
      exact Py.forM_congr (fun v => pairItems_forM _ _ _ _ _) _
    have h2 : (v1.flatMap fun v => v2.map fun w => Item.pair v w (2 * s)).forM (Item.add now l) =
        v1.forM fun v => v2.forM fun w => addPair now l v w (2 * s) := by
      rw [Py.forM_flatMap]
      apply Py.forM_congr
      intro v
      rw [Py.forM_map]
      rfl
    have h3 : ((sunion v1 v2).map fun v => Item.lin v (-1 * s)).forM (Item.add now l) =
        (sunion v1 v2).forM fun v => addLin now l v (-1 * s) := by
      rw [Py.forM_map]
      rfl
    rw [List.append_assoc, List.append_assoc, Py.forM_append, h3]
    simp only [Py.run_bind]
    cases ((sunion v1 v2).forM fun v => addLin now l v (-1 * s)).run t with
    | error e t => rfl
    | ok u t =>
      simp only
      rw [Py.forM_append, h1]
      simp only [Py.run_bind]
      cases (v1.forM fun v => addPairsFrom now l s v1 v).run t with
      | error e t => rfl
      | ok u t =>
        simp only
        rw [Py.forM_append, h1, h2]
        simp only [Py.run_bind]

/-- The items have distinct names and proper pairs. -/
def Constraint.Good (c : Constraint) : Prop :=
  (c.items.map (·.name c.label)).Nodup ∧ ∀ it ∈ c.items, it.Proper

/-- The model of a constraint. -/
theorem Constraint.toModel_run (now : ℚ) (id : String) (c : Constraint) :
    (c.Good → c.toModel now id = .ok (plain .qubo id (c.items.map (Item.row now c.label)))) ∧
    (¬ c.Good → c.toModel now id = .error .valueError) := by
  have h := Item.loop_run now c.label c.items .qubo id [] (by simp)
  simp only [List.map_nil, List.nil_append] at h
  unfold Constraint.toModel
  rw [Constraint.body_eq, ← plain_nil]
  constructor
  · intro hg
    rw [h.1 hg]
  · intro hg
    obtain ⟨m', hm'⟩ := h.2 hg
    rw [hm']

theorem Constraint.toModel_ok {now : ℚ} {id : String} {c : Constraint} {cm : LModel} (h : c.toModel now id = .ok cm) :
    c.Good ∧ cm = plain .qubo id (c.items.map (Item.row now c.label)) := by
  by_cases hg : c.Good
  · rw [(c.toModel_run now id).1 hg] at h
    cases h
    exact ⟨hg, rfl⟩
  · rw [(c.toModel_run now id).2 hg] at h
    cases h

theorem Item.row_term (now : ℚ) (label : String) (it : Item) (ρ : PEnv) (σ : Assign) :
    (it.row now label).term ρ σ = it.term σ := by
  cases it with
  | lin v c => simp [Row.term, Item.row, Item.term, Coef.eval, Inter.value]
  | pair v w c =>
    simp only [Row.term, Item.row, Item.term, Coef.eval]
    by_cases h : v.label < w.label
    · simp [h, Inter.value]
    · simp [h, Inter.value, mul_comm]

theorem toModel_energy {now : ℚ} {id : String} {c : Constraint} {cm : LModel} (h : c.toModel now id = .ok cm)
    (ρ : PEnv) (σ : Assign) : cm.energy ρ σ = -(c.items.map (Item.term σ)).sum := by
  obtain ⟨_, rfl⟩ := Constraint.toModel_ok h
  simp only [LModel.energy, plain, LModel.new, Coef.eval, List.map_map]
  rw [zero_sub]
  congr 2
  apply List.map_congr_left
  intro it _
  exact Item.row_term now c.label it ρ σ

/-! ## Sums over pairs -/

/-- Sum over the values of variables. -/
def total (σ : Assign) (vs : List PVar) : ℚ := (vs.map fun v => σ v.label).sum

theorem sum_pairItems (σ : Assign) (c : ℚ) (vars : List PVar) (v : PVar) :
    ((pairItems c vars v).map (Item.term σ)).sum =
      (vars.map fun w => if v.label < w.label then c * (σ v.label * σ w.label) else 0).sum := by
  unfold pairItems
  induction vars with
  | nil => rfl
  | cons w vars ih =>
    rw [List.filter_cons]
    by_cases h : v.label < w.label
    · simp only [h, decide_true, if_true, List.map_cons, List.sum_cons, ih]
      rfl
    · simp only [h, decide_false, Bool.false_eq_true, if_false, List.map_cons, List.sum_cons, ih, zero_add]

theorem sum_flatMap {α : Type} (l : List α) (g : α → List ℚ) : (l.flatMap g).sum = (l.map fun a => (g a).sum).sum := by
  induction l with
  | nil => rfl
  | cons a l ih => simp [ih]

theorem sum_map_add' {α : Type} (l : List α) (f g : α → ℚ) :
    (l.map fun a => f a + g a).sum = (l.map f).sum + (l.map g).sum := by
  induction l with
  | nil => simp
  | cons a l ih => simp only [List.map_cons, List.sum_cons, ih]; ring

theorem sum_map_mul_left' {α : Type} (l : List α) (c : ℚ) (f : α → ℚ) :
    (l.map fun a => c * f a).sum = c * (l.map f).sum := by
  induction l with
  | nil => simp
  | cons a l ih => simp only [List.map_cons, List.sum_cons, ih]; ring

theorem sum_map_zero' {α : Type} (l : List α) : (l.map fun _ => (0 : ℚ)).sum = 0 := by
  induction l with
  | nil => rfl
  | cons a l ih => simp

/-- The pairs of a set with distinct labels: twice their sum plus the squares is the square of the sum. -/
theorem pairs_square (σ : Assign) (vs : List PVar) (hn : (vs.map (·.label)).Nodup) :
    2 * (vs.map fun v => (vs.map fun w => if v.label < w.label then σ v.label * σ w.label else 0).sum).sum +
      (vs.map fun v => σ v.label * σ v.label).sum = total σ vs * total σ vs := by
  unfold total
  induction vs with
  | nil => simp
  | cons a vs ih =>
    rw [List.map_cons, List.nodup_cons] at hn
    have ih := ih hn.2
    have hstep : ∀ v ∈ vs, ((a :: vs).map fun w => if v.label < w.label then σ v.label * σ w.label else 0).sum =
        (if v.label < a.label then σ a.label * σ v.label else 0) +
        (vs.map fun w => if v.label < w.label then σ v.label * σ w.label else 0).sum := by
      intro v _
      rw [List.map_cons, List.sum_cons, mul_comm (σ v.label)]
    rw [List.map_cons, List.sum_cons, List.map_congr_left hstep, sum_map_add', List.map_cons, List.sum_cons,
      if_neg (lt_irrefl _), zero_add]
    have hboth : (vs.map fun w => if a.label < w.label then σ a.label * σ w.label else 0).sum +
        (vs.map fun v => if v.label < a.label then σ a.label * σ v.label else 0).sum =
        σ a.label * (vs.map fun v => σ v.label).sum := by
      rw [← sum_map_add', ← sum_map_mul_left']
      congr 1
      apply List.map_congr_left
      intro v hv
      have hne : v.label ≠ a.label := fun h => hn.1 (List.mem_map.mpr ⟨v, hv, h⟩)
      rcases lt_trichotomy a.label v.label with h | h | h
      · simp [h, not_lt_of_gt h]
      · exact absurd h.symm hne
      · simp [h, not_lt_of_gt h]
    simp only [List.map_cons, List.sum_cons]
    linear_combination ih + 2 * hboth

end Sawatabi
