import Verif.Lemmas.MergeVars
import Verif.Lemmas.VarsInv
import Verif.Lemmas.Group
import Verif.Lemmas.MergeFrame

/-!
# The constraint loop of `to_physical`

What merging the models of the constraints does to the table and the offset.
-/

namespace Sawatabi

/-- The model merged for a constraint: its QUBO model, converted to the type of the receiver. -/
inductive ConstraintModel (env : Env) (clk : Nat → ℚ) (id : String) (c : Constraint) : MType → LModel → Prop
  | qubo {cm : LModel} (h : c.toModel (clk 0) id = .ok cm) : ConstraintModel env clk id c .qubo cm
  | ising {cm cm' : LModel} (h : c.toModel (clk 0) id = .ok cm) (hc : (toIsing env clk).run cm = .ok ⟨⟩ cm') :
      ConstraintModel env clk id c .ising cm'

/-- `a₁` is `a` with the tables and offsets of the models `bs` added. -/
structure Absorbed (a : LModel) (bs : List LModel) (a₁ : LModel) : Prop where
  same : a₁ = { a with rows := a₁.rows, attrCols := a₁.attrCols, attrs := a₁.attrs, length := a₁.length,
                       offset := a₁.offset }
  rows : a₁.rows.map Row.anon = (a.rows ++ bs.flatMap (·.rows)).map Row.anon
  kept : ∀ (i : Nat) r, a.rows[i]? = some r → (∀ b ∈ bs, r.name ∉ b.names) → a₁.rows[i]? = some r
  length : a₁.length = a.length + (bs.map (·.length)).sum
  offset : a₁.offset = bs.foldl (fun o b => o.add b.offset) a.offset

theorem Absorbed.refl (a : LModel) : Absorbed a [] a :=
  ⟨rfl, by simp, fun _ _ h _ => h, by simp, rfl⟩

theorem Absorbed.cons {a a₁ a₂ b : LModel} {bs : List LModel} (h₁ : Absorbed a [b] a₁) (h₂ : Absorbed a₁ bs a₂) :
    Absorbed a (b :: bs) a₂ where
  same := by
    have e1 := h₁.same
    have e2 := h₂.same
    rw [e1] at e2
    exact e2
  rows := by
    rw [h₂.rows, List.map_append, h₁.rows]
    simp
  kept := by
    intro i r hr hb
    exact h₂.kept i r (h₁.kept i r hr (by simpa using hb b (by simp))) fun b' hb' => hb b' (by simp [hb'])
  length := by
    rw [h₂.length, h₁.length]
    simp [add_assoc]
  offset := by
    rw [h₂.offset, h₁.offset]
    rfl

theorem mergedRows_kept (a b : LModel) (i : Nat) (r : Row) (h : a.rows[i]? = some r) (hn : r.name ∉ b.names) :
    (mergedRows a b)[i]? = some r := by
  unfold mergedRows
  have hi : i < a.rows.length := (List.getElem?_eq_some_iff.mp h).1
  rw [List.getElem?_map, List.getElem?_zipIdx, List.getElem?_append_left hi, h]
  have : dupName a b r.name = false := by
    have h2 : b.hasName r.name = false := by
      rw [Bool.eq_false_iff]
      exact fun h' => hn ((hasName_iff b r.name).mp h')
    simp [dupName, h2]
  simp [this]

/-- Merging a model that has only a table and an offset. -/
theorem mergeSame_absorbed {a b : LModel} {s : LModel × LModel} (hb : Bare b)
    (h : mergeSame.run (a, b) = .ok ⟨⟩ s) : Absorbed a [b] s.1 := by
  rw [mergeSame_bare_run hb] at h
  split at h
  · cases h
  · cases h
    refine ⟨rfl, ?_, ?_, ?_, rfl⟩
    · simp only [mergedTable, mergedRows_anon]
      simp
    · intro i r hr hn
      exact mergedRows_kept a b i r hr (hn b (by simp))
    · simp [mergedTable]

theorem merge_absorbed {env : Env} {clk : Nat → ℚ} {a : LModel} {id : String} {c : Constraint} {cm : LModel}
    {s : LModel × LModel} (hcm : c.toModel (clk 0) id = .ok cm)
    (h : (merge env clk).run (a, cm) = .ok ⟨⟩ s) :
    ∃ b, ConstraintModel env clk id c a.mtype b ∧ Bare b ∧ Absorbed a [b] s.1 := by
  have hq : cm.mtype = .qubo := by
    obtain ⟨_, rfl⟩ := Constraint.toModel_ok hcm
    rfl
  have hbare := toModel_bare hcm
  rw [merge_run] at h
  by_cases ht : a.mtype = cm.mtype
  · rw [if_pos ht] at h
    refine ⟨cm, ?_, hbare, mergeSame_absorbed hbare h⟩
    rw [ht, hq]
    exact .qubo hcm
  · rw [if_neg ht] at h
    have hi : a.mtype = .ising := by
      cases ha : a.mtype
      · rfl
      · rw [ha, hq] at ht; exact absurd rfl ht
    have h1 := convertMtype_bare hbare env clk
    rw [convertMtype_run, hq] at h h1
    simp only at h h1
    cases hr : (toIsing env clk).run cm with
    | error e b₁ => rw [hr] at h; cases h
    | ok u b₁ =>
      rw [hr] at h h1
      refine ⟨b₁, ?_, h1, mergeSame_absorbed h1 h⟩
      rw [hi]
      exact .ising hcm hr

/-- The loop over the constraints. -/
theorem constraintLoop_absorbed {env : Env} {clks : Nat → Nat → ℚ} {ids : Nat → String}
    (cs : List ((String × Constraint) × Nat)) {a a₁ : LModel}
    (h : (cs.forM (mergeConstraint env clks ids)).run a = .ok ⟨⟩ a₁) :
    ∃ bs : List LModel,
      List.Forall₂ (fun p b => ConstraintModel env (clks p.2) (ids p.2) p.1.2 a.mtype b ∧ Bare b) cs bs ∧
      Absorbed a bs a₁ := by
  induction cs generalizing a with
  | nil => cases h; exact ⟨[], .nil, .refl _⟩
  | cons p cs ih =>
    rw [Py.run_forM_cons, mergeConstraint_run] at h
    cases hc : p.1.2.toModel (clks p.2 0) (ids p.2) with
    | error e => rw [hc] at h; cases h
    | ok cm =>
      rw [hc] at h
      simp only at h
      cases hm : (merge env (clks p.2)).run (a, cm) with
      | error e t => rw [hm] at h; cases h
      | ok u t =>
        rw [hm] at h
        simp only at h
        obtain ⟨b, hb, hbare, habs⟩ := merge_absorbed hc hm
        obtain ⟨bs, hbs, habs'⟩ := ih h
        have ht : t.1.mtype = a.mtype := by rw [habs.same]
        rw [ht] at hbs
        exact ⟨b :: bs, .cons ⟨hb, hbare⟩ hbs, habs.cons habs'⟩

/-! ## What the constraint models contain -/

/-- The part of an interaction that `to_physical` looks at. -/
def Row.core (r : Row) : Row := { r with name := "", timestamp := none, dirty := false }

/-- A row with given variables and coefficient, as far as `to_physical` looks at it. -/
def coreRow (i : Inter) (c : Coef) : Row := ⟨"", i, c, .num 1, none, false, false⟩

/-- The interactions of the model of a constraint. -/
def Constraint.cores (c : Constraint) : MType → List Row
  | .qubo => c.items.map fun it => (it.row 0 "").core
  | .ising => (c.items.map fun it => (convRow ⟨0, fun _ => ""⟩ .spin (·.mul (.num (1/2))) (·.mul (.num (1/4)))
        (it.row 0 "").core).core) ++
      (addedVars .spin (c.items.map fun it => (it.row 0 "").core)).map fun p =>
        coreRow (.lin p.1) (p.2.mul (.num (1/4)))

/-- The offset of the model of a constraint. -/
def Constraint.shift (c : Constraint) : MType → Coef
  | .qubo => .num 0
  | .ising => (activeBody 2 (c.items.map fun it => (it.row 0 "").core)).foldl (fun a h => a.add (h.coef.mul (.num (1/4))))
      ((activeBody 1 (c.items.map fun it => (it.row 0 "").core)).foldl (fun a h => a.add (h.coef.mul (.num (1/2)))) (.num 0))

theorem Item.core_row (now : ℚ) (label : String) (it : Item) : (it.row now label).core = (it.row 0 "").core := by
  cases it <;> rfl

theorem convRow_core (env env' : Env) (vt : VType) (f f₂ : Coef → Coef) {r r' : Row} (h : r.core = r'.core) :
    (convRow env vt f f₂ r).core = (convRow env' vt f f₂ r').core := by
  obtain ⟨n, i, c, s, t, d, rm⟩ := r
  obtain ⟨n', i', c', s', t', d', rm'⟩ := r'
  simp only [Row.core, Row.mk.injEq, true_and, and_true] at h
  obtain ⟨rfl, rfl, rfl, rfl⟩ := h
  unfold convRow
  cases rm
  · cases i <;> rfl
  · rfl

theorem activeBody_core (b : Nat) (rows : List Row) : (activeBody b rows).map Row.core = activeBody b (rows.map Row.core) := by
  unfold activeBody
  rw [List.filter_map]
  rfl

theorem foldl_core {γ : Type} (F : γ → Coef → γ) (z : γ) (rows : List Row) :
    rows.foldl (fun a h => F a h.coef) z = (rows.map Row.core).foldl (fun a h => F a h.coef) z := by
  rw [List.foldl_map]
  rfl

theorem addedVars_core (vt : VType) (rows : List Row) : addedVars vt rows = addedVars vt (rows.map Row.core) := by
  unfold addedVars
  rw [List.flatMap_map]
  rfl

theorem addedRow_core {c : Coef} {v : PVar} {n : String} {r : Row} (h : AddedRow c v n r) :
    r.core = coreRow (.lin v) c := by
  obtain ⟨_, h2, h3, h4, h5⟩ := h
  simp [Row.core, coreRow, h2, h3, h4, h5]

theorem plain_names (mt : MType) (id : String) {now : ℚ} {c : Constraint} (hg : c.Good) :
    (plain mt id (c.items.map (Item.row now c.label))).names.Nodup := by
  have : (plain mt id (c.items.map (Item.row now c.label))).names = c.items.map (·.name c.label) := by
    simp only [plain, LModel.names, List.map_map]
    rfl
  rw [this]
  exact hg.1

/-- The interactions and the offset of a constraint model do not depend on clocks and ids. -/
theorem ConstraintModel.contents {env : Env} {clk : Nat → ℚ} {id : String} {c : Constraint} {mt : MType} {b : LModel}
    (h : ConstraintModel env clk id c mt b) : b.rows.map Row.core = c.cores mt ∧ b.offset = c.shift mt := by
  cases h with
  | qubo h =>
    obtain ⟨_, rfl⟩ := Constraint.toModel_ok h
    refine ⟨?_, rfl⟩
    simp only [plain, List.map_map, Constraint.cores]
    apply List.map_congr_left
    intro it _
    exact Item.core_row _ _ it
  | @ising cm _ h hc =>
    obtain ⟨hg, rfl⟩ := Constraint.toModel_ok h
    have hnd := plain_names .qubo id (now := clk 0) hg
    rw [toIsing_run, if_neg (by simp [plain, LModel.new])] at hc
    obtain ⟨news, hcv⟩ := genConv_ok hnd hc
    have hcore : (c.items.map (Item.row (clk 0) c.label)).map Row.core = c.items.map fun it => (it.row 0 "").core := by
      rw [List.map_map]
      apply List.map_congr_left
      intro it _
      exact Item.core_row _ _ it
    constructor
    · rw [hcv.rows]
      simp only [plain, Constraint.cores, List.map_append, List.map_map]
      congr 1
      · apply List.map_congr_left
        intro it _
        exact convRow_core _ _ _ _ _ (by rw [Item.core_row]; rfl)
      · have := hcv.added
        rw [show (plain .qubo id (c.items.map (Item.row (clk 0) c.label))).rows = _ from rfl, addedVars_core] at this
        simp only [plain] at this
        rw [hcore] at this
        rw [show MType.ising.vtype = VType.spin from rfl] at this
        generalize addedVars VType.spin (c.items.map fun it => (it.row 0 "").core) = l at this ⊢
        clear hcv hc
        induction this with
        | nil => rfl
        | cons h1 _ ih =>
          obtain ⟨k, t, h1⟩ := h1
          rw [List.map_cons, List.map_cons, addedRow_core h1]
          congr 1
    · rw [hcv.offset]
      simp only [plain, LModel.new, Constraint.shift]
      rw [foldl_core (fun (a h : Coef) => a.add (h.mul (.num (1/4)))), foldl_core (fun (a h : Coef) => a.add (h.mul (.num (1/2)))),
        activeBody_core, activeBody_core, hcore]

end Sawatabi
