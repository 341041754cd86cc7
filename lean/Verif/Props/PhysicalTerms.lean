import Verif.Lemmas.Terms
import Verif.Lemmas.FixGone
import Verif.Lemmas.Numbering
import Verif.Props.PhysicalState
import Verif.Props.DeleteFix
import Verif.Props.Variables

/-!
# The terms and indices of a physical model (C14, C24, C25, C26, C27)
-/

namespace Sawatabi.Props

variable {m m' : LModel} {env : Env} {clks : Nat → Nat → ℚ} {ids : Nat → String} {ph : List (String × ℚ)} {p : Physical}

/-! ## C24: indices -/

/-- The labels that get an index, in the order of the logical variables. -/
def indexed (m : LModel) (p : Physical) : List String :=
  m.allLabels.filter fun l => l ∉ m.deleted ∧ l ∈ p.varsSet

theorem conversion_index (h : (toPhysical env clks ids ph).run m = .ok p m') :
    p.labelToIndex = (numbering m p.varsSet).l2i ∧ p.indexToLabel = (numbering m p.varsSet).i2l := by
  obtain ⟨bs, m₁, g, off, m₂, h⟩ := toPhysical_ok h
  have e : ∀ vs, numbering m₁ vs = numbering m vs := by
    intro vs
    have h1 : m₁.labels = m.labels := by unfold LModel.labels; rw [h.absorbed.same]
    have h2 : m₁.deleted = m.deleted := by rw [h.absorbed.same]
    simp only [numbering, h1, h2]
  rw [h.result]
  simp only [buildPhysical, e]
  exact ⟨trivial, trivial⟩

/-- The labels by index are the used labels in the order of the logical variables, whether they are distinct or not. -/
theorem index_values (h : (toPhysical env clks ids ph).run m = .ok p m') : p.indexToLabel.map (·.2) = indexed m p := by
  rw [(conversion_index h).2, (numbering_last m p.varsSet).1, List.map_map]
  have : ((fun x : Nat × String => x.2) ∘ Prod.swap : String × Nat → String) = Prod.fst := rfl
  rw [this, List.zipIdx_map_fst]
  rfl

theorem index_last (h : (toPhysical env clks ids ph).run m = .ok p m') (l : String) (i : Nat) :
    dget p.labelToIndex l = some i ↔ IsLast (indexed m p) l i := by
  rw [(conversion_index h).1]
  exact (numbering_last m p.varsSet).2 l i

/-- Index `i` belongs to the `i`-th used label, in both maps. -/
theorem C24_numbering_partial (hv : m.allLabels.Nodup) (h : (toPhysical env clks ids ph).run m = .ok p m') (l : String)
    (i : Nat) : (dget p.labelToIndex l = some i ↔ (indexed m p)[i]? = some l) ∧
      (dget p.indexToLabel i = some l ↔ (indexed m p)[i]? = some l) := by
  obtain ⟨h1, h2⟩ := conversion_index h
  obtain ⟨h3, h4⟩ := numbering_eq m p.varsSet hv
  rw [h1, h2, h3, h4]
  exact ⟨dget_zipIdx (List.filter_sublist.nodup hv) l i, dget_zipIdx_swap l i⟩

/-- The maps are inverse to each other, and the indices in use are `0, ..., n - 1`. -/
theorem C24_bijection_partial (hv : m.allLabels.Nodup) (h : (toPhysical env clks ids ph).run m = .ok p m') :
    (∀ l i, dget p.labelToIndex l = some i ↔ dget p.indexToLabel i = some l) ∧
    (∀ i, (∃ l, dget p.indexToLabel i = some l) ↔ i < (indexed m p).length) ∧
    (∀ l, (∃ i, dget p.labelToIndex l = some i) ↔ l ∈ m.allLabels ∧ l ∉ m.deleted ∧ l ∈ p.varsSet) ∧
    (∀ l l' i, dget p.labelToIndex l = some i → dget p.labelToIndex l' = some i → l = l') := by
  refine ⟨fun l i => ?_, fun i => ?_, fun l => ?_, fun l l' i h1 h2 => ?_⟩
  · rw [(C24_numbering_partial hv h l i).1, (C24_numbering_partial hv h l i).2]
  · constructor
    · rintro ⟨l, hl⟩
      rw [(C24_numbering_partial hv h l i).2] at hl
      exact (List.getElem?_eq_some_iff.mp hl).1
    · intro hi
      exact ⟨(indexed m p)[i], (C24_numbering_partial hv h _ i).2.mpr (List.getElem?_eq_getElem hi)⟩
  · have : (∃ i, dget p.labelToIndex l = some i) ↔ l ∈ indexed m p := by
      rw [List.mem_iff_getElem?]
      exact exists_congr fun i => (C24_numbering_partial hv h l i).1
    rw [this]
    simp [indexed]
  · rw [(C24_numbering_partial hv h l i).1] at h1
    rw [(C24_numbering_partial hv h l' i).1, h1] at h2
    simpa using h2

/-- Along histories: the arrays are registered by name and shape and no name contains a bracket. -/
theorem C24_reachable_partial {m₀ : LModel} (h₀ : VarsOk m₀) (hr : Reach env OwnArrays m₀ m)
    (hb : ∀ n ∈ dkeys m.vars, '[' ∉ n.toList) (h : (toPhysical env clks ids ph).run m = .ok p m') (l : String) (i : Nat) :
    dget p.labelToIndex l = some i ↔ dget p.indexToLabel i = some l :=
  (C24_bijection_partial (C18_labels_distinct_partial (C18_arrays_along_history h₀ hr) hb) h).1 l i

/-- Both maps whatever the labels: index `i` belongs to the `i`-th used label, a label to its last position among them. -/
theorem C24_exact (h : (toPhysical env clks ids ph).run m = .ok p m') (l : String) (i : Nat) :
    (dget p.indexToLabel i = some l ↔ (indexed m p)[i]? = some l) ∧
    (dget p.labelToIndex l = some i ↔ (indexed m p)[i]? = some l ∧ ∀ j, (indexed m p)[j]? = some l → j ≤ i) := by
  refine ⟨?_, index_last h l i⟩
  rw [(conversion_index h).2, (numbering_last m p.varsSet).1]
  exact dget_zipIdx_swap l i

/-- The maps are inverse to each other exactly if the used labels are distinct. -/
theorem C24_inverse_iff (h : (toPhysical env clks ids ph).run m = .ok p m') :
    (∀ l i, dget p.labelToIndex l = some i ↔ dget p.indexToLabel i = some l) ↔ (indexed m p).Nodup := by
  constructor
  · intro hinv
    rw [List.nodup_iff_injective_getElem]
    rintro ⟨i, hi⟩ ⟨j, hj⟩ hij
    simp only at hij
    have get : ∀ k (hk : k < (indexed m p).length), dget p.labelToIndex (indexed m p)[k] = some k := fun k hk =>
      (hinv _ _).mpr ((C24_exact h _ _).1.mpr (List.getElem?_eq_getElem hk))
    have h1 := get i hi
    rw [hij, get j hj] at h1
    simp only [Option.some.injEq] at h1
    exact Fin.ext h1.symm
  · intro hn l i
    rw [(C24_exact h l i).1, (C24_exact h l i).2]
    refine ⟨fun h => h.1, fun hi => ⟨hi, fun j hj => ?_⟩⟩
    obtain ⟨hi', hi⟩ := List.getElem?_eq_some_iff.mp hi
    obtain ⟨hj', hj⟩ := List.getElem?_eq_some_iff.mp hj
    exact le_of_eq ((List.Nodup.getElem_inj_iff hn).mp (hj.trans hi.symm))

/-- Two arrays that share a label (C18): the label has two indices in one map and the larger one in the other. -/
theorem C24_clash_refuted :
    let m := Ex.after (LModel.new .ising "1") (do
      let _ ← createVars "x[0]" [1]
      let _ ← createVars "x" [1, 1]
      addInteraction 1 (.var ⟨.spin, "x[0][0]"⟩) (.str "") (.num 1) (.num 1) .none .none)
    ∃ p m', (toPhysical ⟨0, fun _ => ""⟩ (fun _ _ => 0) (fun _ => "1") []).run m = .ok p m' ∧
      p.labelToIndex = [("x[0][0]", 1)] ∧ p.indexToLabel = [(0, "x[0][0]"), (1, "x[0][0]")] := by
  refine ⟨_, _, rfl, ?_⟩
  decide +kernel

example : ∃ p m', (toPhysical ⟨0, fun _ => ""⟩ (fun _ _ => 0) (fun _ => "1") [("p", 2)]).run Ex.qubo = .ok p m' ∧
    Ex.qubo.allLabels.Nodup ∧ p.labelToIndex = [("x[0]", 0), ("x[1]", 1), ("x[2]", 2)] := by
  refine ⟨_, _, rfl, ?_⟩
  decide +kernel

/-! ## C25: every variable has an index -/

/-- A variable of a physical model has an index exactly if it is registered and not deleted. -/
theorem C25_index_iff (h : (toPhysical env clks ids ph).run m = .ok p m') (l : String) :
    (∃ i, dget p.labelToIndex l = some i) ↔ l ∈ m.allLabels ∧ l ∉ m.deleted ∧ l ∈ p.varsSet := by
  rw [(conversion_index h).1]
  have := numbering_keys m p.varsSet l
  rw [← show m.labels = m.allLabels from rfl, ← this]
  exact dget_isSome_iff _ _

theorem varsSet_iff (h : (toPhysical env clks ids ph).run m = .ok p m') (l : String) :
    l ∈ p.varsSet ↔ l ∈ dkeys p.linear ∨ ∃ k ∈ dkeys p.quad, k.1 = l ∨ k.2 = l := by
  obtain ⟨bs, m₁, g, off, m₂, h⟩ := toPhysical_ok h
  rw [h.result]
  exact mem_physicalVars _ _ _

theorem index_ok {l : String} {i : Nat} (h : dget p.labelToIndex l = some i) : p.index l = .ok i := by
  simp [Physical.index, h]

theorem mapM_ok_iff {α β : Type} {f : α → Except Err β} (l : List α) :
    (∃ ys, l.mapM f = .ok ys) ↔ ∀ a ∈ l, ∃ b, f a = .ok b := by
  induction l with
  | nil => simp [pure, Except.pure]
  | cons a l ih =>
    rw [List.mapM_cons, List.forall_mem_cons, ← ih]
    cases h : f a with
    | error e => simp [bind, Except.bind]
    | ok b =>
      cases h' : l.mapM f with
      | error e => simp [bind, Except.bind, h']
      | ok bs => simp [bind, Except.bind, pure, Except.pure, h']

/-- `to_polynomial` succeeds exactly if every variable of the physical model is registered and not deleted; otherwise
it raises KeyError. -/
theorem C25_polynomial_iff (h : (toPhysical env clks ids ph).run m = .ok p m') :
    (∃ t, p.toPolynomial = .ok t) ↔ ∀ l ∈ p.varsSet, l ∈ m.allLabels ∧ l ∉ m.deleted := by
  have hidx : ∀ l, (∃ i, p.index l = .ok i) ↔ ∃ i, dget p.labelToIndex l = some i := by
    intro l
    unfold Physical.index
    cases dget p.labelToIndex l with
    | none => simp
    | some i => simp
  have hL : ∀ kv : String × ℚ, (∃ t, (do
      let i ← p.index kv.1
      return (i, i, -1 * kv.2) : Except Err (Nat × Nat × ℚ)) = .ok t) ↔ ∃ i, dget p.labelToIndex kv.1 = some i := by
    intro kv
    rw [← hidx]
    cases p.index kv.1 <;> simp [bind, Except.bind, pure, Except.pure]
  have hQ : ∀ kv : (String × String) × ℚ, (∃ t, (do
      let i ← p.index kv.1.1
      let j ← p.index kv.1.2
      return (i, j, -1 * kv.2) : Except Err (Nat × Nat × ℚ)) = .ok t) ↔
        (∃ i, dget p.labelToIndex kv.1.1 = some i) ∧ ∃ i, dget p.labelToIndex kv.1.2 = some i := by
    intro kv
    rw [← hidx, ← hidx]
    cases p.index kv.1.1 <;> cases p.index kv.1.2 <;> simp [bind, Except.bind, pure, Except.pure]
  have key : (∃ t, p.toPolynomial = .ok t) ↔
      (∀ kv ∈ p.linear, ∃ i, dget p.labelToIndex kv.1 = some i) ∧
      ∀ kv ∈ p.quad, (∃ i, dget p.labelToIndex kv.1.1 = some i) ∧ ∃ i, dget p.labelToIndex kv.1.2 = some i := by
    rw [show (∀ kv ∈ p.linear, ∃ i, dget p.labelToIndex kv.1 = some i) ↔ _ from
        forall₂_congr fun kv _ => (hL kv).symm, ← mapM_ok_iff,
      show (∀ kv ∈ p.quad, (∃ i, dget p.labelToIndex kv.1.1 = some i) ∧ ∃ i, dget p.labelToIndex kv.1.2 = some i) ↔ _ from
        forall₂_congr fun kv _ => (hQ kv).symm, ← mapM_ok_iff]
    unfold Physical.toPolynomial
    generalize (List.mapM _ p.linear : Except Err (List (Nat × Nat × ℚ))) = x
    generalize (List.mapM _ p.quad : Except Err (List (Nat × Nat × ℚ))) = y
    cases x <;> cases y <;> simp [bind, Except.bind, pure, Except.pure]
  rw [key]
  simp only [C25_index_iff h]
  constructor
  · rintro ⟨h1, h2⟩ l hl
    rcases (varsSet_iff h l).mp hl with hl | ⟨k, hk, hl⟩
    · obtain ⟨kv, hkv, rfl⟩ := List.mem_map.mp hl
      exact ⟨(h1 kv hkv).1, (h1 kv hkv).2.1⟩
    · obtain ⟨kv, hkv, rfl⟩ := List.mem_map.mp hk
      rcases hl with rfl | rfl
      · exact ⟨(h2 kv hkv).1.1, (h2 kv hkv).1.2.1⟩
      · exact ⟨(h2 kv hkv).2.1, (h2 kv hkv).2.2.1⟩
  · intro hall
    have hall' : ∀ l ∈ p.varsSet, l ∈ m.allLabels ∧ l ∉ m.deleted ∧ l ∈ p.varsSet :=
      fun l hl => ⟨(hall l hl).1, (hall l hl).2, hl⟩
    refine ⟨fun kv hkv => hall' _ ((varsSet_iff h _).mpr (.inl (List.mem_map_of_mem hkv))), fun kv hkv => ⟨?_, ?_⟩⟩
    · exact hall' _ ((varsSet_iff h _).mpr (.inr ⟨kv.1, List.mem_map_of_mem hkv, .inl rfl⟩))
    · exact hall' _ ((varsSet_iff h _).mpr (.inr ⟨kv.1, List.mem_map_of_mem hkv, .inr rfl⟩))

theorem pair_mentions {v w : PVar} {q : ℚ} {l : String} (h : ((Item.pair v w q).row 0 "").inter.mentions l) :
    v.label = l ∨ w.label = l := by
  simp only [Item.row] at h
  split at h
  · exact h
  · exact h.symm

theorem convRow_mentions {env : Env} {vt : VType} {f f₂ : Coef → Coef} {r : Row} {l : String}
    (h : (convRow env vt f f₂ r).inter.mentions l) : r.inter.mentions l := by
  unfold convRow at h
  split at h
  · exact h
  · cases hi : r.inter with
    | lin v => rw [hi] at h; exact h
    | quad v w => rw [hi] at h; exact h

/-- The labels of the interactions of a constraint's items. -/
theorem items_mentions {c : Constraint} {it : Item} (h : it ∈ c.items) {l : String}
    (hl : (it.row 0 "").inter.mentions l) : ∃ vs ∈ c.sets, ∃ v ∈ vs, v.label = l := by
  have pair : ∀ {q : ℚ} {vs : List PVar} {v : PVar}, v ∈ vs → it ∈ pairItems q vs v → ∃ v ∈ vs, v.label = l := by
    intro q vs v hv h
    obtain ⟨w, hw, rfl⟩ := List.mem_map.mp h
    rcases pair_mentions hl with hl | hl
    · exact ⟨v, hv, hl⟩
    · exact ⟨w, (List.mem_filter.mp hw).1, hl⟩
  cases c with
  | nHot lb s vs n =>
    refine ⟨vs, by simp [Constraint.sets], ?_⟩
    obtain ⟨v, hv, h⟩ := List.mem_flatMap.mp h
    rcases List.mem_cons.mp h with rfl | h
    · exact ⟨v, hv, hl⟩
    · exact pair hv h
  | zeroOrOneHot lb s vs =>
    refine ⟨vs, by simp [Constraint.sets], ?_⟩
    obtain ⟨v, hv, h⟩ := List.mem_flatMap.mp h
    exact pair hv h
  | equality lb s v1 v2 =>
    simp only [Constraint.items, List.mem_append, or_assoc] at h
    rcases h with h | h | h | h
    · obtain ⟨v, hv, rfl⟩ := List.mem_map.mp h
      rcases mem_sunion.mp hv with hv | hv
      · exact ⟨v1, by simp [Constraint.sets], v, hv, hl⟩
      · exact ⟨v2, by simp [Constraint.sets], v, hv, hl⟩
    · obtain ⟨v, hv, h⟩ := List.mem_flatMap.mp h
      exact ⟨v1, by simp [Constraint.sets], pair hv h⟩
    · obtain ⟨v, hv, h⟩ := List.mem_flatMap.mp h
      exact ⟨v2, by simp [Constraint.sets], pair hv h⟩
    · obtain ⟨v, hv, h⟩ := List.mem_flatMap.mp h
      obtain ⟨w, hw, rfl⟩ := List.mem_map.mp h
      rcases pair_mentions hl with hl | hl
      · exact ⟨v1, by simp [Constraint.sets], v, hv, hl⟩
      · exact ⟨v2, by simp [Constraint.sets], w, hw, hl⟩

/-- The interactions of a constraint's model are about its variables. -/
theorem cores_mentions {c : Constraint} {mt : MType} {r : Row} (h : r ∈ c.cores mt) {l : String} (hl : r.inter.mentions l) :
    ∃ vs ∈ c.sets, ∃ v ∈ vs, v.label = l := by
  cases mt with
  | qubo =>
    obtain ⟨it, hit, rfl⟩ := List.mem_map.mp h
    exact items_mentions hit hl
  | ising =>
    rcases List.mem_append.mp h with h | h
    · obtain ⟨it, hit, rfl⟩ := List.mem_map.mp h
      exact items_mentions hit (convRow_mentions (r := (it.row 0 "").core) hl)
    · obtain ⟨p, hp, rfl⟩ := List.mem_map.mp h
      obtain ⟨r, hr, hp⟩ := List.mem_flatMap.mp hp
      obtain ⟨it, hit, rfl⟩ := List.mem_map.mp hr
      refine items_mentions hit ?_
      cases it with
      | lin v q => simp [Item.row, Row.core] at hp
      | pair v w q =>
        simp only [Item.row, Row.core] at hp ⊢
        by_cases hlt : v.label < w.label
        all_goals
          simp only [hlt, if_true, if_false, Bool.false_eq_true, List.mem_cons, List.not_mem_nil, or_false] at hp ⊢
          rcases hp with rfl | rfl
          · exact .inl hl
          · exact .inr hl

/-- Every variable of a physical model is one of an active interaction or of a constraint. -/
theorem physical_vars (h : (toPhysical env clks ids ph).run m = .ok p m') {l : String} (hl : l ∈ p.varsSet) :
    (∃ r ∈ m.rows, r.removed = false ∧ r.inter.mentions l) ∨
      ∃ c ∈ m.constraints, ∃ vs ∈ c.2.sets, ∃ v ∈ vs, v.label = l := by
  obtain ⟨bs, m₁, g, off, m₂, h⟩ := toPhysical_ok h
  refine (h.vars hl).imp id ?_
  rintro ⟨b, hb, r, hr, hrl⟩
  have hz := h.models
  have : ∃ c ∈ m.constraints.zipIdx, ConstraintModel env (clks c.2) (ids c.2) c.1.2 m.mtype b := by
    clear h
    generalize m.constraints.zipIdx = cs at hz
    induction hz with
    | nil => cases hb
    | cons h1 _ ih =>
      rcases List.mem_cons.mp hb with rfl | hb
      · exact ⟨_, List.mem_cons_self, h1.1⟩
      · obtain ⟨c, hc, h⟩ := ih hb
        exact ⟨c, List.mem_cons_of_mem _ hc, h⟩
  obtain ⟨c, hc, hb⟩ := this
  refine ⟨c.1, (List.mem_zipIdx hc).2.2 ▸ List.getElem_mem _, cores_mentions (mt := m.mtype) (r := r.core) ?_ hrl⟩
  rw [← hb.contents.1]
  exact List.mem_map_of_mem hr

/-- It suffices that the variables of the active interactions and of the constraints are registered and not deleted. -/
theorem C25_polynomial_constraints_partial
    (hr : ∀ r ∈ m.rows, r.removed = false → ∀ l, r.inter.mentions l → l ∈ m.allLabels ∧ l ∉ m.deleted)
    (hc : ∀ c ∈ m.constraints, ∀ vs ∈ c.2.sets, ∀ v ∈ vs, v.label ∈ m.allLabels ∧ v.label ∉ m.deleted)
    (h : (toPhysical env clks ids ph).run m = .ok p m') : ∃ t, p.toPolynomial = .ok t := by
  rw [C25_polynomial_iff h]
  intro l hl
  rcases physical_vars h hl with ⟨r, hr', h1, h2⟩ | ⟨c, hc', vs, hvs, v, hv, rfl⟩
  · exact hr r hr' h1 l h2
  · exact hc c hc' vs hvs v hv

/-- It suffices that the variables of the active interactions are registered and not deleted (no constraints). -/
theorem C25_polynomial_partial (hc : m.constraints = [])
    (hr : ∀ r ∈ m.rows, r.removed = false → ∀ l, r.inter.mentions l → l ∈ m.allLabels ∧ l ∉ m.deleted)
    (h : (toPhysical env clks ids ph).run m = .ok p m') : ∃ t, p.toPolynomial = .ok t := by
  rw [C25_polynomial_iff h]
  intro l hl
  obtain ⟨bs, m₁, g, off, m₂, h⟩ := toPhysical_ok h
  rcases h.vars hl with ⟨r, hr', hrm, hm⟩ | ⟨b, hb, _⟩
  · exact hr r hr' hrm l hm
  · rw [(h.nil hc).1] at hb
    cases hb

example : (∀ r ∈ Ex.qubo.rows, r.removed = false → ∀ l, r.inter.mentions l → l ∈ Ex.qubo.allLabels ∧ l ∉ Ex.qubo.deleted) ∧
    Ex.qubo.constraints = [] := by
  refine ⟨?_, rfl⟩
  intro r hr _ l hl
  have hr : r ∈ Ex.qubo.rows := hr
  rw [show Ex.qubo.rows = _ from rfl] at hr
  have key : ∀ r ∈ Ex.qubo.rows, ∀ l' ∈ (match r.inter with | .lin v => [v.label] | .quad v w => [v.label, w.label]),
      l' ∈ Ex.qubo.allLabels ∧ l' ∉ Ex.qubo.deleted := by decide
  refine key r hr l ?_
  cases hi : r.inter with
  | lin v => rw [hi] at hl; simp [Inter.mentions] at hl ⊢; exact hl.symm
  | quad v w => rw [hi] at hl; simp only [Inter.mentions_quad] at hl; simp only [List.mem_cons, List.not_mem_nil, or_false]; exact hl.imp Eq.symm Eq.symm

/-- An interaction on a variable of another model has no index: `to_polynomial` raises KeyError. -/
theorem C25_unregistered_refuted :
    let m := Ex.after (LModel.new .qubo "1") (do
      let _ ← createVars "x" [1]
      addInteraction 1 (.var ⟨.binary, "y[0]"⟩) (.str "") (.num 1) (.num 1) .none .none)
    ∃ p m', (toPhysical ⟨0, fun _ => ""⟩ (fun _ _ => 0) (fun _ => "1") []).run m = .ok p m' ∧
      p.toPolynomial = .error .keyError := by
  refine ⟨_, _, rfl, ?_⟩
  decide +kernel

/-- An interaction on a deleted variable can be added, and has no index. -/
theorem C25_deleted_refuted :
    let m := Ex.after (LModel.new .qubo "1") (do
      let _ ← createVars "x" [2]
      deleteVariable Ex.b0
      addInteraction 1 (.var Ex.b0) (.str "") (.num 1) (.num 1) .none .none)
    ∃ p m', (toPhysical ⟨0, fun _ => ""⟩ (fun _ _ => 0) (fun _ => "1") []).run m = .ok p m' ∧
      p.toPolynomial = .error .keyError := by
  refine ⟨_, _, rfl, ?_⟩
  decide +kernel

/-- Even without any interaction added after a deletion: fixing `x[0]` resurrects the removed interaction
`x[0]*x[1]` on the deleted `x[1]`. -/
theorem C25_fix_refuted :
    let m := Ex.after (LModel.new .qubo "1") (do
      let _ ← createVars "x" [2]
      addInteraction 1 (.tuple [some Ex.b0, some Ex.b1]) (.str "") (.num 1) (.num 1) .none .none
      deleteVariable Ex.b1
      fixVariable (fun _ => 2) Ex.b0 (.num 1))
    ∃ p m', (toPhysical ⟨0, fun _ => ""⟩ (fun _ _ => 0) (fun _ => "1") []).run m = .ok p m' ∧
      p.toPolynomial = .error .keyError := by
  refine ⟨_, _, rfl, ?_⟩
  decide +kernel

/-! ## C26: the terms -/

/-- At most one coefficient per variable and per unordered pair, none of them zero; with constraints as well. -/
theorem C26_no_duplicates (ho : AllOrdered m.rows) (hph : (ph.map (·.1)).Nodup)
    (h : (toPhysical env clks ids ph).run m = .ok p m') :
    (p.linear.map (·.1)).Nodup ∧ (p.quad.map (·.1)).Nodup ∧ (∀ t ∈ p.quad, t.1.1 < t.1.2) ∧
    (∀ t ∈ p.linear, t.2 ≠ 0) ∧ ∀ t ∈ p.quad, t.2 ≠ 0 := by
  obtain ⟨bs, m₁, g, off, m₂, h⟩ := toPhysical_ok h
  obtain ⟨h1, h2, h3, h4, h5⟩ := h.terms_prefix ho (envOf_extends hph)
  refine ⟨h1, h2, fun t ht => h3 _ (List.mem_map_of_mem ht), fun t ht => ((h4 t.1 t.2).mp ht).2, fun t ht => ?_⟩
  exact ((h5 t.1.1 t.1.2 t.2 (h3 _ (List.mem_map_of_mem ht))).mp ht).2

/-- Without constraints: exactly the non-zero sums over the active interactions of each key. -/
theorem C26_sums_partial (hm : m.Rect) (ho : AllOrdered m.rows) (hc : m.constraints = [])
    (h : (toPhysical env clks ids ph).run m = .ok p m') {ρ : PEnv} (hρ : ρ.Extends ph) :
    (∀ l q, (l, q) ∈ p.linear ↔ q = linTotal ρ m.rows l ∧ q ≠ 0) ∧
    (∀ a b q, a < b → (((a, b), q) ∈ p.quad ↔ q = pairTotal ρ m.rows a b ∧ q ≠ 0)) := by
  obtain ⟨bs, m₁, g, off, m₂, h⟩ := toPhysical_ok h
  obtain ⟨_, _, _, h4, h5⟩ := h.terms hm ho hρ
  rw [(h.nil hc).2] at h4 h5
  exact ⟨h4, h5⟩

/-- The same for every table, also a ragged one: only the first `_interactions_length` interactions count. -/
theorem C26_sums_exact (ho : AllOrdered m.rows) (hc : m.constraints = [])
    (h : (toPhysical env clks ids ph).run m = .ok p m') {ρ : PEnv} (hρ : ρ.Extends ph) :
    (∀ l q, (l, q) ∈ p.linear ↔ q = linTotal ρ (m.rows.take m.length.toNat) l ∧ q ≠ 0) ∧
    (∀ a b q, a < b → (((a, b), q) ∈ p.quad ↔ q = pairTotal ρ (m.rows.take m.length.toNat) a b ∧ q ≠ 0)) := by
  obtain ⟨bs, m₁, g, off, m₂, h⟩ := toPhysical_ok h
  obtain ⟨_, _, _, h4, h5⟩ := h.terms_prefix ho hρ
  rw [(h.nil hc).2] at h4 h5
  exact ⟨h4, h5⟩

/-- So the sums are wrong in a ragged state (reachable, see C19_ragged_refuted). -/
theorem C26_ragged_refuted :
    let env : Env := ⟨0, fun _ => ""⟩
    let m := Ex.after (LModel.new .ising "101") do
      let _ ← createVars "x" [2]
      addInteraction 1 (.var Ex.x0) (.str "") (.num 2) (.num 1) .none .none
      updateInteraction 0 1 .none (.str "x[0]") none none (.dict [("a", .num 1)]) none
      removeInteraction .none (.str "x[0]")
      let _ ← toPhysical env (fun _ _ => 0) (fun _ => "1") []
      addInteraction 2 (.var Ex.x1) (.str "") (.num 5) (.num 1) (.dict [("a", .num 1)]) .none
    ∃ p m', (toPhysical env (fun _ _ => 0) (fun _ => "1") []).run m = .ok p m' ∧ m.rows.map (·.inter) = [.lin Ex.x1] ∧
      m.constraints = [] ∧ p.linear = [] ∧ linTotal (fun _ => 0) m.rows "x[1]" = 5 := by
  refine ⟨_, _, rfl, ?_, rfl, ?_⟩
  all_goals decide +kernel

theorem linCoef_anon (ρ : PEnv) (l : String) (r : Row) : Row.linCoef ρ l r.anon = Row.linCoef ρ l r := rfl
theorem pairCoef_anon (ρ : PEnv) (a b : String) (r : Row) : Row.pairCoef ρ a b r.anon = Row.pairCoef ρ a b r := rfl
theorem linCoef_core (ρ : PEnv) (l : String) (r : Row) : Row.linCoef ρ l r.core = Row.linCoef ρ l r := rfl
theorem pairCoef_core (ρ : PEnv) (a b : String) (r : Row) : Row.pairCoef ρ a b r.core = Row.pairCoef ρ a b r := rfl

theorem linTotal_append (ρ : PEnv) (x y : List Row) (l : String) :
    linTotal ρ (x ++ y) l = linTotal ρ x l + linTotal ρ y l := by simp [linTotal]

theorem pairTotal_append (ρ : PEnv) (x y : List Row) (a b : String) :
    pairTotal ρ (x ++ y) a b = pairTotal ρ x a b + pairTotal ρ y a b := by simp [pairTotal]

theorem linTotal_cores {x y : List Row} (h : x.map Row.core = y.map Row.core) (ρ : PEnv) (l : String) :
    linTotal ρ x l = linTotal ρ y l := by
  have : ∀ z : List Row, linTotal ρ z l = ((z.map Row.core).map (Row.linCoef ρ l)).sum := by
    intro z
    rw [List.map_map]
    rfl
  rw [this, this, h]

theorem pairTotal_cores {x y : List Row} (h : x.map Row.core = y.map Row.core) (ρ : PEnv) (a b : String) :
    pairTotal ρ x a b = pairTotal ρ y a b := by
  have : ∀ z : List Row, pairTotal ρ z a b = ((z.map Row.core).map (Row.pairCoef ρ a b)).sum := by
    intro z
    rw [List.map_map]
    rfl
  rw [this, this, h]

/-- With constraints: each constraint adds its own coefficients, which depend on the constraint and the model type
only. -/
theorem C26_constraints_partial : ∃ (L : MType → PEnv → Constraint → String → ℚ)
    (Q : MType → PEnv → Constraint → String → String → ℚ),
    ∀ {m m' : LModel} {env : Env} {clks : Nat → Nat → ℚ} {ids : Nat → String} {ph : List (String × ℚ)} {p : Physical},
    m.Rect → AllOrdered m.rows → (toPhysical env clks ids ph).run m = .ok p m' → ∀ {ρ : PEnv}, ρ.Extends ph →
    (∀ l q, (l, q) ∈ p.linear ↔
      q = linTotal ρ m.rows l + (m.constraints.map fun c => L m.mtype ρ c.2 l).sum ∧ q ≠ 0) ∧
    (∀ a b q, a < b → (((a, b), q) ∈ p.quad ↔
      q = pairTotal ρ m.rows a b + (m.constraints.map fun c => Q m.mtype ρ c.2 a b).sum ∧ q ≠ 0)) := by
  refine ⟨fun mt ρ c l => linTotal ρ (c.cores mt) l, fun mt ρ c a b => pairTotal ρ (c.cores mt) a b, ?_⟩
  intro m m' env clks ids ph p hm ho h ρ hρ
  obtain ⟨bs, m₁, g, off, m₂, h⟩ := toPhysical_ok h
  obtain ⟨_, _, _, h4, h5⟩ := h.terms hm ho hρ
  have hl : ∀ l, linTotal ρ m₁.rows l = linTotal ρ m.rows l +
      (m.constraints.map fun c => linTotal ρ (c.2.cores m.mtype) l).sum := by
    intro l
    rw [linTotal_cores (y := m.rows ++ bs.flatMap (·.rows)) (by rw [h.absorbed.cores, List.map_append, List.map_flatMap]),
      linTotal_append]
    congr 1
    rw [show linTotal ρ (bs.flatMap (·.rows)) l = (bs.map fun b => linTotal ρ b.rows l).sum by
      induction bs with
      | nil => rfl
      | cons b bs ih =>
        clear h ih
        induction (b :: bs) with
        | nil => rfl
        | cons b bs ih => rw [List.flatMap_cons, linTotal_append, ih]; rfl]
    apply forall₂_zipIdx_sum h.models
    rintro ⟨c, i⟩ b ⟨hcm, _⟩ hc
    have := hcm.contents.1
    rw [linTotal_cores (y := b.rows.map Row.core) (by rw [List.map_map]; rfl), this]
  have hq : ∀ a b, pairTotal ρ m₁.rows a b = pairTotal ρ m.rows a b +
      (m.constraints.map fun c => pairTotal ρ (c.2.cores m.mtype) a b).sum := by
    intro a b
    rw [pairTotal_cores (y := m.rows ++ bs.flatMap (·.rows)) (by rw [h.absorbed.cores, List.map_append, List.map_flatMap]),
      pairTotal_append]
    congr 1
    rw [show pairTotal ρ (bs.flatMap (·.rows)) a b = (bs.map fun x => pairTotal ρ x.rows a b).sum by
      induction bs with
      | nil => rfl
      | cons b bs ih =>
        clear h ih
        induction (b :: bs) with
        | nil => rfl
        | cons b bs ih => rw [List.flatMap_cons, pairTotal_append, ih]; rfl]
    apply forall₂_zipIdx_sum h.models
    rintro ⟨c, i⟩ x ⟨hcm, _⟩ hc
    have := hcm.contents.1
    rw [pairTotal_cores (y := x.rows.map Row.core) (by rw [List.map_map]; rfl), this]
  refine ⟨fun l q => ?_, fun a b q hab => ?_⟩
  · rw [h4, hl]
  · rw [h5 a b q hab, hq]

/-- The assignment that is 1 on the given labels and 0 elsewhere. -/
def indicator (ls : List String) : Assign := fun x => if x ∈ ls then 1 else 0

theorem indicator_binary (ls : List String) : (indicator ls).IsBinary := by
  intro l
  unfold indicator
  split <;> simp

theorem sum_single {κ : Type} [DecidableEq κ] {d : List (κ × ℚ)} (hd : (d.map (·.1)).Nodup) (f : κ → ℚ) (k : κ)
    (hf : ∀ k' ∈ d.map (·.1), k' ≠ k → f k' = 0) :
    (d.map fun kv => kv.2 * f kv.1).sum = (dget d k).getD 0 * f k := by
  induction d with
  | nil => simp [dget]
  | cons x d ih =>
    obtain ⟨k', v⟩ := x
    have hn := List.nodup_cons.mp hd
    rw [List.map_cons, List.sum_cons, ih hn.2 fun k'' h => hf k'' (by simp only [List.map_cons, List.mem_cons]; exact .inr h)]
    simp only [dget]
    by_cases h : k' = k
    · subst h
      rw [if_pos rfl]
      have : dget d k' = none := by
        cases hx : dget d k' with
        | none => rfl
        | some y => exact absurd ((dget_isSome_iff d k').mp ⟨y, hx⟩) hn.1
      rw [this]
      simp
    · rw [if_neg h, hf k' (by simp) h]
      simp

/-- The coefficients of a physical model are differences of energies. -/
theorem coefficients {p : Physical} (h1 : (p.linear.map (·.1)).Nodup) (h2 : (p.quad.map (·.1)).Nodup)
    (h3 : ∀ t ∈ p.quad, t.1.1 < t.1.2) :
    (∀ l, (dget p.linear l).getD 0 = p.energy (indicator []) - p.energy (indicator [l])) ∧
    (∀ a b, a < b → (dget p.quad (a, b)).getD 0 = p.energy (indicator [a]) + p.energy (indicator [b])
      - p.energy (indicator []) - p.energy (indicator [a, b])) := by
  have z : ∀ {κ : Type} (d : List (κ × ℚ)) (f : κ → ℚ), (∀ t ∈ d, f t.1 = 0) → (d.map fun kv => kv.2 * f kv.1).sum = 0 := by
    intro κ d f hf
    apply List.sum_eq_zero
    intro x hx
    obtain ⟨t, ht, rfl⟩ := List.mem_map.mp hx
    rw [hf t ht, mul_zero]
  have e0 : p.energy (indicator []) = p.offset := by
    unfold Physical.energy
    rw [z p.linear (fun k => indicator [] k) (fun _ _ => by simp [indicator]),
      z p.quad (fun k => indicator [] k.1 * indicator [] k.2) (fun _ _ => by simp [indicator])]
    ring
  have e1 : ∀ l, p.energy (indicator [l]) = p.offset - (dget p.linear l).getD 0 := by
    intro l
    unfold Physical.energy
    rw [z p.quad (fun k => indicator [l] k.1 * indicator [l] k.2) ?_, sum_single h1 (fun k => indicator [l] k) l ?_]
    · simp [indicator]
    · intro k _ hk
      simp [indicator, hk]
    · intro t ht
      by_cases hx : t.1.1 = l
      · have : t.1.2 ≠ l := by rw [← hx]; exact (ne_of_lt (h3 t ht)).symm
        simp [indicator, this]
      · simp [indicator, hx]
  have e2 : ∀ a b, a < b → p.energy (indicator [a, b]) = p.offset - (dget p.linear a).getD 0 - (dget p.linear b).getD 0
      - (dget p.quad (a, b)).getD 0 := by
    intro a b hab
    have hne := ne_of_lt hab
    unfold Physical.energy
    rw [sum_single h2 (fun k => indicator [a, b] k.1 * indicator [a, b] k.2) (a, b) ?_]
    · have hs : (p.linear.map fun kv => kv.2 * indicator [a, b] kv.1).sum =
          (p.linear.map fun kv => kv.2 * indicator [a] kv.1).sum + (p.linear.map fun kv => kv.2 * indicator [b] kv.1).sum := by
        rw [← List.sum_map_add]
        congr 1
        apply List.map_congr_left
        intro t _
        simp only [indicator, List.mem_cons, List.not_mem_nil, or_false]
        by_cases ha : t.1 = a
        · have : t.1 ≠ b := by rw [ha]; exact hne
          simp [ha, hne]
        · simp [ha]
      rw [hs, sum_single h1 (fun k => indicator [a] k) a (fun k _ hk => by simp [indicator, hk]),
        sum_single h1 (fun k => indicator [b] k) b (fun k _ hk => by simp [indicator, hk])]
      simp only [indicator, List.mem_cons, List.not_mem_nil, or_false, true_or, or_true, if_true]
      ring
    · intro k hk hne'
      obtain ⟨t, ht, rfl⟩ := List.mem_map.mp hk
      have hlt := h3 t ht
      simp only [indicator, List.mem_cons, List.not_mem_nil, or_false]
      by_cases h1 : t.1.1 = a ∨ t.1.1 = b
      · by_cases h2 : t.1.2 = a ∨ t.1.2 = b
        · exfalso
          rcases h1 with h1 | h1 <;> rcases h2 with h2 | h2
          · rw [h1, h2] at hlt; exact lt_irrefl _ hlt
          · exact hne' (Prod.ext h1 h2)
          · rw [h1, h2] at hlt; exact lt_irrefl _ (lt_trans hlt hab)
          · rw [h1, h2] at hlt; exact lt_irrefl _ hlt
        · simp [h2]
      · simp [h1]
  refine ⟨fun l => ?_, fun a b hab => ?_⟩
  · rw [e0, e1]; ring
  · rw [e0, e1, e1, e2 a b hab]; ring

/-- A QUBO model with constraints: the coefficients are those of the multilinear form of the logical energy plus the
penalties. -/
theorem C26_qubo_partial (hm : m.Rect) (ho : AllOrdered m.rows) (hq : m.mtype = .qubo)
    (hd : ∀ c ∈ m.constraints, c.2.Distinct) (h : (toPhysical env clks ids ph).run m = .ok p m') {ρ : PEnv}
    (hρ : ρ.Extends ph) :
    let E : Assign → ℚ := fun σ => m.energy ρ σ + (m.constraints.map fun c => c.2.penalty σ).sum
    (∀ l q, (l, q) ∈ p.linear ↔ q = E (indicator []) - E (indicator [l]) ∧ q ≠ 0) ∧
    (∀ a b q, a < b → (((a, b), q) ∈ p.quad ↔
      q = E (indicator [a]) + E (indicator [b]) - E (indicator []) - E (indicator [a, b]) ∧ q ≠ 0)) := by
  intro E
  have hE : ∀ ls, E (indicator ls) = p.energy (indicator ls) :=
    fun ls => (C20_qubo_energy_partial hm hq hd h hρ (indicator_binary ls)).symm
  obtain ⟨bs, m₁, g, off, m₂, h⟩ := toPhysical_ok h
  obtain ⟨h1, h2, h3, h4, h5⟩ := h.terms hm ho hρ
  have h3' : ∀ t ∈ p.quad, t.1.1 < t.1.2 := fun t ht => h3 _ (List.mem_map_of_mem ht)
  obtain ⟨c1, c2⟩ := coefficients h1 h2 h3'
  have hmem : ∀ {κ : Type} [DecidableEq κ] {d : List (κ × ℚ)}, (d.map (·.1)).Nodup → (∀ t ∈ d, t.2 ≠ 0) → ∀ k q,
      (k, q) ∈ d ↔ q = (dget d k).getD 0 ∧ q ≠ 0 := by
    intro κ _ d hd h0 k q
    have := mem_filter_getD hd k q
    rwa [List.filter_eq_self.mpr (fun t ht => by simpa using h0 t ht)] at this
  refine ⟨fun l q => ?_, fun a b q hab => ?_⟩
  · rw [hE, hE, ← c1, hmem h1 (fun t ht => ((h4 t.1 t.2).mp ht).2)]
  · rw [hE, hE, hE, hE, ← c2 a b hab, hmem h2 (fun t ht => ((h5 t.1.1 t.1.2 t.2 (h3' t ht)).mp ht).2)]

example : AllOrdered quboOneHot.rows ∧ ∀ c ∈ quboOneHot.constraints, c.2.Distinct := by
  constructor
  · unfold AllOrdered; exact orderedDec _ (by decide +kernel)
  · intro c hc
    have : c = ("c", .nHot "c" 1 [Ex.b0, Ex.b1] 1) := by revert c; decide +kernel
    subst this
    unfold Constraint.Distinct
    decide

/-! ## C27: the order of the interactions -/

theorem linTotal_perm {x y : List Row} (h : x.Perm y) (ρ : PEnv) (l : String) : linTotal ρ x l = linTotal ρ y l :=
  (h.map _).sum_eq

theorem pairTotal_perm {x y : List Row} (h : x.Perm y) (ρ : PEnv) (a b : String) : pairTotal ρ x a b = pairTotal ρ y a b :=
  (h.map _).sum_eq

/-- Two models that differ in the order of their interactions (and in names, timestamps and attributes): the physical
models have the same terms, offset, indices and energies. -/
theorem C27_order_partial {n n' : LModel} {q : Physical} {env' : Env} {clks' : Nat → Nat → ℚ} {ids' : Nat → String}
    (hm : m.Rect) (hn : n.Rect) (ho : AllOrdered m.rows) (hph : (ph.map (·.1)).Nodup)
    (hperm : (m.rows.map Row.core).Perm (n.rows.map Row.core)) (hcons : m.constraints = n.constraints)
    (hoff : m.offset = n.offset) (ht : m.mtype = n.mtype) (hv : m.vars = n.vars) (hd : m.deleted = n.deleted)
    (h : (toPhysical env clks ids ph).run m = .ok p m') (h' : (toPhysical env' clks' ids' ph).run n = .ok q n') :
    p.linear.Perm q.linear ∧ p.quad.Perm q.quad ∧ p.offset = q.offset ∧ p.mtype = q.mtype ∧
    p.labelToIndex = q.labelToIndex ∧ p.indexToLabel = q.indexToLabel ∧ (∀ l, l ∈ p.varsSet ↔ l ∈ q.varsSet) ∧
    ∀ σ, p.energy σ = q.energy σ := by
  have hon : AllOrdered n.rows := by
    intro r hr
    have : r.core ∈ n.rows.map Row.core := List.mem_map_of_mem hr
    rw [← hperm.mem_iff] at this
    obtain ⟨r', hr', he⟩ := List.mem_map.mp this
    have : r'.core.inter = r.core.inter := by rw [he]
    change r'.inter = r.inter at this
    rw [← this]
    exact ho r' hr'
  have hi := conversion_index h
  have hi' := conversion_index h'
  have hvs := varsSet_iff h
  have hvs' := varsSet_iff h'
  have hρ := envOf_extends hph
  obtain ⟨bs, m₁, g, off, m₂, h⟩ := toPhysical_ok h
  obtain ⟨bs', n₁, g', off', n₂, h'⟩ := toPhysical_ok h'
  obtain ⟨a1, a2, a3, a4, a5⟩ := h.terms hm ho hρ
  obtain ⟨b1, b2, b3, b4, b5⟩ := h'.terms hn hon hρ
  have hmod := h.models
  have hmod' := h'.models
  rw [hcons, ht] at hmod
  have hcores : bs.map (fun b => b.rows.map Row.core) = bs'.map fun b => b.rows.map Row.core :=
    forall₂_map_eq (fun a b b' h1 h2 => by rw [h1.1.contents.1, h2.1.contents.1]) hmod hmod'
  have hoffs : bs.map (·.offset) = bs'.map (·.offset) :=
    forall₂_map_eq (fun a b b' h1 h2 => by rw [h1.1.contents.2, h2.1.contents.2]) hmod hmod'
  have hp₁ : (m₁.rows.map Row.core).Perm (n₁.rows.map Row.core) := by
    rw [h.absorbed.cores, h'.absorbed.cores, List.flatMap_def, List.flatMap_def, hcores]
    exact hperm.append_right _
  have hlin : ∀ l, linTotal (envOf ph) m₁.rows l = linTotal (envOf ph) n₁.rows l := by
    intro l
    rw [linTotal_cores (y := m₁.rows.map Row.core) (by rw [List.map_map]; rfl), linTotal_perm hp₁,
      ← linTotal_cores (x := n₁.rows) (by rw [List.map_map]; rfl)]
  have hquad : ∀ a b, pairTotal (envOf ph) m₁.rows a b = pairTotal (envOf ph) n₁.rows a b := by
    intro a b
    rw [pairTotal_cores (y := m₁.rows.map Row.core) (by rw [List.map_map]; rfl), pairTotal_perm hp₁,
      ← pairTotal_cores (x := n₁.rows) (by rw [List.map_map]; rfl)]
  have hL : p.linear.Perm q.linear := by
    rw [List.perm_ext_iff_of_nodup a1.of_map b1.of_map]
    rintro ⟨l, x⟩
    rw [a4, b4, hlin]
  have hQ : p.quad.Perm q.quad := by
    rw [List.perm_ext_iff_of_nodup a2.of_map b2.of_map]
    rintro ⟨⟨a, b⟩, x⟩
    constructor
    · intro hx
      have hab := a3 (a, b) (List.mem_map_of_mem (f := (·.1)) hx)
      rw [a5 a b x hab] at hx
      rw [b5 a b x hab, ← hquad]
      exact hx
    · intro hx
      have hab := b3 (a, b) (List.mem_map_of_mem (f := (·.1)) hx)
      rw [b5 a b x hab] at hx
      rw [a5 a b x hab, hquad]
      exact hx
  have hfold : ∀ (l : List LModel) (o : Coef),
      l.foldl (fun o b => o.add b.offset) o = (l.map (·.offset)).foldl (fun o b => o.add b) o := by
    intro l o
    rw [List.foldl_map]
  have ho₁ : m₁.offset = n₁.offset := by
    rw [h.absorbed.offset, h'.absorbed.offset, hfold, hfold, hoffs, hoff]
  have hoff₂ : off = off' := by
    have h1 := h.offset
    rw [ho₁, h'.offset] at h1
    cases h1
    rfl
  have hO : p.offset = q.offset := by
    rw [h.result, h'.result]
    exact hoff₂
  have hmem : ∀ l, l ∈ p.varsSet ↔ l ∈ q.varsSet := by
    intro l
    rw [hvs, hvs', dkeys, dkeys, dkeys, dkeys]
    rw [(hL.map _).mem_iff]
    simp only [(hQ.map _).mem_iff]
  have hnum : numbering m p.varsSet = numbering n q.varsSet := by
    have hlab : m.labels = n.labels := by unfold LModel.labels; rw [hv]
    simp only [numbering, hlab, hd]
    congr 1
    funext x l
    simp only [numberStep, hmem]
  refine ⟨hL, hQ, hO, ?_, by rw [hi.1, hi'.1, hnum], by rw [hi.2, hi'.2, hnum], hmem, fun σ => ?_⟩
  · rw [h.result, h'.result]
    simp only [buildPhysical]
    rw [h.absorbed.same, h'.absorbed.same]
    exact ht
  · simp only [Physical.energy, hO]
    rw [(hL.map _).sum_eq, (hQ.map _).sum_eq]

/-- Without constraints the order does not matter for success either. -/
theorem C27_success_partial {n : LModel} {env' : Env} {clks' : Nat → Nat → ℚ} {ids' : Nat → String}
    (hm : m.Rect) (hn : n.Rect) (hu : m.names.Nodup) (hperm : m.rows.Perm n.rows) (hcm : m.constraints = [])
    (hcn : n.constraints = []) (hoff : m.offset = n.offset) :
    (∃ p m', (toPhysical env clks ids ph).run m = .ok p m') ↔ ∃ q n', (toPhysical env' clks' ids' ph).run n = .ok q n' := by
  have hu' : n.names.Nodup := (hperm.map _).nodup_iff.mp hu
  rw [C19_succeeds_partial hm hu hcm, C19_succeeds_partial hn hu' hcn]
  simp only [LModel.Filled, hperm.mem_iff, hoff]

/-! ## C14: fixed variables -/

/-- After a successful `fix_variable` no active interaction has the variable, and it is not among the variables of the
next physical model, if it is not in a constraint. Removed interactions do no harm here. -/
theorem C14_fixed_gone_partial {v : PVar} {clk : Nat → ℚ} {a : PyNum} {m₀ : LModel} (hu : m₀.names.Nodup)
    (ho : AllOrdered m₀.rows) (hf : (fixVariable clk v a).run m₀ = .ok ⟨⟩ m) :
    (∀ r ∈ m.rows, r.inter.mentions v.label → r.removed = true) ∧
    ((∀ c ∈ m.constraints, ∀ vs ∈ c.2.sets, ∀ w ∈ vs, w.label ≠ v.label) →
      (toPhysical env clks ids ph).run m = .ok p m' → v.label ∉ p.varsSet) := by
  have hrows : ∀ r ∈ m.rows, r.touches v.label = true → r.removed = true := by
    unfold fixVariable at hf
    py_simp at hf
    cases hc : checkFixValue m₀.mtype a with
    | error e => rw [hc] at hf; cases hf
    | ok q =>
      rw [hc] at hf
      simp only [Py.run_liftE_ok] at hf
      rw [selectByVariable_run] at hf
      by_cases hb : (m₀.attrCols.any fun c => decide (c.2.length ≠ m₀.rows.length)) = true
      · rw [if_pos hb] at hf
        cases hf
      rw [if_neg hb] at hf
      simp only at hf
      by_cases he : (touching v.label m₀.rows).isEmpty = true
      · rw [if_pos he] at hf
        cases hf
        have : m₀.rows.filter (·.touches v.label) = [] := by simpa [touching] using he
        intro r hr ht
        exact absurd (List.mem_filter.mpr ⟨hr, ht⟩) (by rw [this]; simp)
      · rw [if_neg he] at hf
        by_cases hq : q = 0
        · rw [if_pos hq] at hf
          have hne := removeLoop_ne hf
          rw [removeLoop_run _ { m₀ with fixed := sadd m₀.fixed v.label } hne (fun n hn => touching_sub n hn) hu] at hf
          cases hf
          intro r hr ht
          simp only [rmNames_touching (l := v.label) hu] at hr
          obtain ⟨r', hr', rfl⟩ := List.mem_map.mp hr
          split
          · rfl
          · rename_i h1
            rw [if_neg h1] at ht
            exact absurd ht h1
        · rw [if_neg hq] at hf
          intro r hr ht
          rcases fixLoop_touch (m := { m₀ with fixed := sadd m₀.fixed v.label })
            (P := fun l => (l.map fun r : Row => r.name).Nodup ∧ AllOrdered l) (touching v.label m₀.rows) 0
            ⟨fun l r h h1 h2 h3 => ⟨nodup_closed.append l r h.1 h1 h2 h3, ordered_closed.append l r h.2 h1 h2 h3⟩,
              fun l l' h h1 => ⟨nodup_closed.upd l l' h.1 h1, ordered_closed.upd l l' h.2 h1⟩⟩ (fun l h => h) ⟨hu, ho⟩ hf r hr ht
            with h1 | ⟨h1, h2⟩
          · exact h1
          · exact absurd ((mem_touching hu h1).mpr ht) h2
  have hment : ∀ r : Row, r.inter.mentions v.label → r.touches v.label = true := by
    intro r h
    have ht : r.touches v.label = true ↔ (r.inter.key0 = v.label ∨ r.inter.key1 = some v.label) := by
      simp [Row.touches]
    rw [ht]
    cases hi : r.inter with
    | lin w => rw [hi] at h; exact .inl h
    | quad x y => rw [hi] at h; exact h.imp id (congrArg some)
  refine ⟨fun r hr h => hrows r hr (hment r h), fun hc h hl => ?_⟩
  rcases physical_vars h hl with ⟨r, hr, hrm, hmn⟩ | ⟨c, hc', vs, hvs, w, hw, e⟩
  · rw [hrows r hr (hment r hmn)] at hrm
    cases hrm
  · exact hc c hc' vs hvs w hw e

example : (∀ c ∈ quboOneHot.constraints, ∀ vs ∈ c.2.sets, ∀ w ∈ vs, w.label ∈ quboOneHot.allLabels ∧ w.label ∉ quboOneHot.deleted) ∧
    quboOneHot.constraints ≠ [] := by decide

/-- A constraint brings the fixed variable back. -/
theorem C14_constraint_refuted :
    let m := Ex.after quboOneHot (fixVariable (fun _ => 2) Ex.b0 (.num 1))
    ((fixVariable (fun _ => 2) Ex.b0 (.num 1)).run quboOneHot).isOk = true ∧
    ∃ p m', (toPhysical ⟨0, fun _ => ""⟩ (fun _ _ => 0) (fun _ => "1") []).run m = .ok p m' ∧ "x[0]" ∈ p.varsSet := by
  refine ⟨by decide, _, _, rfl, ?_⟩
  decide +kernel

example : Ex.ising.names.Nodup ∧ AllOrdered Ex.ising.rows ∧ Ex.ising.constraints = [] ∧
    ((fixVariable (fun _ => 2) Ex.x1 (.num 1)).run Ex.ising).isOk = true := by
  refine ⟨by decide, ?_, by decide, by decide⟩
  exact orderedDec _ (by decide +kernel)

end Sawatabi.Props
