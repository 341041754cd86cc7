import Verif.Props.DeleteFix

/-!
# C11, exactly: deletion with interactions that share a name
-/

namespace Sawatabi.Props

variable {m m' : LModel} {v : PVar}

/-- The position of the first interaction with this name. -/
def firstNamed (rows : List Row) (n : String) : Nat := (rows.map (·.name)).idxOf n

theorem findIdx_idxOf {n : String} {l : List String} (h : n ∈ l) : l.findIdx? (· = n) = some (l.idxOf n) := by
  induction l with
  | nil => cases h
  | cons x l ih =>
    by_cases hx : x = n
    · subst hx; rw [List.findIdx?_cons]; simp
    · rw [List.findIdx?_cons, List.idxOf_cons_ne _ hx]
      have := ih (by simpa [Ne.symm hx] using h)
      simp [hx, this]

theorem indexOf_firstNamed {n : String} (h : n ∈ m.names) : m.indexOf n = .ok (firstNamed m.rows n) := by
  unfold LModel.indexOf
  unfold LModel.names at h
  rw [show m.rows.findIdx? (·.name = n) = (m.rows.map (·.name)).findIdx? (· = n) by rw [List.findIdx?_map]; rfl,
    findIdx_idxOf h]
  rfl

/-- The first interaction with each of these names is marked. -/
def markFirst (ns : List String) (rows : List Row) : List Row :=
  rows.mapIdx fun i r => if r.name ∈ ns ∧ firstNamed rows r.name = i then rmRow r else r

theorem firstNamed_name {rows : List Row} {n : String} {r : Row} (h : rows[firstNamed rows n]? = some r)
    (hn : n ∈ rows.map (·.name)) : r.name = n := by
  have h1 := List.getElem?_eq_some_iff.mp h
  obtain ⟨hlt, h2⟩ := h1
  have h3 := List.getElem_idxOf (x := n) (xs := rows.map (·.name)) (List.idxOf_lt_length_iff.mpr hn)
  rw [List.getElem_map] at h3
  rw [← h2]
  exact h3

theorem markFirst_cons {ns : List String} {rows : List Row} {n : String} (hn : n ∈ rows.map (·.name)) :
    markFirst ns (rows.modify (firstNamed rows n) rmRow) = markFirst (n :: ns) rows := by
  have hf : ∀ k, firstNamed (rows.modify (firstNamed rows n) rmRow) k = firstNamed rows k := by
    intro k
    unfold firstNamed
    rw [map_name_modify _ _ rmRow fun _ => rfl]
  apply List.ext_getElem?
  intro i
  unfold markFirst
  simp only [List.getElem?_mapIdx, List.getElem?_modify, hf]
  cases hr : rows[i]? with
  | none => rfl
  | some r =>
    simp only [Option.map_eq_map, Option.map_some, Option.some.injEq, List.mem_cons]
    by_cases hi : firstNamed rows n = i
    · have hname : r.name = n := firstNamed_name (by rw [hi]; exact hr) hn
      rw [if_pos hi, show (rmRow r).name = n from hname]
      simp only [hname, hi, and_true, true_or, if_true]
      split <;> rfl
    · rw [if_neg hi]
      by_cases hk : r.name = n
      · simp only [hk, hi, and_false, if_false]
      · simp only [hk, false_or]

/-- The loop of `delete_variable` over names, some of which may belong to several interactions. -/
theorem removeLoop_dup (ns : List String) (m : LModel) (hne : ∀ n ∈ ns, n ≠ "") (hsub : ∀ n ∈ ns, n ∈ m.names) :
    (ns.forM fun n => removeInteraction .none (.str n)).run m = .ok ⟨⟩ { m with rows := markFirst ns m.rows } := by
  induction ns generalizing m with
  | nil =>
    have : markFirst [] m.rows = m.rows := by
      unfold markFirst
      apply List.ext_getElem <;> simp
    rw [this]
    rfl
  | cons n ns ih =>
    have hn := hsub n (by simp)
    rw [Py.run_forM_cons, removeByName_run n (hne n (by simp)), indexOf_firstNamed hn]
    simp only
    rw [ih _ (fun k hk => hne k (by simp [hk])) (fun k hk => by
      have h1 := hsub k (by simp [hk])
      have h2 := map_name_modify m.rows (firstNamed m.rows n) rmRow fun _ => rfl
      unfold LModel.names at h1 ⊢
      exact h2.symm ▸ h1)]
    simp only [markFirst_cons (ns := ns) (rows := m.rows) hn]

theorem firstNamed_iff {rows : List Row} {i : Nat} {r : Row} (hi : rows[i]? = some r) :
    firstNamed rows r.name = i ↔ ∀ j q, rows[j]? = some q → q.name = r.name → i ≤ j := by
  obtain ⟨hlt, hir⟩ := List.getElem?_eq_some_iff.mp hi
  have hmem : r.name ∈ rows.map (·.name) := List.mem_map.mpr ⟨r, List.mem_of_getElem? hi, rfl⟩
  have hlt' : firstNamed rows r.name < rows.length := by
    have := List.idxOf_lt_length_iff.mpr hmem
    rw [List.length_map] at this
    exact this
  have hmin : ∀ j q, rows[j]? = some q → q.name = r.name → firstNamed rows r.name ≤ j := by
    intro j q hj hq
    obtain ⟨hj', hjq⟩ := List.getElem?_eq_some_iff.mp hj
    by_contra hc
    have := List.not_of_lt_findIdx (p := (· == r.name)) (xs := rows.map (·.name)) (i := j) (by unfold firstNamed List.idxOf at hc; omega)
    simp [hjq, hq] at this
  constructor
  · intro h j q hj hq; rw [← h]; exact hmin j q hj hq
  · intro h
    refine Nat.le_antisymm (hmin i r hi rfl) (h _ _ (List.getElem?_eq_getElem hlt') ?_)
    exact firstNamed_name (List.getElem?_eq_getElem hlt') hmem

/-- **C11** for every model, whatever the names: a successful deletion marks, for each interaction on the variable, the first
interaction that has its name, and nothing else. -/
theorem C11_delete_exact (h : (deleteVariable v).run m = .ok ⟨⟩ m') :
    ∃ cs, m' = { m with deleted := sadd m.deleted v.label, constraints := cs, rows := m'.rows } ∧
      m'.rows.length = m.rows.length ∧
      ∀ (i : Nat) (r r' : Row), m.rows[i]? = some r → m'.rows[i]? = some r' →
        (((∃ q ∈ m.rows, (q.inter.key0 = v.label ∨ q.inter.key1 = some v.label) ∧ q.name = r.name) ∧
            (∀ (j : Nat) (q : Row), m.rows[j]? = some q → q.name = r.name → i ≤ j) → r' = { r with removed := true, dirty := true }) ∧
          (¬ ((∃ q ∈ m.rows, (q.inter.key0 = v.label ∨ q.inter.key1 = some v.label) ∧ q.name = r.name) ∧
            (∀ (j : Nat) (q : Row), m.rows[j]? = some q → q.name = r.name → i ≤ j)) → r' = r)) := by
  unfold deleteVariable at h
  py_simp at h
  obtain ⟨cs, hcs⟩ := removeFromConstraints_rel v (dkeys m.constraints) { m with deleted := sadd m.deleted v.label }
  cases hr : ((dkeys m.constraints).forM (removeFromConstraint v)).run { m with deleted := sadd m.deleted v.label } with
  | error e t => rw [hr] at h; cases h
  | ok u t =>
    rw [hr] at h hcs
    simp only [Res.state] at hcs h
    subst hcs
    rw [selectByVariable_run] at h
    by_cases hb : (m.attrCols.any fun c => decide (c.2.length ≠ m.rows.length)) = true
    · rw [if_pos hb] at h; cases h
    rw [if_neg hb] at h
    simp only at h
    have hne := removeLoop_ne h
    rw [removeLoop_dup _ { m with deleted := sadd m.deleted v.label, constraints := cs } hne fun n hn => touching_sub n hn] at h
    cases h
    refine ⟨cs, rfl, by simp [markFirst], fun i r r' hi hi' => ?_⟩
    have hmem : ∀ n, n ∈ touching v.label m.rows ↔
        ∃ q ∈ m.rows, (q.inter.key0 = v.label ∨ q.inter.key1 = some v.label) ∧ q.name = n := by
      intro n
      unfold touching
      simp only [List.mem_map, List.mem_filter]
      constructor
      · rintro ⟨q, ⟨h1, h2⟩, h3⟩; exact ⟨q, h1, by simpa [Row.touches] using h2, h3⟩
      · rintro ⟨q, h1, h2, h3⟩; exact ⟨q, ⟨h1, by simpa [Row.touches] using h2⟩, h3⟩
    simp only [markFirst, List.getElem?_mapIdx, hi, Option.map_some, Option.some.injEq] at hi'
    rw [← hi']
    rw [← hmem, ← firstNamed_iff hi]
    constructor
    · intro hc; rw [if_pos hc]; rfl
    · intro hc; rw [if_neg hc]

/-- So no active interaction on the variable is left exactly if each one was the first with its name. -/
theorem C11_delete_clean_iff (h : (deleteVariable v).run m = .ok ⟨⟩ m') :
    (∀ r ∈ m'.rows, r.inter.key0 = v.label ∨ r.inter.key1 = some v.label → r.removed = true) ↔
      ∀ (i : Nat) (r : Row), m.rows[i]? = some r → r.inter.key0 = v.label ∨ r.inter.key1 = some v.label → r.removed = false →
        ∀ (j : Nat) (q : Row), m.rows[j]? = some q → q.name = r.name → i ≤ j := by
  obtain ⟨cs, _, hlen, hall⟩ := C11_delete_exact h
  constructor
  · intro hc i r hi ht hrm j q hj hq
    obtain ⟨hlt, _⟩ := List.getElem?_eq_some_iff.mp hi
    have hi' : m'.rows[i]? = some (m'.rows[i]'(by omega)) := List.getElem?_eq_getElem _
    by_contra hlt'
    have hr' := (hall i r _ hi hi').2 fun hx => hlt' (hx.2 j q hj hq)
    have := hc _ (List.getElem_mem (by omega : i < m'.rows.length)) (by rw [hr']; exact ht)
    rw [hr', hrm] at this
    cases this
  · intro hc r' hr' ht
    obtain ⟨i, hi, rfl⟩ := List.getElem_of_mem hr'
    have hi' : m'.rows[i]? = some m'.rows[i] := List.getElem?_eq_getElem _
    have hlt : i < m.rows.length := by omega
    have him : m.rows[i]? = some m.rows[i] := List.getElem?_eq_getElem _
    obtain ⟨h1, h2⟩ := hall i _ _ him hi'
    by_cases hcond : (∃ q ∈ m.rows, (q.inter.key0 = v.label ∨ q.inter.key1 = some v.label) ∧ q.name = m.rows[i].name) ∧
        (∀ (j : Nat) (q : Row), m.rows[j]? = some q → q.name = m.rows[i].name → i ≤ j)
    · rw [h1 hcond]
    · have he := h2 hcond
      rw [he] at ht ⊢
      by_contra hrm
      exact hcond ⟨⟨m.rows[i], List.getElem_mem hlt, ht, rfl⟩, hc i _ him ht (by simpa using hrm)⟩

/-- The model of `C11_delete_duplicate_refuted`: two interactions share a name. -/
example : ∃ m m', (deleteVariable Ex.x1).run m = .ok ⟨⟩ m' ∧ ¬ m.names.Nodup := by
  refine ⟨Op.step ⟨0, fun _ => ""⟩ (Ex.after (LModel.new .ising "101") (addInteraction 1 (.var Ex.x0) (.str "") (.num 1) (.num 1)
      .none .none)) (.merge (fun _ => 0) (Ex.after (LModel.new .ising "102") (do
      addInteraction 1 (.var Ex.x0) (.str "") (.num 1) (.num 1) .none .none
      addInteraction 1 (.var Ex.x1) (.str "x[0] (101)") (.num 1) (.num 1) .none .none))), _, rfl, by decide +kernel⟩

end Sawatabi.Props
