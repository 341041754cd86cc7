import Verif.Lemmas.Absorb
import Verif.Lemmas.ToPhysical

/-!
# The removal loop of `to_physical`
-/

namespace Sawatabi

/-- The entries of a column that belong to rows with `P`. -/
def keep {α : Type} (P : Row → Bool) (rows : List Row) (col : List α) : List α :=
  ((rows.zip col).filter fun x => P x.1).map (·.2)

section keep
variable {α : Type}

theorem keep_cons (P : Row → Bool) (r : Row) (rows : List Row) (x : α) (col : List α) :
    keep P (r :: rows) (x :: col) = if P r then x :: keep P rows col else keep P rows col := by
  unfold keep
  rw [List.zip_cons_cons, List.filter_cons]
  cases P r <;> simp

theorem keep_length (P : Row → Bool) (rows : List Row) (col : List α) (h : col.length = rows.length) :
    (keep P rows col).length = (rows.filter P).length := by
  induction rows generalizing col with
  | nil => simp [keep]
  | cons r rows ih =>
    cases col with
    | nil => cases h
    | cons x col =>
      rw [keep_cons, List.filter_cons]
      have := ih col (by simpa using h)
      cases P r <;> simp [this]

theorem keep_keep (P Q : Row → Bool) (rows : List Row) (col : List α) (h : col.length = rows.length) :
    keep Q (rows.filter P) (keep P rows col) = keep (fun r => P r && Q r) rows col := by
  induction rows generalizing col with
  | nil => simp [keep]
  | cons r rows ih =>
    cases col with
    | nil => cases h
    | cons x col =>
      have := ih col (by simpa using h)
      rw [keep_cons, keep_cons, List.filter_cons]
      cases hP : P r
      · simpa using this
      · simp [keep_cons, this]

theorem keep_all {P : Row → Bool} {rows : List Row} {col : List α} (h : col.length = rows.length)
    (hP : ∀ r ∈ rows, P r = true) : keep P rows col = col := by
  induction rows generalizing col with
  | nil => cases col <;> simp_all [keep]
  | cons r rows ih =>
    cases col with
    | nil => cases h
    | cons x col =>
      rw [keep_cons, hP r (by simp), if_pos rfl, ih (by simpa using h) fun r' hr' => hP r' (by simp [hr'])]

theorem keep_congr {P Q : Row → Bool} {rows : List Row} (col : List α) (h : ∀ r ∈ rows, P r = Q r) :
    keep P rows col = keep Q rows col := by
  unfold keep
  congr 1
  apply List.filter_congr
  rintro ⟨r, x⟩ hx
  exact h r (List.of_mem_zip hx).1

/-- Erasing the row with a unique name. -/
theorem eraseIdx_filter {rows : List Row} (hn : (rows.map (·.name)).Nodup) {i : Nat} (hi : i < rows.length) {n : String}
    (hnm : rows[i].name = n) :
    rows.eraseIdx i = rows.filter (fun r => r.name != n) ∧
    ∀ {α : Type} (col : List α), col.length = rows.length → col.eraseIdx i = keep (fun r => r.name != n) rows col := by
  induction rows generalizing i with
  | nil => simp at hi
  | cons r rows ih =>
    rw [List.map_cons, List.nodup_cons] at hn
    cases i with
    | zero =>
      simp only [List.getElem_cons_zero] at hnm
      have hall : ∀ r' ∈ rows, (r'.name != n) = true := by
        intro r' hr'
        simp only [bne_iff_ne, ne_eq]
        intro he
        exact hn.1 (List.mem_map.mpr ⟨r', hr', by rw [he, hnm]⟩)
      constructor
      · rw [List.filter_cons, hnm]
        simp only [bne_self_eq_false, Bool.false_eq_true, if_false, List.eraseIdx_zero, List.tail_cons]
        exact (List.filter_eq_self.mpr hall).symm
      · intro α col hc
        cases col with
        | nil => cases hc
        | cons x col =>
          rw [keep_cons, hnm]
          simp only [bne_self_eq_false, Bool.false_eq_true, if_false, List.eraseIdx_zero, List.tail_cons]
          exact (keep_all (by simpa using hc) hall).symm
    | succ i =>
      simp only [List.getElem_cons_succ] at hnm
      have hi' : i < rows.length := by simpa using hi
      obtain ⟨h1, h2⟩ := ih hn.2 hi' hnm
      have hr : (r.name != n) = true := by
        simp only [bne_iff_ne, ne_eq]
        intro he
        exact hn.1 (List.mem_map.mpr ⟨rows[i], List.getElem_mem hi', by rw [hnm, he]⟩)
      constructor
      · rw [List.eraseIdx_cons_succ, List.filter_cons, hr, if_pos rfl, h1]
      · intro α col hc
        cases col with
        | nil => cases hc
        | cons x col =>
          rw [List.eraseIdx_cons_succ, keep_cons, hr, if_pos rfl, h2 col (by simpa using hc)]

end keep

theorem dict_ext {ν : Type} {d e : List (String × ν)} (hk : dkeys d = dkeys e) (hn : (dkeys d).Nodup)
    (h : ∀ k, dget d k = dget e k) : d = e := by
  induction d generalizing e with
  | nil =>
    cases e with
    | nil => rfl
    | cons p e => cases hk
  | cons p d ih =>
    cases e with
    | nil => cases hk
    | cons q e =>
      obtain ⟨k, v⟩ := p
      obtain ⟨k', v'⟩ := q
      simp only [dkeys, List.map_cons, List.cons.injEq] at hk
      obtain ⟨rfl, hk⟩ := hk
      have hn' := List.nodup_cons.mp hn
      have h0 := h k
      simp only [dget, if_true, Option.some.injEq] at h0
      subst h0
      congr 1
      apply ih hk hn'.2
      intro k₂
      by_cases hkk : k₂ = k
      · subst hkk
        rw [(dget_eq_none_iff d k₂).mpr hn'.1, (dget_eq_none_iff e k₂).mpr (by
          have := hn'.1
          rw [hk] at this
          exact this)]
      · have := h k₂
        simpa only [dget, if_neg (fun hh => hkk (Eq.symm hh))] using this

/-- The model with only the rows `P`. -/
def LModel.prune (P : Row → Bool) (m : LModel) : LModel :=
  { m with rows := m.rows.filter P, attrCols := m.attrCols.map fun p => (p.1, keep P m.rows p.2)
           length := (m.rows.filter P).length }

theorem prune_rect {m : LModel} (hm : m.Rect) (P : Row → Bool) : (m.prune P).Rect where
  len := rfl
  keys := by
    rw [show (m.prune P).attrs = m.attrs from rfl, ← hm.keys]
    simp [LModel.prune, dkeys]
  nodup := hm.nodup
  cols := by
    intro p hp
    simp only [LModel.prune, List.mem_map] at hp
    obtain ⟨q, hq, rfl⟩ := hp
    exact keep_length P _ _ (hm.cols q hq)

theorem prune_congr {P Q : Row → Bool} {m : LModel} (h : ∀ r ∈ m.rows, P r = Q r) : m.prune P = m.prune Q := by
  unfold LModel.prune
  rw [List.filter_congr h]
  congr 1
  apply List.map_congr_left
  intro p _
  rw [keep_congr p.2 h]

theorem prune_prune {m : LModel} (hm : m.Rect) (P Q : Row → Bool) :
    (m.prune P).prune Q = m.prune fun r => P r && Q r := by
  unfold LModel.prune
  simp only [List.filter_filter, List.map_map]
  have h1 : (m.rows.filter fun r => Q r && P r) = m.rows.filter fun r => P r && Q r :=
    List.filter_congr fun r _ => Bool.and_comm _ _
  rw [h1]
  congr 1
  apply List.map_congr_left
  intro p hp
  simp only [Function.comp, keep_keep P Q _ _ (hm.cols p hp)]

theorem prune_true {m : LModel} (hm : m.Rect) : m.prune (fun _ => true) = m := by
  have h1 : m.rows.filter (fun _ => true) = m.rows := List.filter_eq_self.mpr (by simp)
  have h2 : (m.attrCols.map fun p => (p.1, keep (fun _ => true) m.rows p.2)) = m.attrCols := by
    conv_rhs => rw [← List.map_id m.attrCols]
    apply List.map_congr_left
    intro p hp
    rw [keep_all (hm.cols p hp) (by simp)]
    rfl
  unfold LModel.prune
  rw [h1, h2, ← hm.len]

theorem popRow_prune {m : LModel} (hm : m.Rect) (hn : m.names.Nodup) {n : String} (h : n ∈ m.names) :
    (popRow n).run m = .ok ⟨⟩ (m.prune fun r => r.name != n) := by
  obtain ⟨i, hi⟩ := indexOf_mem h
  obtain ⟨c, h1, h2, h3⟩ := popRow_ok n m hm hi
  obtain ⟨hlt, hnm⟩ := indexOf_ok hi
  obtain ⟨h4, h5⟩ := eraseIdx_filter hn hlt hnm
  rw [h1]
  congr 1
  unfold LModel.prune
  have hlen : m.length - 1 = (m.rows.filter fun r => r.name != n).length := by
    rw [← h4, List.length_eraseIdx_of_lt hlt, hm.len]
    omega
  rw [hlen, h4]
  congr 1
  apply dict_ext
  · have := h2.keys
    simp only at this
    rw [this, ← hm.keys]
    simp [dkeys]
  · have := h2.keys
    simp only at this
    rw [this]
    exact hm.nodup
  · intro k
    rw [h3 k]
    cases hc : dget m.attrCols k with
    | none =>
      symm
      rw [Option.map_none, dget_eq_none_iff]
      have := (dget_eq_none_iff _ _).mp hc
      simpa [dkeys] using this
    | some col =>
      have hmem := dget_mem hc
      rw [Option.map_some, h5 col (hm.cols _ hmem)]
      symm
      apply dget_of_mem
      · have : (dkeys (m.attrCols.map fun p => (p.1, keep (fun r => r.name != n) m.rows p.2))) = dkeys m.attrCols := by
          simp [dkeys]
        rw [this, hm.keys]
        exact hm.nodup
      · exact List.mem_map.mpr ⟨_, hmem, rfl⟩

theorem prune_names {m : LModel} (hn : m.names.Nodup) (P : Row → Bool) : (m.prune P).names.Nodup :=
  (List.filter_sublist.map _).nodup hn

/-- The removal loop. -/
theorem popRows_prune {m : LModel} (hm : m.Rect) (hn : m.names.Nodup) (ns : List String) (hns : ns.Nodup)
    (hsub : ∀ n ∈ ns, n ∈ m.names) :
    (ns.forM popRow).run m = .ok ⟨⟩ (m.prune fun r => !ns.contains r.name) := by
  induction ns generalizing m with
  | nil =>
    simp only [List.contains_nil, Bool.not_false]
    rw [prune_true hm]
    rfl
  | cons n ns ih =>
    have hnd := List.nodup_cons.mp hns
    rw [Py.run_forM_cons, popRow_prune hm hn (hsub n (by simp))]
    simp only
    rw [ih (prune_rect hm _) (prune_names hn _) hnd.2 (by
      intro k hk
      obtain ⟨r, hr, hrn⟩ := List.mem_map.mp (hsub k (by simp [hk]))
      refine List.mem_map.mpr ⟨r, List.mem_filter.mpr ⟨hr, ?_⟩, hrn⟩
      simp only [bne_iff_ne, ne_eq, hrn]
      rintro rfl
      exact hnd.1 hk), prune_prune hm]
    congr 2
    funext r
    rw [List.contains_cons, Bool.not_or]
    rfl

/-! ## The whole conversion -/

theorem Absorbed.restored {m m₁ : LModel} {bs : List LModel} (h : Absorbed m bs m₁) : restored m m₁ = m := by
  rw [h.same]
  rfl

theorem constraintLoop_rect {env : Env} {clks : Nat → Nat → ℚ} {ids : Nat → String}
    {cs : List ((String × Constraint) × Nat)} {a a₁ : LModel} (ha : a.Rect)
    (h : (cs.forM (mergeConstraint env clks ids)).run a = .ok ⟨⟩ a₁) : a₁.Rect := by
  have : KeepsRect (cs.forM (mergeConstraint env clks ids)) := .forM fun p _ => mergeConstraint_rect env clks ids p
  have := this a ha
  rw [h] at this
  exact this

/-- The intermediate results of a successful `to_physical`. -/
structure Conversion (env : Env) (clks : Nat → Nat → ℚ) (ids : Nat → String) (ph : List (String × ℚ)) (m : LModel)
    (p : Physical) (m' : LModel) (bs : List LModel) (m₁ : LModel) (g : Groups) (off : ℚ) (m₂ : LModel) : Prop where
  loop : (m.constraints.zipIdx.forM (mergeConstraint env clks ids)).run m = .ok ⟨⟩ m₁
  models : List.Forall₂ (fun p b => ConstraintModel env (clks p.2) (ids p.2) p.1.2 m.mtype b ∧ Bare b)
    m.constraints.zipIdx bs
  absorbed : Absorbed m bs m₁
  group : group ph m₁ = .ok g
  offset : m₁.offset.resolve ph = .ok off
  result : p = buildPhysical m₁ g off
  removal : (g.willRemove.forM popRow).run m = .ok ⟨⟩ m₂
  final : m' = markClean m₂

theorem toPhysical_ok {env : Env} {clks : Nat → Nat → ℚ} {ids : Nat → String} {ph : List (String × ℚ)} {m m' : LModel}
    {p : Physical} (h : (toPhysical env clks ids ph).run m = .ok p m') :
    ∃ bs m₁ g off m₂, Conversion env clks ids ph m p m' bs m₁ g off m₂ := by
  rw [toPhysical_run] at h
  split at h
  · cases h
  rename_i m₁ h₁
  split at h
  · cases h
  rename_i g h₂
  split at h
  · cases h
  rename_i off h₃
  split at h
  · cases h
  rename_i m₂ h₄
  cases h
  obtain ⟨bs, hbs, habs⟩ := constraintLoop_absorbed _ h₁
  rw [habs.restored] at h₄
  exact ⟨bs, m₁, g, off, m₂, h₁, hbs, habs, h₂, h₃, rfl, h₄, rfl⟩

theorem Conversion.rect {env : Env} {clks : Nat → Nat → ℚ} {ids : Nat → String} {ph : List (String × ℚ)} {m m' : LModel}
    {p : Physical} {bs : List LModel} {m₁ : LModel} {g : Groups} {off : ℚ} {m₂ : LModel}
    (h : Conversion env clks ids ph m p m' bs m₁ g off m₂) (hm : m.Rect) : m₁.Rect := constraintLoop_rect hm h.loop

/-! ## Constraint models -/

theorem Item.row_removed (now : ℚ) (label : String) (it : Item) : (it.row now label).removed = false := rfl

theorem cores_active (c : Constraint) (mt : MType) : ∀ r ∈ c.cores mt, r.removed = false := by
  intro r hr
  cases mt with
  | qubo =>
    obtain ⟨it, _, rfl⟩ := List.mem_map.mp hr
    rfl
  | ising =>
    rcases List.mem_append.mp hr with hr | hr
    · obtain ⟨it, _, rfl⟩ := List.mem_map.mp hr
      simp only [Row.core, convRow, Item.row]
      cases it with
      | lin v c => rfl
      | pair v w c =>
        simp only [Bool.false_eq_true, if_false]
        split <;> rename_i heq <;> split at heq <;> cases heq <;> rfl
    · obtain ⟨it, _, rfl⟩ := List.mem_map.mp hr
      rfl

theorem ConstraintModel.active {env : Env} {clk : Nat → ℚ} {id : String} {c : Constraint} {mt : MType} {b : LModel}
    (h : ConstraintModel env clk id c mt b) : ∀ r ∈ b.rows, r.removed = false := by
  intro r hr
  have := cores_active c mt r.core (by rw [← h.contents.1]; exact List.mem_map_of_mem hr)
  exact this

theorem Row.core_anon (r : Row) : r.anon.core = r.core := rfl

theorem Absorbed.cores {a a₁ : LModel} {bs : List LModel} (h : Absorbed a bs a₁) :
    a₁.rows.map Row.core = a.rows.map Row.core ++ bs.flatMap fun b => b.rows.map Row.core := by
  have : ∀ l : List Row, l.map Row.core = (l.map Row.anon).map Row.core := by
    intro l
    rw [List.map_map]
    rfl
  rw [this a₁.rows, h.rows, ← this, List.map_append, List.map_flatMap]

/-- Rows of the merged table. -/
theorem Absorbed.split {a a₁ : LModel} {bs : List LModel} (h : Absorbed a bs a₁) :
    ∃ xs ys, a₁.rows = xs ++ ys ∧ xs.length = a.rows.length ∧ xs.map Row.anon = a.rows.map Row.anon ∧
      ys.map Row.anon = (bs.flatMap (·.rows)).map Row.anon := by
  have hl := congrArg List.length h.rows
  simp only [List.length_map, List.length_append] at hl
  have hx : (a₁.rows.take a.rows.length).map Row.anon = a.rows.map Row.anon := by
    rw [List.map_take, h.rows, List.map_append, List.take_append_of_le_length (by simp), List.take_of_length_le (by simp)]
  refine ⟨a₁.rows.take a.rows.length, a₁.rows.drop a.rows.length, by simp, by simp; omega, hx, ?_⟩
  rw [List.map_drop, h.rows, List.map_append, List.drop_append_of_le_length (by simp), List.drop_of_length_le (by simp)]
  simp

/-- If no constraint generates the name of a removed interaction, the removed names are those of the model. -/
theorem Absorbed.removed {a a₁ : LModel} {bs : List LModel} (h : Absorbed a bs a₁)
    (hb : ∀ b ∈ bs, ∀ r ∈ b.rows, r.removed = false)
    (hclash : ∀ r ∈ a.rows, r.removed = true → ∀ b ∈ bs, r.name ∉ b.names) :
    a₁.rows.filter (·.removed) = a.rows.filter (·.removed) := by
  obtain ⟨xs, ys, h1, h2, h3, h4⟩ := h.split
  have hk := h.kept
  rw [h1] at hk ⊢
  rw [List.filter_append]
  have hy : ys.filter (·.removed) = [] := by
    rw [List.filter_eq_nil_iff]
    intro y hy
    have : y.anon ∈ (bs.flatMap (·.rows)).map Row.anon := by rw [← h4]; exact List.mem_map_of_mem hy
    obtain ⟨r, hr, hre⟩ := List.mem_map.mp this
    obtain ⟨b, hbb, hrb⟩ := List.mem_flatMap.mp hr
    have h5 : y.removed = r.removed := (congrArg Row.removed hre).symm
    rw [h5, hb b hbb r hrb]
    simp
  rw [hy, List.append_nil]
  have hget : ∀ (i : Nat) r, a.rows[i]? = some r → r.removed = true → xs[i]? = some r := by
    intro i r hr hrm
    have := hk i r hr (hclash r (List.mem_of_getElem? hr) hrm)
    rwa [List.getElem?_append_left (by rw [h2]; exact (List.getElem?_eq_some_iff.mp hr).1)] at this
  clear hk h1 hclash
  generalize a.rows = rs at h2 h3 hget
  clear h hy h4 hb ys
  induction xs generalizing rs with
  | nil =>
    cases rs with
    | nil => rfl
    | cons r rs => cases h2
  | cons x xs ih =>
    cases rs with
    | nil => cases h2
    | cons r rs =>
      simp only [List.map_cons, List.cons.injEq] at h3
      have hrm : x.removed = r.removed := by
        have : x.anon.removed = r.anon.removed := by rw [h3.1]
        exact this
      have := ih rs (by simpa using h2) h3.2 (fun i r' hr' hh => by
        simpa using hget (i + 1) r' (by simpa using hr') hh)
      rw [List.filter_cons, List.filter_cons, this, hrm]
      by_cases hr : r.removed = true
      · have := hget 0 r rfl hr
        simp only [List.getElem?_cons_zero, Option.some.injEq] at this
        rw [this]
      · simp [hr]

/-! ## Grouping by cores -/

/-- The sums of a grouping. -/
def Groups.sums (g : Groups) : List (String × ℚ) × List ((String × String) × ℚ) := (g.linear, g.quad)

theorem groupFold_sums (ph : List (String × ℚ)) {rows rows' : List Row}
    (h : (rows.filter (!·.removed)).map Row.core = (rows'.filter (!·.removed)).map Row.core) {g g₁ g₁' : Groups} {g' : Groups}
    (hg : g.sums = g'.sums) (h₁ : rows.foldlM (groupStep ph) g = .ok g₁) (h₂ : rows'.foldlM (groupStep ph) g' = .ok g₁') :
    g₁.sums = g₁'.sums := by
  -- both equal the fold over the cores
  have key : ∀ (rows : List Row) (g g₁ : Groups), rows.foldlM (groupStep ph) g = .ok g₁ →
      ∃ g₂, ((rows.filter (!·.removed)).map Row.core).foldlM (groupStep ph) ⟨g.linear, g.quad, []⟩ = .ok g₂ ∧
        g₂.sums = g₁.sums := by
    intro rows
    induction rows with
    | nil =>
      intro g g₁ hh
      cases hh
      exact ⟨_, rfl, rfl⟩
    | cons r rows ih =>
      intro g g₁ hh
      rw [List.foldlM_cons, groupStep_run] at hh
      by_cases hr : r.removed = true
      · rw [if_pos hr] at hh
        obtain ⟨g₂, h1, h2⟩ := ih _ _ hh
        rw [List.filter_cons]
        simp only [hr, Bool.not_true, Bool.false_eq_true, if_false]
        exact ⟨g₂, h1, h2⟩
      · rw [if_neg hr] at hh
        have hr' : r.removed = false := by simpa using hr
        rw [List.filter_cons]
        simp only [hr', Bool.not_false, if_true, List.map_cons, List.foldlM_cons, groupStep_run]
        have hcr : r.core.removed = false := hr'
        rw [hcr, if_neg (by simp)]
        have e1 : r.core.coef = r.coef := rfl
        have e2 : r.core.scale = r.scale := rfl
        have e3 : r.core.inter = r.inter := rfl
        rw [e1, e2, e3]
        cases hc : (r.coef.mul r.scale).resolve ph with
        | error e => rw [hc] at hh; cases hh
        | ok c =>
          rw [hc] at hh
          cases hi : r.inter with
          | lin v =>
            simp only [hi] at hh
            exact ih _ _ hh
          | quad v w =>
            simp only [hi] at hh
            exact ih _ _ hh
  obtain ⟨x, hx1, hx2⟩ := key rows g g₁ h₁
  obtain ⟨y, hy1, hy2⟩ := key rows' g' g₁' h₂
  simp only [Groups.sums, Prod.mk.injEq] at hg
  rw [h, hg.1, hg.2, hy1] at hx1
  cases hx1
  rw [← hx2, ← hy2]

theorem groupFold_removed {ph : List (String × ℚ)} (rows : List Row) (g₀ g : Groups)
    (h : rows.foldlM (groupStep ph) g₀ = .ok g) :
    g.willRemove = g₀.willRemove ++ (rows.filter (·.removed)).map (·.name) := by
  induction rows generalizing g₀ with
  | nil => cases h; simp
  | cons r rows ih =>
    rw [List.foldlM_cons, groupStep_run] at h
    by_cases hr : r.removed = true
    · rw [if_pos hr] at h
      rw [ih _ h, List.filter_cons, if_pos hr]
      simp
    · rw [if_neg hr] at h
      rw [List.filter_cons, if_neg hr]
      cases hcc : (r.coef.mul r.scale).resolve ph with
      | error e => rw [hcc] at h; cases h
      | ok c =>
        rw [hcc] at h
        cases hi : r.inter with
        | lin v => simp only [hi] at h; exact ih ⟨dadd g₀.linear v.label c, g₀.quad, g₀.willRemove⟩ h
        | quad v w => simp only [hi] at h; exact ih ⟨g₀.linear, dadd g₀.quad (v.label, w.label) c, g₀.willRemove⟩ h

end Sawatabi
