import Verif.Props.PhysicalEnergy
import Verif.Props.History

/-!
# What `to_physical` does to the logical model (C07, C22, C23)
-/

namespace Sawatabi.Props

variable {m m' : LModel} {env : Env} {clks : Nat → Nat → ℚ} {ids : Nat → String} {ph : List (String × ℚ)} {p : Physical}

theorem last_paren (s : String) : (s ++ ")").toList.getLast? = some ')' := by
  rw [String.toList_append]
  have : (")" : String).toList = [')'] := rfl
  rw [this, List.getLast?_append]
  rfl

theorem itemName_last (label : String) (it : Item) : (it.name label).toList.getLast? = some ')' := by
  cases it <;> exact last_paren _

theorem addedName_last (env : Env) (key name : String) (t : ℚ) : (addedName env key name t).toList.getLast? = some ')' :=
  last_paren _

/-- All names of the model of a constraint end with `)`. -/
theorem _root_.Sawatabi.ConstraintModel.names {clk : Nat → ℚ} {id : String} {c : Constraint} {mt : MType} {b : LModel}
    (h : ConstraintModel env clk id c mt b) : ∀ n ∈ b.names, n.toList.getLast? = some ')' := by
  have hq : ∀ {cm : LModel}, c.toModel (clk 0) id = .ok cm → ∀ n ∈ cm.names, n.toList.getLast? = some ')' := by
    intro cm h n hn
    obtain ⟨_, rfl⟩ := Constraint.toModel_ok h
    simp only [LModel.names, plain, List.map_map, List.mem_map] at hn
    obtain ⟨it, _, rfl⟩ := hn
    exact itemName_last c.label it
  cases h with
  | qubo h => exact hq h
  | @ising cm _ h hc =>
    have hg := Constraint.toModel_ok h
    have hu : cm.names.Nodup := by rw [hg.2]; exact plain_names _ _ hg.1
    have hqq : cm.mtype = .qubo := by rw [hg.2]; rfl
    rw [toIsing_run, if_neg (by rw [hqq]; simp)] at hc
    obtain ⟨news, hcv⟩ := genConv_ok hu hc
    intro n hn
    simp only [LModel.names, hcv.rows, List.map_append, List.mem_append] at hn
    rcases hn with hn | hn
    · apply hq h
      simp only [LModel.names, List.map_map, List.mem_map] at hn ⊢
      obtain ⟨r, hr, rfl⟩ := hn
      refine ⟨r, hr, ?_⟩
      simp only [Function.comp, convRow]
      split
      · rfl
      · split <;> rfl
    · obtain ⟨r, hr, rfl⟩ := List.mem_map.mp hn
      obtain ⟨i, hi, rfl⟩ := List.getElem_of_mem hr
      have hl := hcv.added.length_eq
      obtain ⟨k, t, ha⟩ := hcv.added.get (i := i) (by omega) hi
      simp only [List.get_eq_getElem] at ha
      rw [ha.name]
      exact addedName_last _ _ _ _

theorem _root_.Sawatabi.Conversion.clash {bs : List LModel} {m₁ : LModel} {g : Groups} {off : ℚ} {m₂ : LModel}
    (h : Conversion env clks ids ph m p m' bs m₁ g off m₂) (hc : m.NoClash) :
    ∀ r ∈ m.rows, r.removed = true → ∀ b ∈ bs, r.name ∉ b.names := by
  intro r hr hrm b hb hmem
  obtain ⟨i, hi, rfl⟩ := List.getElem_of_mem hb
  have hl := h.models.length_eq
  have := h.models.get (i := i) (by omega) hi
  exact hc r hr hrm (this.1.names _ hmem)

theorem _root_.Sawatabi.Conversion.bs_active {bs : List LModel} {m₁ : LModel} {g : Groups} {off : ℚ} {m₂ : LModel}
    (h : Conversion env clks ids ph m p m' bs m₁ g off m₂) : ∀ b ∈ bs, ∀ r ∈ b.rows, r.removed = false := by
  intro b hb
  obtain ⟨i, hi, rfl⟩ := List.getElem_of_mem hb
  have hl := h.models.length_eq
  have := h.models.get (i := i) (by omega) hi
  exact this.1.active

theorem cleaned_eq {m : LModel} (hu : m.names.Nodup) {ns : List String}
    (hns : ns = (m.rows.filter (·.removed)).map (·.name)) :
    markClean (m.prune fun r => !ns.contains r.name) = m.cleaned := by
  have hP : ∀ r ∈ m.rows, (!ns.contains r.name) = !r.removed := by
    intro r hr
    congr 1
    rw [Bool.eq_iff_iff, List.contains_iff_mem, hns]
    constructor
    · intro h
      obtain ⟨r', hr', he⟩ := List.mem_map.mp h
      obtain ⟨h1, h2⟩ := List.mem_filter.mp hr'
      rw [← List.inj_on_of_nodup_map hu h1 hr he]
      exact h2
    · intro h
      exact List.mem_map_of_mem (List.mem_filter.mpr ⟨hr, h⟩)
  rw [prune_congr hP]
  simp only [markClean, LModel.prune, LModel.cleaned, Int.toNat_natCast, List.take_length, List.drop_length, List.append_nil]
  rfl

/-- The state after a conversion. -/
theorem _root_.Sawatabi.Conversion.state {bs : List LModel} {m₁ : LModel} {g : Groups} {off : ℚ} {m₂ : LModel}
    (h : Conversion env clks ids ph m p m' bs m₁ g off m₂) (hm : m.Rect) (hu : m.names.Nodup)
    (hc : ∀ r ∈ m.rows, r.removed = true → ∀ b ∈ bs, r.name ∉ b.names) : m' = m.cleaned := by
  have hg := h.group
  rw [group_ok (g := g) (h.rect hm).len] at hg
  have hw := groupFold_removed _ _ _ hg
  rw [List.nil_append, h.absorbed.removed h.bs_active hc] at hw
  have hp := popRows_prune hm hu g.willRemove (by rw [hw]; exact (List.filter_sublist.map _).nodup hu) (by
    intro n hn
    rw [hw] at hn
    obtain ⟨r, hr, rfl⟩ := List.mem_map.mp hn
    exact List.mem_map_of_mem (List.mem_filter.mp hr).1)
  have := h.removal
  rw [hp] at this
  cases this
  rw [h.final]
  exact cleaned_eq hu hw

/-! ## C22 -/

/-- A successful conversion drops the removed interactions and marks the others clean; constraints are not baked in
and nothing else changes. -/
theorem C22_only_prunes_partial (hm : m.Rect) (hu : m.names.Nodup) (hc : m.NoClash)
    (h : (toPhysical env clks ids ph).run m = .ok p m') : m' = m.cleaned := by
  obtain ⟨bs, m₁, g, off, m₂, h⟩ := toPhysical_ok h
  exact h.state hm hu (h.clash hc)

theorem forall₂_map_eq {α β γ : Type} {R S : α → β → Prop} {f : β → γ} (hRS : ∀ a b b', R a b → S a b' → f b = f b')
    {as : List α} {bs bs' : List β} (h : List.Forall₂ R as bs) (h' : List.Forall₂ S as bs') : bs.map f = bs'.map f := by
  induction h generalizing bs' with
  | nil => cases h'; rfl
  | cons h1 _ ih =>
    cases h' with
    | cons h2 h3 => rw [List.map_cons, List.map_cons, hRS _ _ _ h1 h2, ih h3]

/-- The physical model depends only on the active interactions (without names, timestamps and marks), the constraints,
the offset, the type, the variables and the deleted labels. -/
theorem _root_.Sawatabi.Conversion.unique {n n' : LModel} {q : Physical} {env' : Env} {clks' : Nat → Nat → ℚ}
    {ids' : Nat → String} {bs bs' : List LModel} {m₁ n₁ : LModel} {g g' : Groups} {off off' : ℚ} {m₂ n₂ : LModel}
    (h : Conversion env clks ids ph m p m' bs m₁ g off m₂) (h' : Conversion env' clks' ids' ph n q n' bs' n₁ g' off' n₂)
    (hm : m.Rect) (hn : n.Rect) (hrows : (m.rows.filter (!·.removed)).map Row.core = (n.rows.filter (!·.removed)).map Row.core)
    (hcons : m.constraints = n.constraints) (hoff : m.offset = n.offset) (ht : m.mtype = n.mtype)
    (hv : m.vars = n.vars) (hd : m.deleted = n.deleted) : p = q := by
  have hmod := h.models
  have hmod' := h'.models
  rw [hcons, ht] at hmod
  have hcores : bs.map (fun b => b.rows.map Row.core) = bs'.map fun b => b.rows.map Row.core :=
    forall₂_map_eq (fun a b b' h1 h2 => by rw [h1.1.contents.1, h2.1.contents.1]) hmod hmod'
  have hoffs : bs.map (·.offset) = bs'.map (·.offset) :=
    forall₂_map_eq (fun a b b' h1 h2 => by rw [h1.1.contents.2, h2.1.contents.2]) hmod hmod'
  have hact : ∀ (a a₁ : LModel) (bs : List LModel), Absorbed a bs a₁ →
      (a₁.rows.filter (!·.removed)).map Row.core = (a.rows.filter (!·.removed)).map Row.core ++
        (bs.map fun b => b.rows.map Row.core).flatten.filter (!·.removed) := by
    intro a a₁ bs hab
    have key : ∀ l : List Row, (l.filter (!·.removed)).map Row.core = (l.map Row.core).filter (!·.removed) := by
      intro l
      rw [List.filter_map]
      rfl
    rw [key, hab.cores, List.filter_append, key, List.flatMap_def]
  have hrows₁ : (m₁.rows.filter (!·.removed)).map Row.core = (n₁.rows.filter (!·.removed)).map Row.core := by
    rw [hact _ _ _ h.absorbed, hact _ _ _ h'.absorbed, hrows, hcores]
  have hg := h.group
  have hg' := h'.group
  rw [group_ok (g := g) (h.rect hm).len] at hg
  rw [group_ok (g := g') (h'.rect hn).len] at hg'
  have hs := groupFold_sums ph hrows₁ rfl hg hg'
  simp only [Groups.sums, Prod.mk.injEq] at hs
  have hfold : ∀ (l : List LModel) (o : Coef),
      l.foldl (fun o b => o.add b.offset) o = (l.map (·.offset)).foldl (fun o b => o.add b) o := by
    intro l o
    rw [List.foldl_map]
  have ho : m₁.offset = n₁.offset := by
    rw [h.absorbed.offset, h'.absorbed.offset, hfold, hfold, hoffs, hoff]
  have hoff₂ : off = off' := by
    have h1 := h.offset
    rw [ho, h'.offset] at h1
    cases h1
    rfl
  have e1 : m₁.mtype = n₁.mtype := by rw [h.absorbed.same, h'.absorbed.same]; exact ht
  have e2 : m₁.labels = n₁.labels := by
    unfold LModel.labels
    rw [h.absorbed.same, h'.absorbed.same]
    simp only [hv]
  have e3 : m₁.deleted = n₁.deleted := by rw [h.absorbed.same, h'.absorbed.same]; exact hd
  rw [h.result, h'.result]
  simp only [buildPhysical, numbering, hs.1, hs.2, hoff₂, e1, e2, e3]

theorem cleaned_rect (hm : m.Rect) : m.cleaned.Rect := by
  have := prune_rect hm (fun r => !r.removed)
  refine rect_same this rfl ?_ rfl rfl
  simp [LModel.cleaned, LModel.prune]

theorem cleaned_active (m : LModel) : ∀ r ∈ m.cleaned.rows, r.removed = false := by
  intro r hr
  obtain ⟨r', hr', rfl⟩ := List.mem_map.mp hr
  simpa using (List.mem_filter.mp hr').2

theorem cleaned_cores (m : LModel) :
    (m.cleaned.rows.filter (!·.removed)).map Row.core = (m.rows.filter (!·.removed)).map Row.core := by
  rw [List.filter_eq_self.mpr (by
    intro r hr
    simp [cleaned_active m r hr])]
  simp only [LModel.cleaned, List.map_map]
  rfl

theorem cleaned_cleaned (hm : m.Rect) : m.cleaned.cleaned = m.cleaned := by
  have hr := cleaned_rect hm
  have h1 : m.cleaned.rows.filter (fun r => !r.removed) = m.cleaned.rows := by
    rw [List.filter_eq_self]
    intro r hr
    simp [cleaned_active m r hr]
  have h2 : (m.cleaned.rows.map fun r => { r with dirty := false }) = m.cleaned.rows := by
    simp only [LModel.cleaned, List.map_map]
    rfl
  have h3 : m.cleaned.attrCols.map (fun p => (p.1, activeEntries m.cleaned.rows p.2)) = m.cleaned.attrCols := by
    conv_rhs => rw [← List.map_id m.cleaned.attrCols]
    apply List.map_congr_left
    intro p hp
    have := keep_all (P := fun r => !r.removed) (hr.cols p hp) (by
      intro r hr
      simp [cleaned_active m r hr])
    simp only [keep] at this
    simp only [activeEntries, this, id]
  rw [show m.cleaned.cleaned = { m.cleaned with
      rows := (m.cleaned.rows.filter fun r => !r.removed).map fun r => { r with dirty := false }
      attrCols := m.cleaned.attrCols.map fun p => (p.1, activeEntries m.cleaned.rows p.2)
      length := (m.cleaned.rows.filter fun r => !r.removed).length } from rfl, h1, h2, h3, ← hr.len]

/-- Calling it again returns an equal physical model and leaves the model alone, whatever the clock and the ids. -/
theorem C22_again_partial (hm : m.Rect) (hu : m.names.Nodup) (hc : m.NoClash)
    (h : (toPhysical env clks ids ph).run m = .ok p m') {env' : Env} {clks' : Nat → Nat → ℚ} {ids' : Nat → String}
    {p' : Physical} {m'' : LModel} (h' : (toPhysical env' clks' ids' ph).run m' = .ok p' m'') : p' = p ∧ m'' = m' := by
  have hm' := C22_only_prunes_partial hm hu hc h
  subst hm'
  have hu' : m.cleaned.names.Nodup := by
    simp only [LModel.names, LModel.cleaned, List.map_map]
    exact (List.filter_sublist.map _).nodup hu
  have hc' : m.cleaned.NoClash := by
    intro r hr hrm
    rw [cleaned_active m r hr] at hrm
    cases hrm
  have hm'' := C22_only_prunes_partial (cleaned_rect hm) hu' hc' h'
  obtain ⟨bs, m₁, g, off, m₂, hx⟩ := toPhysical_ok h
  obtain ⟨bs', n₁, g', off', n₂, hy⟩ := toPhysical_ok h'
  exact ⟨hy.unique hx (cleaned_rect hm) hm (cleaned_cores m) rfl rfl rfl rfl rfl, hm''.trans (cleaned_cleaned hm)⟩

/-! ## Success -/

theorem sound_good {c : Constraint} (h : c.Sound) : c.Good := by
  cases c with
  | nHot l s vs n => exact nHot_good (IsVarSet.labels h) h.label
  | zeroOrOneHot l s vs => exact zeroOrOneHot_good (IsVarSet.labels h) h.label
  | equality l s v1 v2 => exact equality_good (IsVarSet.labels h) h.label

theorem plain_rect (mt : MType) (id : String) (rows : List Row) : (plain mt id rows).Rect :=
  ⟨rfl, rfl, List.nodup_nil, by simp [plain, LModel.new]⟩

/-- The constraint loop of a QUBO model succeeds on valid constraints. -/
theorem quboLoop_succeeds {cs : List ((String × Constraint) × Nat)} (hg : ∀ p ∈ cs, p.1.2.Good) {a : LModel}
    (ha : a.Rect) (hq : a.mtype = .qubo) : ∃ a₁, (cs.forM (mergeConstraint env clks ids)).run a = .ok ⟨⟩ a₁ := by
  induction cs generalizing a with
  | nil => exact ⟨a, rfl⟩
  | cons p cs ih =>
    have hcm := (Constraint.toModel_run (clks p.2 0) (ids p.2) p.1.2).1 (hg p (by simp))
    have hb := toModel_bare hcm
    obtain ⟨cols, hcols⟩ := mergedCols_ok ha (plain_rect .qubo (ids p.2) (p.1.2.items.map (Item.row (clks p.2 0) p.1.2.label)))
    have hstep : ∃ t, (mergeConstraint env clks ids p).run a = .ok ⟨⟩ t ∧ t.mtype = .qubo := by
      refine ⟨{ mergedTable a (plain .qubo (ids p.2) (p.1.2.items.map (Item.row (clks p.2 0) p.1.2.label))) cols with
        offset := a.offset.add (plain .qubo (ids p.2) (p.1.2.items.map (Item.row (clks p.2 0) p.1.2.label))).offset }, by
        rw [mergeConstraint_run, hcm]
        simp only
        rw [merge_run, if_pos (by rw [hq]; rfl), mergeSame_bare_run hb, hcols], hq⟩
    obtain ⟨t, ht, htq⟩ := hstep
    have htr := mergeConstraint_rect env clks ids p a ha
    rw [ht] at htr
    rw [Py.run_forM_cons, ht]
    exact ih (fun p' hp' => hg p' (by simp [hp'])) htr htq

theorem num_placeholders_add (a b : Coef) (n : String) :
    n ∈ (a.add b).placeholders ↔ n ∈ a.placeholders ∨ n ∈ b.placeholders := by
  cases a <;> cases b <;> simp [Coef.add, Coef.placeholders, Coef.toExpr, PExpr.placeholders]

theorem placeholders_foldl (bs : List LModel) (o : Coef) (n : String) :
    n ∈ (bs.foldl (fun o b => o.add b.offset) o).placeholders ↔
      n ∈ o.placeholders ∨ ∃ b ∈ bs, n ∈ b.offset.placeholders := by
  induction bs generalizing o with
  | nil => simp
  | cons b bs ih => rw [List.foldl_cons, ih, num_placeholders_add]; simp [or_assoc]

theorem resolve_row (r : Row) : (∃ q, (r.coef.mul r.scale).resolve ph = .ok q) ↔
    (∀ n ∈ r.coef.placeholders, n ∈ ph.map (·.1)) ∧ ∀ n ∈ r.scale.placeholders, n ∈ ph.map (·.1) := by
  rw [Coef.resolve_ok_iff]
  simp only [Coef.placeholders_mul]
  exact ⟨fun h => ⟨fun n hn => h n (.inl hn), fun n hn => h n (.inr hn)⟩, fun h n hn => hn.elim (h.1 n) (h.2 n)⟩

/-- After the constraint loop: the interactions can be grouped and the offset resolved if the placeholders are there. -/
theorem grouped_of_loop {bs : List LModel} {m₁ : LModel} (hm : m.Rect)
    (hloop : (m.constraints.zipIdx.forM (mergeConstraint env clks ids)).run m = .ok ⟨⟩ m₁) (habs : Absorbed m bs m₁)
    (hnum : ∀ b ∈ bs, (∀ r ∈ b.rows, r.coef.placeholders = [] ∧ r.scale.placeholders = []) ∧ b.offset.placeholders = [])
    (hf : m.Filled ph) : ∃ g off, group ph m₁ = .ok g ∧ m₁.offset.resolve ph = .ok off := by
  have hm₁ := constraintLoop_rect hm hloop
  have hrows : ∀ r ∈ m₁.rows, ∃ r' ∈ m.rows ++ bs.flatMap (·.rows), r.anon = r'.anon := by
    intro r hr
    have : r.anon ∈ m₁.rows.map Row.anon := List.mem_map_of_mem hr
    rw [habs.rows] at this
    obtain ⟨r', h1, h2⟩ := List.mem_map.mp this
    exact ⟨r', h1, h2.symm⟩
  obtain ⟨g, hg⟩ := (groupFold_total ph m₁.rows ⟨[], [], []⟩).mpr (by
    intro r hr hrm
    obtain ⟨r', hr', he⟩ := hrows r hr
    have e1 : r.coef = r'.coef := by rw [show r.coef = r.anon.coef from rfl, he]; rfl
    have e2 : r.scale = r'.scale := by rw [show r.scale = r.anon.scale from rfl, he]; rfl
    have e3 : r.removed = r'.removed := by rw [show r.removed = r.anon.removed from rfl, he]; rfl
    rw [e1, e2, resolve_row]
    rcases List.mem_append.mp hr' with h | h
    · exact hf.1 r' h (by rw [← e3]; exact hrm)
    · obtain ⟨b, hb, hrb⟩ := List.mem_flatMap.mp h
      obtain ⟨h1, h2⟩ := (hnum b hb).1 r' hrb
      rw [h1, h2]
      simp)
  obtain ⟨off, ho⟩ := (Coef.resolve_ok_iff (c := m₁.offset) (ph := ph)).mpr (by
    intro n hn
    rw [habs.offset, placeholders_foldl] at hn
    rcases hn with hn | ⟨b, hb, hn⟩
    · exact hf.2 n hn
    · rw [(hnum b hb).2] at hn
      cases hn)
  exact ⟨g, off, by rw [group_ok (g := g) hm₁.len]; exact hg, ho⟩

/-- After the constraint loop: the conversion succeeds if the placeholders are there. -/
theorem succeeds_of_loop {bs : List LModel} {m₁ : LModel} (hm : m.Rect) (hu : m.names.Nodup)
    (hloop : (m.constraints.zipIdx.forM (mergeConstraint env clks ids)).run m = .ok ⟨⟩ m₁) (habs : Absorbed m bs m₁)
    (hact : ∀ b ∈ bs, ∀ r ∈ b.rows, r.removed = false) (hclash : ∀ r ∈ m.rows, r.removed = true → ∀ b ∈ bs, r.name ∉ b.names)
    (hnum : ∀ b ∈ bs, (∀ r ∈ b.rows, r.coef.placeholders = [] ∧ r.scale.placeholders = []) ∧ b.offset.placeholders = [])
    (hf : m.Filled ph) : ∃ p, (toPhysical env clks ids ph).run m = .ok p m.cleaned := by
  have hm₁ := constraintLoop_rect hm hloop
  obtain ⟨g, off, hg', ho⟩ := grouped_of_loop hm hloop habs hnum hf
  have hg := hg'
  rw [group_ok (g := g) hm₁.len] at hg
  have hw := groupFold_removed _ _ _ hg
  rw [List.nil_append, habs.removed hact hclash] at hw
  have hp := popRows_prune hm hu g.willRemove (by rw [hw]; exact (List.filter_sublist.map _).nodup hu) (by
    intro n hn
    rw [hw] at hn
    obtain ⟨r, hr, rfl⟩ := List.mem_map.mp hn
    exact List.mem_map_of_mem (List.mem_filter.mp hr).1)
  refine ⟨buildPhysical m₁ g off, ?_⟩
  rw [toPhysical_run, hloop]
  simp only [hg', ho]
  rw [habs.restored, hp]
  simp only
  rw [cleaned_eq hu hw]

theorem quboModel_numeric {clk : Nat → ℚ} {id : String} {c : Constraint} {b : LModel}
    (h : ConstraintModel env clk id c .qubo b) :
    (∀ r ∈ b.rows, r.coef.placeholders = [] ∧ r.scale.placeholders = []) ∧ b.offset.placeholders = [] := by
  cases h with
  | qubo h =>
    obtain ⟨_, rfl⟩ := Constraint.toModel_ok h
    refine ⟨fun r hr => ?_, rfl⟩
    obtain ⟨it, _, rfl⟩ := List.mem_map.mp hr
    cases it <;> exact ⟨rfl, rfl⟩

/-- A QUBO model with sound constraints converts as soon as the placeholders are given. -/
theorem C20_succeeds_partial (hm : m.Rect) (hu : m.names.Nodup) (hc : m.NoClash) (hq : m.mtype = .qubo)
    (hs : ∀ c ∈ m.constraints, c.2.Sound) (hf : m.Filled ph) :
    ∃ p, (toPhysical env clks ids ph).run m = .ok p m.cleaned := by
  obtain ⟨m₁, hloop⟩ := quboLoop_succeeds (env := env) (clks := clks) (ids := ids) (cs := m.constraints.zipIdx) (by
    intro p hp
    obtain ⟨c, i⟩ := p
    exact sound_good (hs c (List.fst_mem_of_mem_zipIdx hp))) hm hq
  obtain ⟨bs, hbs, habs⟩ := constraintLoop_absorbed _ hloop
  rw [hq] at hbs
  have hget : ∀ b ∈ bs, ∃ clk id c, ConstraintModel env clk id c .qubo b := by
    intro b hb
    obtain ⟨i, hi, rfl⟩ := List.getElem_of_mem hb
    have := hbs.get (i := i) (by have := hbs.length_eq; omega) hi
    exact ⟨_, _, _, this.1⟩
  refine succeeds_of_loop hm hu hloop habs ?_ ?_ ?_ hf
  · intro b hb
    obtain ⟨_, _, _, h⟩ := hget b hb
    exact h.active
  · intro r hr hrm b hb hmem
    obtain ⟨_, _, _, h⟩ := hget b hb
    exact hc r hr hrm (h.names _ hmem)
  · intro b hb
    obtain ⟨_, _, _, h⟩ := hget b hb
    exact quboModel_numeric h

/-- The second call succeeds as well (QUBO models with sound constraints). -/
theorem C22_again_qubo_partial (hm : m.Rect) (hu : m.names.Nodup) (hc : m.NoClash) (hq : m.mtype = .qubo)
    (hs : ∀ c ∈ m.constraints, c.2.Sound) (hf : m.Filled ph) {env' : Env} {clks' : Nat → Nat → ℚ} {ids' : Nat → String} :
    ∃ p, (toPhysical env clks ids ph).run m = .ok p m.cleaned ∧
      (toPhysical env' clks' ids' ph).run m.cleaned = .ok p m.cleaned := by
  obtain ⟨p, hp⟩ := C20_succeeds_partial (env := env) (clks := clks) (ids := ids) hm hu hc hq hs hf
  have hu' : m.cleaned.names.Nodup := by
    simp only [LModel.names, LModel.cleaned, List.map_map]
    exact (List.filter_sublist.map _).nodup hu
  have hc' : m.cleaned.NoClash := by
    intro r hr hrm
    rw [cleaned_active m r hr] at hrm
    cases hrm
  have hf' : m.cleaned.Filled ph := by
    refine ⟨fun r hr _ => ?_, hf.2⟩
    obtain ⟨r', hr', rfl⟩ := List.mem_map.mp hr
    obtain ⟨h1, h2⟩ := List.mem_filter.mp hr'
    exact hf.1 r' h1 (by simpa using h2)
  obtain ⟨p', hp'⟩ := C20_succeeds_partial (env := env') (clks := clks') (ids := ids') (cleaned_rect hm) hu' hc' hq hs hf'
  rw [cleaned_cleaned hm] at hp'
  obtain ⟨rfl, _⟩ := C22_again_partial hm hu hc hp hp'
  exact ⟨_, hp, hp'⟩

end Sawatabi.Props
