import Verif.Lemmas.Rect

/-!
# Lemmas about merge
-/

namespace Sawatabi

theorem onFst_run {σ τ α : Type} (x : Py σ α) (s : σ × τ) :
    (onFst x).run s = match x.run s.1 with
      | .ok a t => .ok a (t, s.2)
      | .error e t => .error e (t, s.2) := rfl

theorem onSnd_run {σ τ α : Type} (x : Py τ α) (s : σ × τ) :
    (onSnd x).run s = match x.run s.2 with
      | .ok a t => .ok a (s.1, t)
      | .error e t => .error e (s.1, t) := rfl

/-- The table after a merge. -/
def mergedTable (a b : LModel) (cols : List (String × List PyVal)) : LModel :=
  { a with rows := mergedRows a b, attrCols := cols, attrs := mergedAttrs a b,
           length := a.length + b.length }

/-- The remaining fields after a merge. -/
def mergedRest (a b : LModel) : LModel :=
  { a with constraints := dupdate a.constraints b.constraints
           offset := a.offset.add b.offset
           deleted := b.deleted.foldl sadd a.deleted
           fixed := b.fixed.foldl sadd a.fixed }

/-- Do two models share a constraint label? -/
def constraintClash (a b : LModel) : Bool := a.constraints.any (fun p => p.1 ∈ dkeys b.constraints)

theorem mergeSame_run (a b : LModel) :
    mergeSame.run (a, b) =
      if rankClash a b then .error .valueError (a, b) else
      match (b.vars.forM mergeVar).run a with
      | .error e a₁ => .error e (a₁, b)
      | .ok _ a₁ =>
        match (mergedAttrs a₁ b).mapM (mergedCol a₁ b) with
        | .error e => .error e (a₁, b)
        | .ok cols =>
          if constraintClash a₁ b then .error .valueError (mergedTable a₁ b cols, b)
          else .ok ⟨⟩ (mergedRest (mergedTable a₁ b cols) b, b) := by
  unfold mergeSame
  py_simp
  by_cases h : rankClash a b
  · simp only [h, if_true]
  · simp only [h]
    rw [onFst_run]
    simp only
    cases (b.vars.forM mergeVar).run a with
    | error e a₁ => rfl
    | ok u a₁ =>
      simp only [Bool.false_eq_true, if_false, mergeTables]
      py_simp
      cases (mergedAttrs a₁ b).mapM (mergedCol a₁ b) with
      | error e => rfl
      | ok cols =>
        simp only [mergeRest, Py.run_liftE_ok]
        py_simp
        rfl

theorem merge_run (env : Env) (clk : Nat → ℚ) (a b : LModel) :
    (merge env clk).run (a, b) =
      if a.mtype = b.mtype then mergeSame.run (a, b) else
      match (convertMtype env clk).run b with
      | .error e b₁ => .error e (a, b₁)
      | .ok _ b₁ => mergeSame.run (a, b₁) := by
  unfold merge
  py_simp
  by_cases h : a.mtype = b.mtype
  · rw [if_pos h, if_neg (not_not.mpr h)]
  · rw [if_neg h, if_pos h]
    rw [onSnd_run]
    simp only
    cases (convertMtype env clk).run b <;> rfl

theorem mergeVars_rel (vs : List (String × VArray)) (a : LModel) :
    VarsRel a ((vs.forM mergeVar).run a).state :=
  Py.forM_rel VarsRel.refl (fun _ _ _ => VarsRel.trans) _ _ (fun p _ s => mergeVar_rel p s) a

theorem mapM_except_ok {α β : Type} {f : α → Except Err β} {l : List α} {r : List β}
    (h : l.mapM f = .ok r) : List.Forall₂ (fun a b => f a = .ok b) l r := by
  induction l generalizing r with
  | nil => cases h; exact .nil
  | cons a l ih =>
    rw [List.mapM_cons] at h
    cases hf : f a with
    | error e => rw [hf] at h; cases h
    | ok b =>
      cases hl : l.mapM f with
      | error e => rw [hf, hl] at h; cases h
      | ok bs =>
        rw [hf, hl] at h
        cases h
        exact .cons hf (ih hl)

theorem forall₂_mem_right {α β : Type} {R : α → β → Prop} {l : List α} {r : List β}
    (h : List.Forall₂ R l r) {b : β} (hb : b ∈ r) : ∃ a, R a b := by
  induction h with
  | nil => cases hb
  | cons h _ ih =>
    rcases List.mem_cons.mp hb with rfl | hb
    · exact ⟨_, h⟩
    · exact ih hb

theorem mapM_except_total {α β : Type} {f : α → Except Err β} {l : List α}
    (h : ∀ a ∈ l, ∃ b, f a = .ok b) : ∃ r, l.mapM f = .ok r := by
  induction l with
  | nil => exact ⟨[], rfl⟩
  | cons a l ih =>
    obtain ⟨b, hb⟩ := h a (by simp)
    obtain ⟨bs, hbs⟩ := ih fun a ha => h a (by simp [ha])
    exact ⟨b :: bs, by rw [List.mapM_cons, hb, hbs]; rfl⟩

theorem mergedCol_fst {a b : LModel} {k : String} {p : String × List PyVal}
    (h : mergedCol a b k = .ok p) : p.1 = k := by
  unfold mergedCol at h
  simp only [throw, throwThe, MonadExceptOf.throw, pure, Except.pure] at h
  repeat' split at h
  all_goals cases h
  all_goals rfl

theorem mergedCol_len {a b : LModel} (ha : a.Rect) (hb : b.Rect) {k : String} {p : String × List PyVal}
    (h : mergedCol a b k = .ok p) : p.2.length = a.rows.length + b.rows.length := by
  have h1 : ∀ k c, dget a.attrCols k = some c → c.length = a.rows.length := fun k c hc => ha.toCols.cols k c hc
  have h2 : ∀ k c, dget b.attrCols k = some c → c.length = b.rows.length := fun k c hc => hb.toCols.cols k c hc
  unfold mergedCol at h
  simp only [throw, throwThe, MonadExceptOf.throw, pure, Except.pure] at h
  split at h
  · split at h
    · cases h
    · rename_i ca hca
      split at h
      · rename_i cb hcb
        cases h
        simp [h1 _ _ hca, h2 _ _ hcb]
      · cases h
        simp [h1 _ _ hca, hb.len]
  · split at h
    · cases h
    · rename_i cb hcb
      cases h
      simp [h2 _ _ hcb, ha.len]

theorem mergedRows_length (a b : LModel) : (mergedRows a b).length = a.rows.length + b.rows.length := by
  simp [mergedRows]

theorem mem_mergedAttrs {a b : LModel} {k : String} : k ∈ mergedAttrs a b ↔ k ∈ a.attrs ∨ k ∈ b.attrs := by
  unfold mergedAttrs
  rw [mem_foldl_sadd, mem_foldl_sadd]
  simp

theorem nodup_mergedAttrs (a b : LModel) : (mergedAttrs a b).Nodup := by
  unfold mergedAttrs
  exact nodup_foldl_sadd (nodup_foldl_sadd List.nodup_nil)

theorem mergedCols_ok {a b : LModel} (ha : a.Rect) (hb : b.Rect) :
    ∃ cols, (mergedAttrs a b).mapM (mergedCol a b) = .ok cols := by
  apply mapM_except_total
  intro k hk
  rw [mem_mergedAttrs] at hk
  unfold mergedCol
  by_cases h : k ∈ a.attrs
  · rw [if_pos h]
    obtain ⟨ca, hca⟩ := (dget_isSome_iff a.attrCols k).mpr (by rw [ha.keys]; exact h)
    rw [hca]
    cases dget b.attrCols k with
    | none => exact ⟨_, rfl⟩
    | some cb => exact ⟨_, rfl⟩
  · rw [if_neg h]
    have hkb : k ∈ b.attrs := hk.resolve_left h
    obtain ⟨cb, hcb⟩ := (dget_isSome_iff b.attrCols k).mpr (by rw [hb.keys]; exact hkb)
    rw [hcb]
    exact ⟨_, rfl⟩

theorem mergedTable_rect {a b : LModel} (ha : a.Rect) (hb : b.Rect) {cols : List (String × List PyVal)}
    (h : (mergedAttrs a b).mapM (mergedCol a b) = .ok cols) : (mergedTable a b cols).Rect := by
  have h2 := mapM_except_ok h
  refine ⟨?_, ?_, nodup_mergedAttrs a b, ?_⟩
  · simp [mergedTable, mergedRows_length, ha.len, hb.len]
  · simp only [mergedTable]
    clear h
    unfold dkeys
    generalize mergedAttrs a b = l at h2
    induction h2 with
    | nil => rfl
    | cons hk _ ih => simp [mergedCol_fst hk, ih]
  · intro p hp
    simp only [mergedTable, mergedRows_length]
    obtain ⟨k, hk⟩ := forall₂_mem_right h2 hp
    rw [mergedCol_len ha hb hk]

theorem mergeSame_rect (a b : LModel) (ha : a.Rect) (hb : b.Rect) :
    (mergeSame.run (a, b)).state.1.Rect ∧ (mergeSame.run (a, b)).state.2 = b := by
  rw [mergeSame_run]
  split
  · exact ⟨ha, rfl⟩
  · have hv := mergeVars_rel b.vars a
    cases h : (b.vars.forM mergeVar).run a with
    | error e a₁ => rw [h] at hv; exact ⟨hv.rect ha, rfl⟩
    | ok u a₁ =>
      rw [h] at hv
      have ha₁ : a₁.Rect := hv.rect ha
      simp only
      cases hc : (mergedAttrs a₁ b).mapM (mergedCol a₁ b) with
      | error e => exact ⟨ha₁, rfl⟩
      | ok cols =>
        have hr := mergedTable_rect ha₁ hb hc
        simp only
        split
        · exact ⟨hr, rfl⟩
        · exact ⟨rect_same hr rfl rfl rfl rfl, rfl⟩

theorem merge_rect (env : Env) (clk : Nat → ℚ) (a b : LModel) (ha : a.Rect) (hb : b.Rect) :
    ((merge env clk).run (a, b)).state.1.Rect ∧ ((merge env clk).run (a, b)).state.2.Rect := by
  rw [merge_run]
  split
  · obtain ⟨h1, h2⟩ := mergeSame_rect a b ha hb
    exact ⟨h1, by rw [h2]; exact hb⟩
  · have hc := convertMtype_rect env clk b hb
    cases h : (convertMtype env clk).run b with
    | error e b₁ => rw [h] at hc; exact ⟨ha, hc⟩
    | ok u b₁ =>
      rw [h] at hc
      obtain ⟨h1, h2⟩ := mergeSame_rect a b₁ ha hc
      exact ⟨h1, by rw [h2]; exact hc⟩

/-! ## Constraint models -/

theorem new_rect (mt : MType) (id : String) : (LModel.new mt id).Rect :=
  ⟨rfl, rfl, List.nodup_nil, by simp [LModel.new]⟩

theorem addLin_rect (now : ℚ) (l : String) (v : PVar) (c : ℚ) : KeepsRect (addLin now l v c) :=
  add_rect _ _ _ _ _ _ _

theorem addPairsFrom_rect (now : ℚ) (l : String) (s : ℚ) (vs : List PVar) (v : PVar) :
    KeepsRect (addPairsFrom now l s vs v) := by
  unfold addPairsFrom
  exact .forM fun w _ => .ite (add_rect _ _ _ _ _ _ _) (.pure' _)

theorem body_rect (now : ℚ) (c : Constraint) : KeepsRect (c.body now) := by
  cases c with
  | nHot l s vs n => exact .forM fun v _ => .bind (addLin_rect _ _ _ _) fun _ => addPairsFrom_rect _ _ _ _ _
  | zeroOrOneHot l s vs => exact .forM fun v _ => addPairsFrom_rect _ _ _ _ _
  | equality l s v1 v2 =>
    exact .bind (.forM fun v _ => addLin_rect _ _ _ _) fun _ =>
      .bind (.forM fun v _ => addPairsFrom_rect _ _ _ _ _) fun _ =>
      .bind (.forM fun v _ => addPairsFrom_rect _ _ _ _ _) fun _ =>
      .forM fun v _ => .forM fun w _ => add_rect _ _ _ _ _ _ _

theorem toModel_rect {now : ℚ} {id : String} {c : Constraint} {cm : LModel}
    (h : c.toModel now id = .ok cm) : cm.Rect := by
  unfold Constraint.toModel at h
  have := body_rect now c _ (new_rect .qubo id)
  split at h
  · rename_i hr
    cases h
    rw [hr] at this
    exact this
  · cases h

theorem mergeConstraint_rect (env : Env) (clks : Nat → Nat → ℚ) (ids : Nat → String)
    (p : (String × Constraint) × Nat) : KeepsRect (mergeConstraint env clks ids p) := by
  intro m hm
  unfold mergeConstraint
  py_simp
  cases h : p.1.2.toModel (clks p.2 0) (ids p.2) with
  | error e => exact hm
  | ok cm =>
    simp only [Py.run_liftE_ok]
    have := (merge_rect env (clks p.2) m cm hm (toModel_rect h)).1
    cases hr : (merge env (clks p.2)).run (m, cm) with
    | ok u t => rw [hr] at this; exact this
    | error e t => rw [hr] at this; exact this

end Sawatabi
