import Verif.Lemmas.ToPhysical
import Verif.Props.History

/-!
# Interactions stay well-formed along every history
-/

namespace Sawatabi

/-- All interactions are well-formed. -/
def AllOrdered (l : List Row) : Prop := ∀ r ∈ l, r.inter.Ordered

/-- A test for `AllOrdered`. -/
theorem orderedDec (rows : List Row) (h : (rows.all fun r => match r.inter with
    | .lin _ => true
    | .quad v w => decide (v.label < w.label)) = true) : AllOrdered rows := by
  intro r hr
  have := List.all_eq_true.mp h r hr
  cases hi : r.inter with
  | lin v => trivial
  | quad v w => rw [hi] at this; simpa [Inter.Ordered] using this

theorem ordered_closed : RowClosed AllOrdered where
  append l r h _ ho _ := by
    intro r' hr'
    rcases List.mem_append.mp hr' with h1 | h1
    · exact h r' h1
    · rw [List.mem_singleton] at h1
      exact h1 ▸ ho
  upd l l' h hl := by
    induction hl with
    | nil => exact h
    | cons hr _ ih =>
      intro r' hr'
      rcases List.mem_cons.mp hr' with rfl | hr'
      · exact ordered_keys hr.key0 hr.key1 (h _ (by simp))
      · exact ih (fun r hr => h r (by simp [hr])) r' hr'

theorem mergedRows_ordered {a b : LModel} (ha : AllOrdered a.rows) (hb : AllOrdered b.rows) :
    AllOrdered (mergedRows a b) := by
  intro r hr
  unfold mergedRows at hr
  obtain ⟨p, hp, rfl⟩ := List.mem_map.mp hr
  have hmem : p.1 ∈ a.rows ++ b.rows := by
    obtain ⟨x, i⟩ := p
    exact List.fst_mem_of_mem_zipIdx hp
  have : p.1.inter.Ordered := by
    rcases List.mem_append.mp hmem with h | h
    · exact ha _ h
    · exact hb _ h
  split
  · exact this
  · exact this

theorem mergeSame_ordered (a b : LModel) (ha : AllOrdered a.rows) (hb : AllOrdered b.rows) :
    AllOrdered (mergeSame.run (a, b)).state.1.rows := by
  rw [mergeSame_run]
  split
  · exact ha
  · have hv := mergeVars_rel b.vars a
    cases h : (b.vars.forM mergeVar).run a with
    | error e a₁ => rw [h] at hv; obtain ⟨vs, he⟩ := hv; simp only [Res.state] at he ⊢; rw [he]; exact ha
    | ok u a₁ =>
      rw [h] at hv
      obtain ⟨vs, he⟩ := hv
      simp only [Res.state] at he
      have ha₁ : AllOrdered a₁.rows := by rw [he]; exact ha
      simp only
      cases hc : (mergedAttrs a₁ b).mapM (mergedCol a₁ b) with
      | error e => exact ha₁
      | ok cols =>
        simp only
        split
        · exact mergedRows_ordered ha₁ hb
        · exact mergedRows_ordered ha₁ hb

theorem merge_ordered (env : Env) (clk : Nat → ℚ) (a b : LModel) (ha : AllOrdered a.rows)
    (hb : AllOrdered b.rows) : AllOrdered ((merge env clk).run (a, b)).state.1.rows := by
  rw [merge_run]
  split
  · exact mergeSame_ordered a b ha hb
  · have hc : Py.Preserves (onRows AllOrdered) (convertMtype env clk) := by
      unfold convertMtype
      refine .bind .get' fun s => ?_
      cases s.mtype
      · exact toQubo_rows ordered_closed env clk
      · exact toIsing_rows ordered_closed env clk
    have hc := hc b hb
    cases h : (convertMtype env clk).run b with
    | error e b₁ => exact ha
    | ok u b₁ => rw [h] at hc; exact mergeSame_ordered a b₁ ha hc

theorem body_rows {P : List Row → Prop} (hP : RowClosed P) (now : ℚ) (c : Constraint) :
    Py.Preserves (onRows P) (c.body now) := by
  have hp : ∀ l s vs v, Py.Preserves (onRows P) (addPairsFrom now l s vs v) := by
    intro l s vs v
    unfold addPairsFrom
    exact .forM fun w _ => .ite (add_rows hP _ _ _ _ _ _ _) (.pure' _)
  cases c with
  | nHot l s vs n => exact .forM fun v _ => .bind (add_rows hP _ _ _ _ _ _ _) fun _ => hp _ _ _ _
  | zeroOrOneHot l s vs => exact .forM fun v _ => hp _ _ _ _
  | equality l s v1 v2 =>
    exact .bind (.forM fun v _ => add_rows hP _ _ _ _ _ _ _) fun _ =>
      .bind (.forM fun v _ => hp _ _ _ _) fun _ =>
      .bind (.forM fun v _ => hp _ _ _ _) fun _ =>
      .forM fun v _ => .forM fun w _ => add_rows hP _ _ _ _ _ _ _

/-- A constraint's model satisfies every closed property that the empty table has. -/
theorem toModel_rows {P : List Row → Prop} (hP : RowClosed P) (h0 : P []) {now : ℚ} {id : String}
    {c : Constraint} {cm : LModel} (h : c.toModel now id = .ok cm) : P cm.rows := by
  unfold Constraint.toModel at h
  have := body_rows hP now c (LModel.new .qubo id) h0
  split at h
  · rename_i hr
    cases h
    rw [hr] at this
    exact this
  · cases h

theorem mergeConstraint_ordered (env : Env) (clks : Nat → Nat → ℚ) (ids : Nat → String)
    (p : (String × Constraint) × Nat) :
    Py.Preserves (onRows AllOrdered) (mergeConstraint env clks ids p) := by
  intro m hm
  unfold mergeConstraint
  py_simp
  cases h : p.1.2.toModel (clks p.2 0) (ids p.2) with
  | error e => exact hm
  | ok cm =>
    simp only [Py.run_liftE_ok]
    have hcm : AllOrdered cm.rows := toModel_rows ordered_closed (fun r hr => by cases hr) h
    have := merge_ordered env (clks p.2) m cm hm hcm
    cases hr : (merge env (clks p.2)).run (m, cm) with
    | ok u t => rw [hr] at this; exact this
    | error e t => rw [hr] at this; exact this

theorem AllOrdered.sublist {l l' : List Row} (h : AllOrdered l) (hs : List.Sublist l' l) : AllOrdered l' :=
  fun r hr => h r (hs.subset hr)

theorem toPhysical_ordered (env : Env) (clks : Nat → Nat → ℚ) (ids : Nat → String) (ph : List (String × ℚ)) :
    Py.Preserves (onRows AllOrdered) (toPhysical env clks ids ph) := by
  intro m hm
  have h1 : Py.Preserves (onRows AllOrdered) (m.constraints.zipIdx.forM (mergeConstraint env clks ids)) :=
    .forM fun p _ => mergeConstraint_ordered env clks ids p
  have h1 := h1 m hm
  rw [toPhysical_run]
  cases hr : (m.constraints.zipIdx.forM (mergeConstraint env clks ids)).run m with
  | error e m₁ => rw [hr] at h1; exact h1
  | ok u m₁ =>
    rw [hr] at h1
    simp only
    cases group ph m₁ with
    | error e => exact h1
    | ok g =>
      simp only
      cases m₁.offset.resolve ph with
      | error e => exact h1
      | ok off =>
        simp only
        have hs := popRows_sublist g.willRemove (restored m m₁)
        have hm' : AllOrdered (restored m m₁).rows := hm
        cases hp : (g.willRemove.forM popRow).run (restored m m₁) with
        | error e m₂ => rw [hp] at hs; exact hm'.sublist hs
        | ok u m₂ =>
          rw [hp] at hs
          have h2 : AllOrdered m₂.rows := hm'.sublist hs
          intro r hr
          simp only [Res.state, markClean, List.mem_append, List.mem_map] at hr
          rcases hr with ⟨r', hr', rfl⟩ | hr
          · exact h2 r' (List.mem_of_mem_take hr')
          · exact h2 r (List.mem_of_mem_drop hr)

/-- Merged models have well-formed interactions (they come from histories themselves). -/
def OrderedSafe (_ : LModel) : Op → Prop
  | .merge _ other => AllOrdered other.rows
  | _ => True

theorem step_ordered (env : Env) {m : LModel} (op : Op) (ih : AllOrdered m.rows) (hp : OrderedSafe m op) :
    AllOrdered (op.step env m).rows := by
  by_cases h1 : ∃ clk o, op = .merge clk o
  · obtain ⟨clk, o, rfl⟩ := h1
    have := merge_ordered env clk m o ih hp
    simp only [Op.step, Op.call, withSnd]
    cases hr : (merge env clk).run (m, o) with
    | ok u t => rw [hr] at this; exact this
    | error e t => rw [hr] at this; exact this
  by_cases h2 : ∃ a b c, op = .toPhysical a b c
  · obtain ⟨clks, ids, ph, rfl⟩ := h2
    exact Py.Preserves.bind (toPhysical_ordered env clks ids ph) (fun _ => .pure' _) m ih
  · exact Props.call_rows ordered_closed op m ih (fun clk o e => h1 ⟨clk, o, e⟩)
      (fun a b c e => h2 ⟨a, b, c, e⟩)

/-- Along every history, successful or raising, all interactions are well-formed: the two variables of a
2-body interaction have different labels, the smaller one first. -/
theorem reach_ordered {env : Env} {mt : MType} {id : String} {m : LModel}
    (h : Reach env OrderedSafe (LModel.new mt id) m) : AllOrdered m.rows := by
  induction h with
  | start => intro r hr; cases hr
  | step m op _ hp ih => exact step_ordered env op ih hp

/-- The same for every model made by public calls. -/
theorem made_ordered {env : Env} {P : LModel → Op → Prop} {m : LModel} (h : Made env P m) : AllOrdered m.rows := by
  induction h with
  | new mt id => intro r hr; cases hr
  | step m op _ hp _ ih iho =>
    apply step_ordered env op ih
    cases op <;> first | exact iho _ _ rfl | trivial

end Sawatabi
