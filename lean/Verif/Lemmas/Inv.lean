import Verif.Lemmas.Update
import Verif.Model.Convert

/-!
# Invariants of calls
-/

namespace Sawatabi

/-- `x` keeps the invariant `I`, whether it returns or raises. -/
def Py.Preserves {σ α : Type} (I : σ → Prop) (x : Py σ α) : Prop := ∀ s, I s → I (x.run s).state

namespace Py.Preserves

variable {σ τ α β : Type} {I : σ → Prop}

theorem pure' (a : α) : Py.Preserves I (Pure.pure a : Py σ α) := fun _ h => h
theorem throw' (e : Err) : Py.Preserves I (throw e : Py σ α) := fun _ h => h
theorem get' : Py.Preserves I (get : Py σ σ) := fun _ h => h

theorem liftE' (x : Except Err α) : Py.Preserves I (liftE x : Py σ α) := by
  cases x <;> exact fun _ h => h

theorem modify' {f : σ → σ} (hf : ∀ s, I s → I (f s)) : Py.Preserves I (modify f : Py σ PUnit) :=
  fun s h => hf s h

theorem bind {x : Py σ α} {f : α → Py σ β} (hx : Py.Preserves I x) (hf : ∀ a, Py.Preserves I (f a)) :
    Py.Preserves I (x >>= f) := by
  intro s hs
  rw [Py.run_bind]
  have := hx s hs
  cases h : x.run s with
  | ok a t => rw [h] at this; exact hf a t this
  | error e t => rw [h] at this; exact this

/-- The state read may be used. -/
theorem bind_get {f : σ → Py σ β} (hf : ∀ s, I s → I ((f s).run s).state) :
    Py.Preserves I (get >>= f) := fun s hs => hf s hs

theorem map {x : Py σ α} {f : α → β} (hx : Py.Preserves I x) : Py.Preserves I (f <$> x) := by
  intro s hs
  rw [Py.run_map]
  have := hx s hs
  cases h : x.run s with
  | ok a t => rw [h] at this; exact this
  | error e t => rw [h] at this; exact this

theorem ite {c : Prop} [Decidable c] {x y : Py σ α} (hx : Py.Preserves I x) (hy : Py.Preserves I y) :
    Py.Preserves I (if c then x else y) := by split <;> assumption

theorem forM {f : α → Py σ PUnit} {l : List α} (h : ∀ a ∈ l, Py.Preserves I (f a)) :
    Py.Preserves I (l.forM f) := fun s hs => Py.forM_inv f l (fun a ha s hs => h a ha s hs) s hs

end Py.Preserves

/-! ## Invariants of the interaction rows -/

/-- How an existing interaction may change: its name and labels stay and a removed one stays
removed. -/
structure RowStep (r r' : Row) : Prop where
  name : r'.name = r.name
  removed : r.removed = true → r'.removed = true
  key0 : r'.inter.key0 = r.inter.key0
  key1 : r'.inter.key1 = r.inter.key1

theorem RowStep.refl (r : Row) : RowStep r r := ⟨rfl, id, rfl, rfl⟩

theorem ordered_keys {i j : Inter} (h0 : j.key0 = i.key0) (h1 : j.key1 = i.key1) (h : i.Ordered) :
    j.Ordered := by
  cases i with
  | lin v =>
    cases j with
    | lin w => trivial
    | quad a b => cases h1
  | quad v w =>
    cases j with
    | lin w => cases h1
    | quad a b =>
      simp only [Inter.key0, Inter.key1, Option.some.injEq] at h0 h1
      simp only [Inter.Ordered] at h ⊢
      rw [h0, h1]
      exact h

theorem Denotes_ordered {t : PyTarget} {i : Inter} (h : t.Denotes i) : i.Ordered := by
  cases h with
  | var => trivial
  | pair v w h => exact h
  | swapped v w h => exact h

/-- Properties of the rows that survive appending a fresh name and changing rows in place. -/
structure RowClosed (P : List Row → Prop) : Prop where
  append : ∀ l r, P l → r.name ∉ l.map (·.name) → r.inter.Ordered → r.removed = false → P (l ++ [r])
  upd : ∀ l l', P l → List.Forall₂ RowStep l l' → P l'

theorem forall₂_modify (l : List Row) (i : Nat) (f : Row → Row) (hf : ∀ r, RowStep r (f r)) :
    List.Forall₂ RowStep l (l.modify i f) := by
  induction l generalizing i with
  | nil => simp
  | cons r l ih =>
    cases i with
    | zero => exact .cons (hf r) (List.forall₂_same.mpr fun r _ => RowStep.refl r)
    | succ i => exact .cons (RowStep.refl r) (ih i)

theorem forall₂_map (l : List Row) (f : Row → Row) (hf : ∀ r, RowStep r (f r)) :
    List.Forall₂ RowStep l (l.map f) := by
  induction l with
  | nil => exact .nil
  | cons r l ih => exact .cons (hf r) ih

theorem updRow_step (c s ts : Option ℚ) (r : Row) : RowStep r (updRow c s ts r) :=
  ⟨rfl, id, rfl, rfl⟩
theorem updRow₁_step (c s : Option ℚ) (r : Row) : RowStep r (updRow₁ c s r) :=
  ⟨rfl, id, rfl, rfl⟩
theorem rmRow_step (r : Row) : RowStep r (rmRow r) := ⟨rfl, fun _ => rfl, rfl, rfl⟩

section rows

variable {P : List Row → Prop} (hP : RowClosed P)

/-- The invariant `P` of the rows, as an invariant of the model. -/
abbrev onRows (P : List Row → Prop) : LModel → Prop := fun m => P m.rows

include hP

theorem add_rows (now : ℚ) (target : PyTarget) (name : PyName) (c s : PyCoef) (a : PyAttrs) (ts : PyTs) :
    Py.Preserves (onRows P) (addInteraction now target name c s a ts) := by
  intro m hm
  rw [addInteraction_run]
  split
  · exact hm
  · rename_i p hp
    obtain ⟨row, ats⟩ := p
    obtain ⟨hd, _, hnew, _, _, _, _, _, _, hrm, _⟩ := addChecks_ok_iff.mp hp
    cases h : (addTail row ats).run m with
    | ok u m' => obtain ⟨_, _, rfl⟩ := addTail_ok h; exact hP.append _ _ hm hnew (Denotes_ordered hd) hrm
    | error e m' => obtain ⟨_, _, rfl⟩ := addTail_error h; exact hP.append _ _ hm hnew (Denotes_ordered hd) hrm

theorem remove_rows (target : PyTarget) (name : PyName) :
    Py.Preserves (onRows P) (removeInteraction target name) := by
  intro m hm
  rw [removeInteraction_run]
  split
  · exact hm
  · split
    · exact hm
    · exact hP.upd _ _ hm (forall₂_modify _ _ _ rmRow_step)

theorem update_rows (importTime now : ℚ) (target : PyTarget) (name : PyName) (c s : Option PyCoef)
    (a : PyAttrs) (ts : Option PyTs) :
    Py.Preserves (onRows P) (updateInteraction importTime now target name c s a ts) := by
  intro m hm
  rw [updateInteraction_run]
  split
  · exact hm
  · exact add_rows hP _ _ _ _ _ _ _ m hm
  · rename_i idx c' s' ats ts' _
    cases h : (writeRow idx c' s' ats ts').run m with
    | ok u m' =>
      obtain ⟨_, rfl⟩ := writeRow_ok h
      exact hP.upd _ _ hm (forall₂_modify _ _ _ (updRow_step _ _ _))
    | error e m' =>
      obtain ⟨_, rfl⟩ := writeRow_error h
      exact hP.upd _ _ hm (forall₂_modify _ _ _ (updRow₁_step _ _))

omit hP in
theorem makeFrame_inv {I : LModel → Prop} : Py.Preserves I makeFrame := by
  intro m hm
  unfold makeFrame
  py_simp
  split <;> exact hm

omit hP in
theorem selectByVariable_inv {I : LModel → Prop} (v : PVar) : Py.Preserves I (selectByVariable v) := by
  unfold selectByVariable
  refine .bind makeFrame_inv fun _ => .bind .get' fun m => .pure' _

omit hP in
theorem removeFromConstraint_rows (v : PVar) (l : String) :
    Py.Preserves (onRows P) (removeFromConstraint v l) := by
  intro m hm
  unfold removeFromConstraint
  py_simp
  cases dget m.constraints l with
  | none => exact hm
  | some c =>
    simp only [Py.run_bind]
    cases c.removeVariable v with
    | error e => exact hm
    | ok c' => exact hm

theorem delete_rows (v : PVar) : Py.Preserves (onRows P) (deleteVariable v) := by
  unfold deleteVariable
  refine .bind (.modify' fun s h => h) fun _ => .bind .get' fun m =>
    .bind (.forM fun _ _ => removeFromConstraint_rows _ _) fun _ =>
    .bind (selectByVariable_inv _) fun names => .forM fun n _ => remove_rows hP _ _

theorem fixOne_rows (now : ℚ) (v : PVar) (value : ℚ) (s : String) :
    Py.Preserves (onRows P) (fixOne now v value s) := by
  unfold fixOne
  refine .bind_get fun m hm => ?_
  rw [Py.run_bind, Py.run_liftE]
  cases m.indexOf s with
  | error e => exact hm
  | ok idx =>
    simp only
    cases m.rows[idx]? with
    | none => exact hm
    | some r =>
      simp only
      cases r.inter with
      | lin w =>
        simp only [Py.run_bind, Py.run_set]
        exact remove_rows hP _ _ _ hm
      | quad a b =>
        simp only
        have hcont : ∀ keep : PVar, Py.Preserves (onRows P) (do
            addInteraction now (.var keep) (.str (keep.label ++ " (before fixed: " ++ s ++ ")"))
              (match ((Coef.num value).mul r.coef).mul r.scale with
                | .num q => PyCoef.num q
                | .expr e => PyCoef.expr e) (.num 1) .none .none
            removeInteraction .none (.str s)) := fun keep =>
          .bind (add_rows hP _ _ _ _ _ _ _) fun _ => remove_rows hP _ _
        by_cases h1 : a.label = v.label
        · simp only [h1, if_true]
          exact hcont b m hm
        · by_cases h2 : b.label = v.label
          · simp only [h1, h2, if_true, if_false]
            exact hcont a m hm
          · simp only [h1, h2, if_false]
            exact hm

theorem fix_rows (clk : Nat → ℚ) (v : PVar) (value : PyNum) :
    Py.Preserves (onRows P) (fixVariable clk v value) := by
  unfold fixVariable
  refine .bind .get' fun m => .bind (.liftE' _) fun q => .bind (.modify' fun s h => h) fun _ =>
    .bind (selectByVariable_inv _) fun names => .ite (.pure' _) (.ite ?_ ?_)
  · exact .forM fun n _ => remove_rows hP _ _
  · exact .forM fun n _ => fixOne_rows hP _ _ _ _

omit hP in
theorem retypeVar_rows (n : String) : Py.Preserves (onRows P) (retypeVar n) := by
  unfold retypeVar
  refine .bind_get fun m hm => ?_
  cases dget m.vars n with
  | none => exact hm
  | some a =>
    simp only [Py.run_bind, Py.run_liftE]
    cases arrayCreate n (a.shape.map Int.ofNat) m.mtype.vtype <;> exact hm

theorem updateVariablesType_rows : Py.Preserves (onRows P) updateVariablesType := by
  unfold updateVariablesType
  refine .bind .get' fun m => .bind (.forM fun n _ => retypeVar_rows n) fun _ =>
    .bind makeFrame_inv fun _ => .modify' fun s h => ?_
  refine hP.upd _ _ h (forall₂_map _ _ fun r => ?_)
  split
  · exact RowStep.refl r
  · cases hi : r.inter with
    | lin v => exact ⟨rfl, id, by simp [hi, Inter.retype, Inter.key0], by simp [hi, Inter.retype, Inter.key1]⟩
    | quad v w => exact ⟨rfl, id, by simp [hi, Inter.retype, Inter.key0], by simp [hi, Inter.retype, Inter.key1]⟩

omit hP in
theorem selectBody_inv {I : LModel → Prop} (b : Nat) : Py.Preserves I (selectBody b) := by
  unfold selectBody
  exact .bind makeFrame_inv fun _ => .bind .get' fun m => .pure' _

theorem toIsing_rows (env : Env) (clk : Nat → ℚ) : Py.Preserves (onRows P) (toIsing env clk) := by
  unfold toIsing
  refine .bind .get' fun m => .ite ?_ (.pure' _)
  refine .bind (.modify' fun s h => h) fun _ => .bind (updateVariablesType_rows hP) fun _ =>
    .bind (selectBody_inv _) fun hs => .bind (.forM fun h _ => ?_) fun _ =>
    .bind (selectBody_inv _) fun js => .forM fun p _ => ?_
  · exact .bind (update_rows hP _ _ _ _ _ _ _ _) fun _ => .modify' fun s h => h
  · unfold toIsingQuad
    split
    · exact .throw' _
    · exact .bind (update_rows hP _ _ _ _ _ _ _ _) fun _ => .bind (add_rows hP _ _ _ _ _ _ _) fun _ =>
        .bind (add_rows hP _ _ _ _ _ _ _) fun _ => .modify' fun s h => h

theorem toQubo_rows (env : Env) (clk : Nat → ℚ) : Py.Preserves (onRows P) (toQubo env clk) := by
  unfold toQubo
  refine .bind .get' fun m => .ite ?_ (.pure' _)
  refine .bind (.modify' fun s h => h) fun _ => .bind (updateVariablesType_rows hP) fun _ =>
    .bind (selectBody_inv _) fun hs => .bind (.forM fun h _ => ?_) fun _ =>
    .bind (selectBody_inv _) fun js => .forM fun p _ => ?_
  · exact .bind (update_rows hP _ _ _ _ _ _ _ _) fun _ => .modify' fun s h => h
  · unfold toQuboQuad
    split
    · exact .throw' _
    · exact .bind (update_rows hP _ _ _ _ _ _ _ _) fun _ => .bind (add_rows hP _ _ _ _ _ _ _) fun _ =>
        .bind (add_rows hP _ _ _ _ _ _ _) fun _ => .modify' fun s h => h

omit hP in
theorem createVars_rows (n : String) (sh : List Int) : Py.Preserves (onRows P) (createVars n sh) := by
  unfold createVars
  split
  · exact .bind (.throw' _) fun _ => .bind .get' fun m => .bind (.liftE' _) fun a =>
      .bind (.modify' fun s h => h) fun _ => .pure' _
  · exact .bind .get' fun m => .bind (.liftE' _) fun a => .bind (.modify' fun s h => h) fun _ => .pure' _

end rows

end Sawatabi
