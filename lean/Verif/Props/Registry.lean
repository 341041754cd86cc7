import Verif.Spec.Registry
import Verif.Lemmas.MergeFrame
import Verif.Lemmas.VarsInv
import Verif.Lemmas.Equality
import Verif.Props.Variables
import Mathlib.Data.List.Induction

/-!
# C86: the constraints, arrays and offset that a model holds
-/

namespace Sawatabi.Props

open Sawatabi

/-- What the registries of a model are compared by. -/
def registries (m : LModel) : List (String × Constraint) × List String × List String := (m.constraints, m.deleted, m.fixed)

/-- The calls that change a registry. -/
def _root_.Sawatabi.Op.Registers : Op → Prop
  | .addConstraint _ | .removeConstraint _ | .delete _ | .fix _ _ _ | .merge _ _ => True
  | _ => False

/-- The other calls leave the registries alone. -/
theorem step_registries (env : Env) {op : Op} (hp : ¬ op.Registers) (m : LModel) :
    registries (op.step env m) = registries m := by
  let I : LModel → Prop := fun s => registries s = registries m
  have hT : TableFree I := fun _ _ _ _ _ h => h
  have hO : OffsetFree I := fun _ _ h => h
  have hmap : ∀ {α : Type} {x : Py LModel α}, I (x.run m).state → I ((do let _ ← x : Py LModel Unit).run m).state := by
    intro α x hx
    rw [Py.run_bind]
    cases hr : x.run m with
    | ok a t => rw [hr] at hx; exact hx
    | error e t => rw [hr] at hx; exact hx
  have hrel : ∀ {α : Type} {x : Py LModel α}, (∀ s, VarsRel s (x.run s).state) → I (x.run m).state := by
    intro α x hx
    obtain ⟨vs, he⟩ := hx m
    show registries (x.run m).state = _
    rw [he]
    rfl
  have h0 : I m := rfl
  have hconv : ∀ mt f o f₂ g₂ o₂ clk, I ((genConv env mt f o f₂ g₂ o₂ clk).run m).state := by
    intro mt f o f₂ g₂ o₂ clk
    refine genConv_frame (I := I) hT hO env mt f o f₂ g₂ o₂ clk m ?_
    refine Py.Preserves.forM (I := I) (fun n _ s hs => ?_) _ rfl
    rw [retypeVar_run]
    repeat' split
    all_goals exact hs
  show I (op.step env m)
  unfold Op.step
  cases op with
  | «variables» n sh => exact hmap (hrel fun s => createVars_rel n sh s)
  | variablesArray a => exact hmap (hrel fun s => variablesArray_rel a s)
  | append n sh => exact hmap (hrel fun s => appendVars_rel n sh s)
  | add now t n c s a ts => exact add_frame hT _ _ _ _ _ _ _ m h0
  | update now t n c s a ts => exact update_frame hT _ _ _ _ _ _ _ _ m h0
  | remove t n => exact remove_frame hT _ _ m h0
  | select v => exact hmap (selectByVariable_inv v m h0)
  | delete v => exact absurd trivial hp
  | fix clk v q => exact absurd trivial hp
  | addConstraint c => exact absurd trivial hp
  | removeConstraint l => exact absurd trivial hp
  | setOffset c => rfl
  | fromPyqubo now pm => exact withSnd_inv pm (fromPyqubo_inv (I := I) (add_frame hT) hO now) m h0
  | toIsing clk =>
    simp only [Op.call, toIsing_run]
    split
    · exact h0
    · exact hconv _ _ _ _ _ _ _
  | toQubo clk =>
    simp only [Op.call, toQubo_run]
    split
    · exact h0
    · exact hconv _ _ _ _ _ _ _
  | merge clk o => exact absurd trivial hp
  | toPhysical a b c => exact hmap (toPhysical_frame hT hO env a b c m h0)

theorem step_fix_constraints (env : Env) (clk : Nat → ℚ) (v : PVar) (x : PyNum) (m : LModel) :
    (Op.step env m (.fix clk v x)).constraints = m.constraints ∧ (Op.step env m (.fix clk v x)).deleted = m.deleted :=
  fix_frame (I := fun s : LModel => s.constraints = m.constraints ∧ s.deleted = m.deleted) (fun _ _ _ _ _ h => h)
    (fun _ _ h => h) clk v x (fun _ h => h) m ⟨rfl, rfl⟩

/-- Calls that do not touch a constraint label leave the constraints alone. -/
theorem step_constraints (env : Env) {op : Op} (hp : op.Plain) (h1 : ∀ c, op ≠ .addConstraint c)
    (h2 : ∀ l, op ≠ .removeConstraint l) (m : LModel) : (op.step env m).constraints = m.constraints := by
  by_cases hr : op.Registers
  · cases op with
    | addConstraint c => exact absurd rfl (h1 c)
    | removeConstraint l => exact absurd rfl (h2 l)
    | delete v => exact hp.elim
    | merge clk o => exact hp.elim
    | fix clk v x => exact (step_fix_constraints env clk v x m).1
    | _ => exact hr.elim
  · exact congrArg (·.1) (step_registries env hr m)

theorem addedLast_append {ops : List Op} {op : Op} {l : String} {c : Constraint} :
    AddedLast (ops ++ [op]) l c ↔ (op = .addConstraint c ∧ c.label = l) ∨ (¬ op.Touches l ∧ AddedLast ops l c) := by
  constructor
  · rintro ⟨pre, post, he, hl, hpost⟩
    rcases List.eq_nil_or_concat post with rfl | ⟨post', x, rfl⟩
    · have := List.append_inj' he rfl
      exact .inl ⟨by simpa using this.2, hl⟩
    · rw [List.concat_eq_append, ← List.cons_append, ← List.append_assoc] at he
      have := List.append_inj' he rfl
      have hx : op = x := by simpa using this.2
      subst hx
      exact .inr ⟨hpost op (by simp), pre, post', this.1, hl, fun o ho => hpost o (by simp [ho])⟩
  · rintro (⟨rfl, hl⟩ | ⟨ht, pre, post, rfl, hl, hpost⟩)
    · exact ⟨ops, [], rfl, hl, by simp⟩
    · refine ⟨pre, post ++ [op], by simp, hl, ?_⟩
      intro o ho
      rcases List.mem_append.mp ho with ho | ho
      · exact hpost o ho
      · rw [List.mem_singleton] at ho; exact ho ▸ ht

theorem removeConstraint_state (m : LModel) (l : String) (hn : (dkeys m.constraints).Nodup) :
    (dkeys ((removeConstraint l).run m).state.constraints).Nodup ∧
      ∀ l', dget ((removeConstraint l).run m).state.constraints l' = if l' = l then none else dget m.constraints l' := by
  unfold removeConstraint
  py_simp
  cases hg : dget m.constraints l with
  | none =>
    refine ⟨hn, fun l' => ?_⟩
    show dget m.constraints l' = _
    by_cases h : l' = l
    · rw [if_pos h, h]; exact hg
    · rw [if_neg h]
  | some c =>
    refine ⟨(dkeys_dpop_sublist _ _).nodup hn, fun l' => ?_⟩
    show dget (dpop m.constraints l) l' = _
    by_cases h : l' = l
    · rw [if_pos h, h]; exact dget_dpop_self hn _
    · rw [if_neg h]; exact dget_dpop_ne _ h

/-- **C86**, constraints: after any history of calls (without `delete_variable` and `merge`), returning or raising, a new
model holds for each label exactly the constraint that was added last under it and has not been removed since. -/
theorem C86_constraints (env : Env) (mt : MType) (id : String) (ops : List Op) (hops : ∀ op ∈ ops, op.Plain) (l : String)
    (c : Constraint) : dget (afterOps env (LModel.new mt id) ops).constraints l = some c ↔ AddedLast ops l c := by
  have key : (dkeys (afterOps env (LModel.new mt id) ops).constraints).Nodup ∧
      ∀ l c, dget (afterOps env (LModel.new mt id) ops).constraints l = some c ↔ AddedLast ops l c := by
    induction ops using List.reverseRecOn with
    | nil =>
      refine ⟨List.nodup_nil, fun l c => ⟨fun h => (by cases h), ?_⟩⟩
      rintro ⟨pre, post, he, _⟩
      simp at he
    | append_singleton ops op ih =>
      obtain ⟨hn, ih⟩ := ih fun o ho => hops o (by simp [ho])
      have hp : op.Plain := hops op (by simp)
      have hstep : afterOps env (LModel.new mt id) (ops ++ [op]) = op.step env (afterOps env (LModel.new mt id) ops) := by
        simp [afterOps]
      rw [hstep]
      generalize afterOps env (LModel.new mt id) ops = m at hn ih
      by_cases h1 : ∃ c, op = .addConstraint c
      · obtain ⟨c', rfl⟩ := h1
        show (dkeys (dset m.constraints c'.label c')).Nodup ∧ ∀ l c, dget (dset m.constraints c'.label c') l = some c ↔ _
        refine ⟨nodup_dset _ hn, fun l c => ?_⟩
        rw [addedLast_append]
        by_cases hl : l = c'.label
        · subst hl
          rw [dget_dset_self]
          constructor
          · intro h; cases h; exact .inl ⟨rfl, rfl⟩
          · rintro (⟨h, _⟩ | ⟨h, _⟩)
            · cases h; rfl
            · exact absurd rfl h
        · rw [dget_dset_ne _ _ hl, ih]
          constructor
          · intro h; exact .inr ⟨fun ht => hl ht.symm, h⟩
          · rintro (⟨h, rfl⟩ | ⟨_, h⟩)
            · cases h; exact absurd rfl hl
            · exact h
      by_cases h2 : ∃ l', op = .removeConstraint l'
      · obtain ⟨l', rfl⟩ := h2
        obtain ⟨h3, h4⟩ := removeConstraint_state m l' hn
        refine ⟨h3, fun l c => ?_⟩
        show dget ((removeConstraint l').run m).state.constraints l = some c ↔ _
        rw [h4, addedLast_append]
        by_cases hl : l = l'
        · subst hl
          rw [if_pos rfl]
          constructor
          · intro h; cases h
          · rintro (⟨h, _⟩ | ⟨h, _⟩)
            · cases h
            · exact absurd rfl h
        · rw [if_neg hl, ih]
          constructor
          · intro h; exact .inr ⟨fun ht => hl ht.symm, h⟩
          · rintro (⟨h, rfl⟩ | ⟨_, h⟩)
            · cases h
            · exact h
      · have h1' : ∀ c, op ≠ .addConstraint c := fun c h => h1 ⟨c, h⟩
        have h2' : ∀ l, op ≠ .removeConstraint l := fun c h => h2 ⟨c, h⟩
        rw [step_constraints env hp h1' h2' m]
        refine ⟨hn, fun l c => ?_⟩
        rw [ih, addedLast_append]
        constructor
        · intro h
          refine .inr ⟨fun ht => ?_, h⟩
          cases op with
          | addConstraint c => exact h1' c rfl
          | removeConstraint l => exact h2' l rfl
          | _ => exact ht
        · rintro (⟨h, _⟩ | ⟨_, h⟩)
          · exact absurd h (h1' c)
          · exact h
  exact key.2 l c

/-- **C86**: `remove_constraint` raises KeyError exactly for a label the model does not hold, and then changes nothing;
neither it nor `add_constraint` changes anything but the constraints. -/
theorem C86_remove_constraint (m : LModel) (l : String) :
    ((∃ m', (removeConstraint l).run m = .ok ⟨⟩ m') ↔ ∃ c, dget m.constraints l = some c) ∧
    (∀ e m', (removeConstraint l).run m = .error e m' → e = .keyError ∧ m' = m) ∧
    (∀ m', (removeConstraint l).run m = .ok ⟨⟩ m' → m' = { m with constraints := m'.constraints }) := by
  unfold removeConstraint
  py_simp
  cases hg : dget m.constraints l with
  | none =>
    refine ⟨⟨?_, ?_⟩, ?_, ?_⟩
    · rintro ⟨m', h⟩; cases h
    · rintro ⟨c, h⟩; cases h
    · intro e m' h; cases h; exact ⟨rfl, rfl⟩
    · intro m' h; cases h
  | some c =>
    refine ⟨⟨fun _ => ⟨c, rfl⟩, fun _ => ⟨_, rfl⟩⟩, ?_, ?_⟩
    · intro e m' h; cases h
    · intro m' h; cases h; rfl

theorem step_delete (env : Env) (v : PVar) (m : LModel) :
    (Op.step env m (.delete v)).deleted = sadd m.deleted v.label ∧ (Op.step env m (.delete v)).fixed = m.fixed := by
  have h : Py.Preserves (fun s : LModel => s.deleted = sadd m.deleted v.label ∧ s.fixed = m.fixed)
      (do let s ← get; (dkeys s.constraints).forM (removeFromConstraint v)
          let removed ← selectByVariable v
          removed.forM fun n => removeInteraction .none (.str n) : Py LModel Unit) :=
    .bind .get' fun _ => .bind (.forM fun _ _ => removeFromConstraint_frame (fun _ _ h => h) _ _) fun _ =>
      .bind (selectByVariable_inv _) fun _ => .forM fun _ _ => remove_frame (fun _ _ _ _ _ h => h) _ _
  exact h { m with deleted := sadd m.deleted v.label } ⟨rfl, rfl⟩

theorem checkFixValue_valueOf (mt : MType) (x : PyNum) : (∃ q, checkFixValue mt x = .ok q) ↔ ValueOf mt x := by
  constructor
  · rintro ⟨q, h⟩
    cases x with
    | other => cases h
    | num p =>
      unfold checkFixValue at h
      cases mt with
      | ising =>
        simp only at h
        split at h
        · rename_i hp
          rcases hp with rfl | rfl
          · exact .one _
          · exact .minus
        · cases h
      | qubo =>
        simp only at h
        split at h
        · rename_i hp
          rcases hp with rfl | rfl
          · exact .one _
          · exact .zero
        · cases h
  · rintro (_ | _ | _)
    · cases mt <;> exact ⟨_, rfl⟩
    · exact ⟨_, rfl⟩
    · exact ⟨_, rfl⟩

theorem step_fix (env : Env) (clk : Nat → ℚ) (v : PVar) (x : PyNum) (m : LModel) :
    (ValueOf m.mtype x → (Op.step env m (.fix clk v x)).fixed = sadd m.fixed v.label) ∧
    (¬ ValueOf m.mtype x → (Op.step env m (.fix clk v x)).fixed = m.fixed) := by
  constructor
  · intro h
    obtain ⟨q, hq⟩ := (checkFixValue_valueOf _ _).mpr h
    have hI : TableFree (fun s : LModel => s.fixed = sadd m.fixed v.label) := fun _ _ _ _ _ h => h
    have h : Py.Preserves (fun s : LModel => s.fixed = sadd m.fixed v.label)
        (do let selected ← selectByVariable v
            if selected.isEmpty then return ()
            if q = 0 then selected.forM fun n => removeInteraction .none (.str n)
            else selected.zipIdx.forM fun p => fixOne (clk p.2) v q p.1 : Py LModel Unit) :=
      .bind (selectByVariable_inv _) fun _ => .ite (.pure' _) (.ite (.forM fun _ _ => remove_frame hI _ _)
        (.forM fun _ _ => fixOne_frame hI (fun _ _ h => h) _ _ _ _))
    have := h { m with fixed := sadd m.fixed v.label } rfl
    show ((fixVariable clk v x).run m).state.fixed = _
    unfold fixVariable
    simp only [Py.run_bind, Py.run_get, hq, Py.run_liftE_ok, Py.run_modify]
    exact this
  · intro h
    have : ∃ e, checkFixValue m.mtype x = .error e := by
      cases hc : checkFixValue m.mtype x with
      | error e => exact ⟨e, rfl⟩
      | ok q => exact absurd ((checkFixValue_valueOf _ _).mp ⟨q, hc⟩) h
    obtain ⟨e, he⟩ := this
    show ((fixVariable clk v x).run m).state.fixed = _
    unfold fixVariable
    simp only [Py.run_bind, Py.run_get, he]
    rfl

theorem mem_sadd' {s : List String} {k l : String} : l ∈ sadd s k ↔ l = k ∨ l ∈ s := by
  unfold sadd
  split
  · rename_i h
    constructor
    · exact .inr
    · rintro (rfl | h') <;> assumption
  · simp [or_comm]

/-- **C86**, deleted: after any history of calls without `merge`, returning or raising, the deleted labels of a new model
are those that some `delete_variable` call named. -/
theorem C86_deleted (env : Env) (mt : MType) (id : String) (ops : List Op) (hops : ∀ op ∈ ops, op.NotMerge) (l : String) :
    l ∈ (afterOps env (LModel.new mt id) ops).deleted ↔ DeletedBy ops l := by
  induction ops using List.reverseRecOn with
  | nil =>
    constructor
    · intro h; cases h
    · rintro ⟨v, h, _⟩; cases h
  | append_singleton ops op ih =>
    replace ih := ih fun o ho => hops o (by simp [ho])
    have hp : op.NotMerge := hops op (by simp)
    have hstep : afterOps env (LModel.new mt id) (ops ++ [op]) = op.step env (afterOps env (LModel.new mt id) ops) := by
      simp [afterOps]
    rw [hstep]
    generalize afterOps env (LModel.new mt id) ops = m at ih
    have hD : DeletedBy (ops ++ [op]) l ↔ DeletedBy ops l ∨ ∃ v : PVar, op = .delete v ∧ v.label = l := by
      unfold DeletedBy
      constructor
      · rintro ⟨v, h, hl⟩
        rcases List.mem_append.mp h with h | h
        · exact .inl ⟨v, h, hl⟩
        · exact .inr ⟨v, (List.mem_singleton.mp h).symm, hl⟩
      · rintro (⟨v, h, hl⟩ | ⟨v, rfl, hl⟩)
        · exact ⟨v, by simp [h], hl⟩
        · exact ⟨v, by simp, hl⟩
    rw [hD, ← ih]
    by_cases h1 : ∃ v, op = .delete v
    · obtain ⟨v, rfl⟩ := h1
      rw [(step_delete env v m).1, mem_sadd']
      constructor
      · rintro (rfl | h)
        · exact .inr ⟨v, rfl, rfl⟩
        · exact .inl h
      · rintro (h | ⟨w, hw, rfl⟩)
        · exact .inr h
        · cases hw; exact .inl rfl
    · have : (op.step env m).deleted = m.deleted := by
        by_cases hr : op.Registers
        · cases op with
          | addConstraint c => rfl
          | removeConstraint l =>
            unfold Op.step
            simp only [Op.call, removeConstraint]
            py_simp
            split <;> rfl
          | delete v => exact absurd ⟨v, rfl⟩ h1
          | merge clk o => exact hp.elim
          | fix clk v x => exact (step_fix_constraints env clk v x m).2
          | _ => exact hr.elim
        · exact congrArg (·.2.1) (step_registries env hr m)
      rw [this]
      constructor
      · exact .inl
      · rintro (h | ⟨v, h, _⟩)
        · exact h
        · exact absurd ⟨v, h⟩ h1

/-- **C86**, fixed: after any history of calls without `merge`, returning or raising, the fixed labels of a new model are
those that some `fix_variable` call named with a value of the type of the model at that time. -/
theorem C86_fixed (env : Env) (mt : MType) (id : String) (ops : List Op) (hops : ∀ op ∈ ops, op.NotMerge) (l : String) :
    l ∈ (afterOps env (LModel.new mt id) ops).fixed ↔ FixedBy env (LModel.new mt id) ops l := by
  induction ops using List.reverseRecOn with
  | nil =>
    constructor
    · intro h; cases h
    · rintro ⟨pre, clk, v, x, post, h, _⟩; simp at h
  | append_singleton ops op ih =>
    replace ih := ih fun o ho => hops o (by simp [ho])
    have hp : op.NotMerge := hops op (by simp)
    have hstep : afterOps env (LModel.new mt id) (ops ++ [op]) = op.step env (afterOps env (LModel.new mt id) ops) := by
      simp [afterOps]
    have hF : FixedBy env (LModel.new mt id) (ops ++ [op]) l ↔ FixedBy env (LModel.new mt id) ops l ∨
        ∃ clk v x, op = .fix clk v x ∧ v.label = l ∧ ValueOf (afterOps env (LModel.new mt id) ops).mtype x := by
      constructor
      · rintro ⟨pre, clk, v, x, post, he, hl, hv⟩
        rcases List.eq_nil_or_concat post with rfl | ⟨post', y, rfl⟩
        · have := List.append_inj' he rfl
          obtain ⟨rfl, h2⟩ := this
          exact .inr ⟨clk, v, x, by simpa using h2, hl, hv⟩
        · rw [List.concat_eq_append, ← List.cons_append, ← List.append_assoc] at he
          exact .inl ⟨pre, clk, v, x, post', (List.append_inj' he rfl).1, hl, hv⟩
      · rintro (⟨pre, clk, v, x, post, rfl, hl, hv⟩ | ⟨clk, v, x, rfl, hl, hv⟩)
        · exact ⟨pre, clk, v, x, post ++ [op], by simp, hl, hv⟩
        · exact ⟨ops, clk, v, x, [], rfl, hl, hv⟩
    rw [hF, ← ih, hstep]
    clear ih hF hstep
    generalize afterOps env (LModel.new mt id) ops = m
    by_cases h1 : ∃ clk v x, op = .fix clk v x
    · obtain ⟨clk, v, x, rfl⟩ := h1
      by_cases hv : ValueOf m.mtype x
      · rw [(step_fix env clk v x m).1 hv, mem_sadd']
        constructor
        · rintro (rfl | h)
          · exact .inr ⟨clk, v, x, rfl, rfl, hv⟩
          · exact .inl h
        · rintro (h | ⟨_, w, _, hw, rfl, _⟩)
          · exact .inr h
          · cases hw; exact .inl rfl
      · rw [(step_fix env clk v x m).2 hv]
        constructor
        · exact .inl
        · rintro (h | ⟨_, _, _, hw, _, hv'⟩)
          · exact h
          · cases hw; exact absurd hv' hv
    · have : (op.step env m).fixed = m.fixed := by
        by_cases hr : op.Registers
        · cases op with
          | addConstraint c => rfl
          | removeConstraint l =>
            unfold Op.step
            simp only [Op.call, removeConstraint]
            py_simp
            split <;> rfl
          | delete v => exact (step_delete env v m).2
          | merge clk o => exact hp.elim
          | fix clk v x => exact absurd ⟨clk, v, x, rfl⟩ h1
          | _ => exact hr.elim
        · exact congrArg (·.2.2) (step_registries env hr m)
      rw [this]
      constructor
      · exact .inl
      · rintro (h | ⟨clk, v, x, h, _⟩)
        · exact h
        · exact absurd ⟨clk, v, x, h⟩ h1

/-- **C86**, offset: `offset(c)` sets the constant term of the Hamiltonian and nothing else. -/
theorem C86_offset (m : LModel) (c : Coef) : ∃ m', (setOffset c).run m = .ok ⟨⟩ m' ∧ m' = { m with offset := c } ∧
    ∀ ρ σ, m'.energy ρ σ - c.eval ρ = m.energy ρ σ - m.offset.eval ρ := by
  refine ⟨_, rfl, rfl, fun ρ σ => ?_⟩
  simp only [LModel.energy]
  ring

theorem labelStem_iff (l n : String) : labelStem l = some n ↔ '[' ∉ n.toList ∧ ∃ tail, l = n ++ "[" ++ tail := by
  unfold labelStem
  constructor
  · intro h
    split at h
    · rename_i hmem
      cases h
      obtain ⟨as, bs, hl, has⟩ := List.eq_append_cons_of_mem hmem
      have htw : l.toList.takeWhile (· ≠ '[') = as := by
        rw [hl, List.takeWhile_append_of_pos]
        · simp
        · intro c hc
          simp only [ne_eq, decide_eq_true_eq]
          rintro rfl
          exact has hc
      rw [htw]
      refine ⟨by rwa [String.toList_ofList], String.ofList bs, ?_⟩
      apply String.toList_injective
      rw [String.toList_append, String.toList_append, String.toList_ofList, String.toList_ofList, hl]
      simp
    · cases h
  · rintro ⟨hn, tail, rfl⟩
    have h2 : (n ++ "[" ++ tail).toList = n.toList ++ '[' :: tail.toList := by
      rw [String.toList_append, String.toList_append]
      have : "[".toList = ['['] := rfl
      rw [this]
      simp
    rw [h2, if_pos (by simp)]
    congr 1
    apply String.toList_injective
    rw [String.toList_ofList, List.takeWhile_append_of_pos]
    · simp
    · intro c hc
      simp only [ne_eq, decide_eq_true_eq]
      rintro rfl
      exact hn hc

/-- **C86**, arrays: `variables(array)` is accepted exactly if the first variable of the array has the type of the model and
a label with a bracket; the array is then registered under the part of that label before the bracket, in place of an
array of that name, and nothing else changes. -/
theorem C86_variables_array (m m' : LModel) (a b : VArray) :
    (variablesArray a).run m = .ok b m' ↔ b = a ∧ ∃ n, a.Fits m.mtype n ∧ m' = { m with vars := m'.vars } ∧
      m'.vars = dset m.vars n a := by
  unfold variablesArray VArray.Fits
  cases hb : a.bits with
  | nil =>
    constructor
    · intro h; cases h
    · rintro ⟨_, n, ⟨v, rest, tail, h, _⟩, _⟩; cases h
  | cons v rest =>
    have ht : (v.vt = .spin ↔ m.mtype = .ising) ↔ v.vt = m.mtype.vtype := by
      cases v.vt <;> cases m.mtype <;> simp [MType.vtype]
    simp only
    py_simp
    by_cases hv : v.vt = m.mtype.vtype
    · simp only [hv, ne_eq, not_true_eq_false, if_false]
      cases hs : labelStem v.label with
      | none =>
        constructor
        · intro h; cases h
        · rintro ⟨_, n, ⟨v', rest', tail, h, _, hl, hn⟩, _⟩
          cases h
          rw [(labelStem_iff _ n).mpr ⟨hn, tail, hl⟩] at hs
          cases hs
      | some n =>
        obtain ⟨hn, tail, hl⟩ := (labelStem_iff _ n).mp hs
        constructor
        · intro h
          cases h
          exact ⟨rfl, n, ⟨v, rest, tail, rfl, ht.mpr hv, hl, hn⟩, rfl, rfl⟩
        · rintro ⟨rfl, n', ⟨v', rest', tail', h, _, hl', hn'⟩, he, hvs⟩
          cases h
          have := (labelStem_iff _ n').mpr ⟨hn', tail', hl'⟩
          rw [hs] at this
          cases this
          rw [he, hvs]
          rfl
    · simp only [hv, ne_eq, not_false_eq_true, if_true]
      constructor
      · intro h; cases h
      · rintro ⟨_, n, ⟨v', rest', tail, h, h2, _⟩, _⟩
        cases h
        exact absurd (ht.mp h2) hv

/-- **C86**, arrays: the exceptions of `variables(array)`, each without an effect. -/
theorem C86_variables_array_raises {m m' : LModel} {a : VArray} {e : Err} (h : (variablesArray a).run m = .error e m') :
    m' = m ∧ (a.bits = [] ∧ e = .indexError ∨ ∃ v rest, a.bits = v :: rest ∧
      (v.vt ≠ m.mtype.vtype ∧ e = .typeError ∨ v.vt = m.mtype.vtype ∧ '[' ∉ v.label.toList ∧ e = .valueError)) := by
  unfold variablesArray at h
  cases hb : a.bits with
  | nil => rw [hb] at h; cases h; exact ⟨rfl, .inl ⟨rfl, rfl⟩⟩
  | cons v rest =>
    rw [hb] at h
    revert h
    simp only
    py_simp
    by_cases hv : v.vt = m.mtype.vtype
    · simp only [hv, ne_eq, not_true_eq_false, if_false]
      unfold labelStem
      by_cases hl : '[' ∈ v.label.toList
      · rw [if_pos hl]
        intro h; cases h
      · rw [if_neg hl]
        intro h
        cases h
        exact ⟨rfl, .inr ⟨v, rest, rfl, .inr ⟨hv, hl, rfl⟩⟩⟩
    · simp only [hv, ne_eq, not_false_eq_true, if_true]
      intro h
      cases h
      exact ⟨rfl, .inr ⟨v, rest, rfl, .inl ⟨hv, rfl⟩⟩⟩


/-! ### Examples -/

/-- An environment for the examples. -/
def regEnv : Env := ⟨0, fun _ => "0"⟩

/-- A history with a label that is added twice, a label that is removed, a remove call that raises, a delete call and two
fix calls of which one raises. -/
def regOps : List Op :=
  [.variables "x" [3], .addConstraint (.nHot "c" 5 [Ex.b0, Ex.b1] 1), .addConstraint (.nHot "d" 2 [Ex.b0] 1),
   .add 1 (.var Ex.b0) (.str "") (.num 1) (.num 1) .none .none, .removeConstraint "d", .removeConstraint "d",
   .addConstraint (.zeroOrOneHot "c" 7 [Ex.b1, Ex.b2]), .fix (fun _ => 0) Ex.b0 (.num 2), .fix (fun _ => 0) Ex.b2 (.num 1)]

example : ∀ op ∈ regOps, op.Plain ∧ op.NotMerge := by
  unfold regOps
  simp [Op.Plain, Op.NotMerge]

example : (afterOps regEnv (LModel.new .qubo "1") regOps).constraints = [("c", .zeroOrOneHot "c" 7 [Ex.b1, Ex.b2])] := by
  decide +kernel

example : AddedLast regOps "c" (.zeroOrOneHot "c" 7 [Ex.b1, Ex.b2]) := by
  rw [← C86_constraints regEnv .qubo "1" regOps (by unfold regOps; simp [Op.Plain])]
  decide +kernel

example : FixedBy regEnv (LModel.new .qubo "1") regOps "x[2]" ∧ ¬ FixedBy regEnv (LModel.new .qubo "1") regOps "x[0]" := by
  rw [← C86_fixed _ _ _ _ (by unfold regOps; simp [Op.NotMerge]), ← C86_fixed _ _ _ _ (by unfold regOps; simp [Op.NotMerge])]
  decide +kernel

example : VArray.Fits ⟨[2], [Ex.b0, Ex.b1]⟩ .qubo "x" := ⟨Ex.b0, [Ex.b1], "0]", rfl, by decide, rfl, by decide⟩

/-- Only the first variable of an array is checked: an array that also holds a variable of the other type is accepted. -/
theorem C86_mixed_array_refuted : ¬ ∀ (m m' : LModel) (a b : VArray), (variablesArray a).run m = .ok b m' →
    ∀ v ∈ a.bits, v.vt = m.mtype.vtype := by
  intro h
  have := h (LModel.new .qubo "1") _ ⟨[2], [Ex.b0, Ex.x1]⟩ _ rfl Ex.x1 (by simp)
  cases this

end Sawatabi.Props
