import Verif.Lemmas.Congruence
import Verif.Lemmas.ToPhysical
import Verif.Lemmas.Conv

/-!
# Calls on equal models: the loops over dictionaries
-/

namespace Sawatabi

open Py (Con)

/-! ## Loops that change each entry of a dictionary -/

section Loop

variable {σ κ ν : Type} [DecidableEq κ]

/-- The value that a round leaves. -/
def okOr (v : ν) : Except Err ν → ν
  | .ok v' => v'
  | .error _ => v

theorem dget_append_of_not_mem {d e : List (κ × ν)} {k : κ} (h : k ∉ dkeys d) : dget (d ++ e) k = dget e k := by
  induction d with
  | nil => rfl
  | cons p d ih =>
    simp only [dkeys, List.map_cons, List.mem_cons, not_or] at h
    rw [List.cons_append, dget, if_neg (Ne.symm h.1)]
    exact ih h.2

theorem dset_append_of_not_mem {d e : List (κ × ν)} {k : κ} {v : ν} (h : k ∉ dkeys d) :
    dset (d ++ e) k v = d ++ dset e k v := by
  induction d with
  | nil => rfl
  | cons p d ih =>
    simp only [dkeys, List.map_cons, List.mem_cons, not_or] at h
    rw [List.cons_append, dset, if_neg (Ne.symm h.1), List.cons_append]
    congr 1
    exact ih h.2

theorem dget_map_snd (d : List (κ × ν)) (F : κ → ν → ν) (k : κ) :
    dget (d.map fun p => (p.1, F p.1 p.2)) k = (dget d k).map (F k) := by
  induction d with
  | nil => rfl
  | cons p d ih =>
    simp only [List.map_cons, dget]
    split
    · rename_i h; subst h; rfl
    · exact ih

theorem dkeys_map_snd (d : List (κ × ν)) (F : κ → ν → ν) : dkeys (d.map fun p => (p.1, F p.1 p.2)) = dkeys d := by
  simp [dkeys, List.map_map, Function.comp_def]

/-- A loop over the keys of a dictionary in which each round replaces the entry of its key, or raises. -/
theorem dictLoop (put : List (κ × ν) → σ) (f : κ → Py σ PUnit) (g : κ → ν → Except Err ν)
    (hok : ∀ d k v v', dget d k = some v → g k v = .ok v' → (f k).run (put d) = .ok ⟨⟩ (put (dset d k v')))
    (herr : ∀ d k v e, dget d k = some v → g k v = .error e → (f k).run (put d) = .error e (put d)) (d : List (κ × ν)) (hd : (dkeys d).Nodup) :
    ((∀ p ∈ d, ∃ v', g p.1 p.2 = .ok v') →
      ((dkeys d).forM f).run (put d) = .ok ⟨⟩ (put (d.map fun p => (p.1, okOr p.2 (g p.1 p.2))))) ∧
    ((¬ ∀ p ∈ d, ∃ v', g p.1 p.2 = .ok v') → ∃ e t, ((dkeys d).forM f).run (put d) = .error e t) := by
  have key : ∀ (todo done : List (κ × ν)), (dkeys (done ++ todo)).Nodup →
      ((∀ p ∈ todo, ∃ v', g p.1 p.2 = .ok v') → ((dkeys todo).forM f).run (put (done ++ todo)) =
        .ok ⟨⟩ (put (done ++ todo.map fun p => (p.1, okOr p.2 (g p.1 p.2))))) ∧
      ((¬ ∀ p ∈ todo, ∃ v', g p.1 p.2 = .ok v') → ∃ e t, ((dkeys todo).forM f).run (put (done ++ todo)) = .error e t) := by
    intro todo
    induction todo with
    | nil => exact fun done _ => ⟨fun _ => rfl, fun h => absurd (by simp) h⟩
    | cons p todo ih =>
      obtain ⟨k, v⟩ := p
      intro done hn
      have hk : k ∉ dkeys done := by
        simp only [dkeys, List.map_append, List.map_cons, List.nodup_append] at hn
        exact fun h => hn.2.2 k h k (by simp) rfl
      have hget : dget (done ++ (k, v) :: todo) k = some v := by
        rw [dget_append_of_not_mem hk]
        simp [dget]
      have hcons : ((dkeys ((k, v) :: todo)).forM f).run (put (done ++ (k, v) :: todo)) = _ :=
        Py.run_forM_cons f k (dkeys todo) (put (done ++ (k, v) :: todo))
      rw [hcons]
      cases hg : g k v with
      | error e =>
        rw [herr _ _ _ _ hget hg]
        refine ⟨fun h => ?_, fun _ => ⟨e, _, rfl⟩⟩
        obtain ⟨v', hv'⟩ := h (k, v) (by simp)
        rw [hg] at hv'
        cases hv'
      | ok v' =>
        rw [hok _ _ _ _ hget hg, dset_append_of_not_mem hk]
        simp only [dset, if_true]
        have := ih (done ++ [(k, v')]) (by
          simp only [dkeys, List.map_append, List.map_cons, List.map_nil, List.append_assoc, List.singleton_append] at hn ⊢
          exact hn)
        simp only [List.append_assoc, List.singleton_append] at this
        refine ⟨fun h => ?_, fun h => this.2 fun h' => h ?_⟩
        · rw [this.1 fun p hp => h p (by simp [hp])]
          simp [okOr, hg]
        · intro p hp
          rcases List.mem_cons.mp hp with rfl | hp
          · exact ⟨v', hg⟩
          · exact h' p hp
  exact key d [] hd

theorem allOk_perm {d e : List (κ × ν)} (h : d.Perm e) (g : κ → ν → Except Err ν) :
    (∀ p ∈ d, ∃ v', g p.1 p.2 = .ok v') ↔ ∀ p ∈ e, ∃ v', g p.1 p.2 = .ok v' :=
  ⟨fun h' p hp => h' p (h.mem_iff.mpr hp), fun h' p hp => h' p (h.mem_iff.mp hp)⟩

end Loop

/-! ## Calls whose exception depends on the order -/

/-- The same value and related states, or an exception on both sides. -/
def WeakRes {σ α : Type} (R : σ → σ → Prop) : Res σ α → Res σ α → Prop
  | .ok a s, .ok b t => a = b ∧ R s t
  | .error _ _, .error _ _ => True
  | _, _ => False

/-- A call that returns on both of two related states, with the same value, or on none. -/
def Py.Weak {σ α : Type} (R : σ → σ → Prop) (x : Py σ α) : Prop := ∀ m n, R m n → WeakRes R (x.run m) (x.run n)

open Py (Weak)

theorem RelRes.weak {σ α : Type} {R : σ → σ → Prop} {x y : Res σ α} (h : RelRes R x y) : WeakRes R x y := by
  cases x <;> cases y <;> first | exact h | trivial

theorem Py.Con.weak {σ α : Type} {R : σ → σ → Prop} {x : Py σ α} (h : Con R x) : Weak R x :=
  fun m n hs => (h m n hs).weak

theorem WeakRes.bind {σ α β : Type} {R : σ → σ → Prop} {x y : Py σ α} {f g : α → Py σ β} {m n : σ}
    (hx : WeakRes R (x.run m) (y.run n)) (hf : ∀ a m' n', R m' n' → WeakRes R ((f a).run m') ((g a).run n')) :
    WeakRes R ((x >>= f).run m) ((y >>= g).run n) := by
  rw [Py.run_bind, Py.run_bind]
  cases hxm : x.run m <;> cases hyn : y.run n <;> rw [hxm, hyn] at hx
  · obtain ⟨rfl, h⟩ := hx
    exact hf _ _ _ h
  · exact hx.elim
  · exact hx.elim
  · trivial

theorem Py.Weak.bind {σ α β : Type} {R : σ → σ → Prop} {x : Py σ α} {f : α → Py σ β} (hx : Weak R x)
    (hf : ∀ a, Weak R (f a)) : Weak R (x >>= f) :=
  fun m n h => (hx m n h).bind fun a m' n' h' => hf a m' n' h'

theorem Py.Weak.forM {σ α : Type} {R : σ → σ → Prop} {f : α → Py σ PUnit} {l : List α} (h : ∀ a ∈ l, Weak R (f a)) :
    Weak R (l.forM f) := by
  induction l with
  | nil => exact fun m n hs => ⟨rfl, hs⟩
  | cons a l ih =>
    intro m n hs
    rw [List.forM_eq_forM, List.forM_cons]
    exact WeakRes.bind (h a (by simp) m n hs) fun _ m' n' h' => by
      have := ih (fun b hb => h b (by simp [hb])) m' n' h'
      rwa [List.forM_eq_forM] at this

/-! ## Conversion of the model type -/

/-- The array that a conversion makes of an entry. -/
def retyped (mt : MType) (k : String) (a : VArray) : Except Err VArray :=
  arrayCreate k (a.shape.map Int.ofNat) mt.vtype

theorem retypeLoop_weak {m n : LModel} (h : Same m n) :
    WeakRes Same (((dkeys m.vars).forM retypeVar).run m) (((dkeys n.vars).forM retypeVar).run n) := by
  have hok : ∀ (m : LModel) (d : List (String × VArray)) k v v', dget d k = some v → retyped m.mtype k v = .ok v' →
      (retypeVar k).run { m with vars := d } = .ok ⟨⟩ { m with vars := dset d k v' } := by
    intro m d k v v' h1 h2
    unfold retypeVar
    py_simp
    unfold retyped at h2
    simp only [h1, Py.run_bind, h2, Py.run_liftE_ok, Py.run_set]
  have herr : ∀ (m : LModel) (d : List (String × VArray)) k v e, dget d k = some v → retyped m.mtype k v = .error e →
      (retypeVar k).run { m with vars := d } = .error e { m with vars := d } := by
    intro m d k v v' h1 h2
    unfold retypeVar
    py_simp
    unfold retyped at h2
    simp only [h1, Py.run_bind, h2, Py.run_liftE_error]
  have hm := dictLoop (fun d => { m with vars := d }) retypeVar (retyped m.mtype) (hok m) (herr m) m.vars h.left.vars
  have hn := dictLoop (fun d => { n with vars := d }) retypeVar (retyped m.mtype)
    (fun d k v v' h1 h2 => hok n d k v v' h1 (by rw [← h.alike.mtype]; exact h2))
    (fun d k v e h1 h2 => herr n d k v e h1 (by rw [← h.alike.mtype]; exact h2)) n.vars h.right.vars
  by_cases hall : ∀ p ∈ m.vars, ∃ v', retyped m.mtype p.1 p.2 = .ok v'
  · have h1 := hm.1 hall
    have h2 := hn.1 ((allOk_perm h.alike.vars _).mp hall)
    rw [show ((dkeys m.vars).forM retypeVar).run m = _ from h1, show ((dkeys n.vars).forM retypeVar).run n = _ from h2]
    refine ⟨rfl, h.setVars (h.alike.vars.map _) ?_ ?_⟩
    · rw [dkeys_map_snd m.vars fun k v => okOr v (retyped m.mtype k v)]; exact h.left.vars
    · rw [dkeys_map_snd n.vars fun k v => okOr v (retyped m.mtype k v)]; exact h.right.vars
  · obtain ⟨e, t, h1⟩ := hm.2 hall
    obtain ⟨e', t', h2⟩ := hn.2 fun h' => hall ((allOk_perm h.alike.vars _).mpr h')
    rw [show ((dkeys m.vars).forM retypeVar).run m = _ from h1, show ((dkeys n.vars).forM retypeVar).run n = _ from h2]
    trivial

theorem updateVariablesType_weak : Weak Same updateVariablesType := by
  unfold updateVariablesType
  intro m n h
  refine WeakRes.bind (x := (dkeys m.vars).forM retypeVar) (y := (dkeys n.vars).forM retypeVar) (retypeLoop_weak h) ?_
  intro _ m n h
  refine (Con.bind makeFrame_con (fun _ => .modify fun m n h => ?_) m n h).weak
  have := h.setRows (n.rows.map fun r => if r.removed then r else { r with inter := r.inter.retype n.mtype.vtype })
  rw [show m.rows = n.rows from h.alike.rows, show m.mtype.vtype = n.mtype.vtype by rw [h.alike.mtype]]
  exact this

theorem updateCoef_con (env : Env) (k : String) (c : Coef) : Con Same (updateCoef env k c) :=
  updateInteraction_con _ _ _ _ _ _ _ _

theorem addOffset_con (c : Coef) : Con Same (modify fun m => { m with offset := m.offset.add c } : Py LModel PUnit) :=
  .modify fun m n h => by rw [h.alike.offset]; exact h.setOffset _

theorem genLin_con (env : Env) (f o : Coef → Coef) (r : Row) : Con Same (genLin env f o r) :=
  .bind (updateCoef_con _ _ _) fun _ => addOffset_con _

theorem genQuad_con (env : Env) (f g o : Coef → Coef) (clk : Nat → ℚ) (r : Row) : Con Same (genQuad env f g o clk r) := by
  unfold genQuad
  cases r.inter with
  | lin v => exact .throw _
  | quad v w =>
    exact .bind (updateCoef_con _ _ _) fun _ => .bind (addInteraction_con _ _ _ _ _ _ _) fun _ =>
      .bind (addInteraction_con _ _ _ _ _ _ _) fun _ => addOffset_con _

theorem selectBody_con (b : Nat) : Con Same (selectBody b) := by
  unfold selectBody
  refine .bind makeFrame_con fun _ => .get fun m n h => ?_
  rw [h.alike.rows]
  exact Con.pure _ m n h

theorem genConv_weak (env : Env) (mt : MType) (f o f₂ g₂ o₂ : Coef → Coef) (clk : Nat → ℚ) :
    Weak Same (genConv env mt f o f₂ g₂ o₂ clk) := by
  unfold genConv
  refine .bind (Con.modify fun m n h => h.setMtype _).weak fun _ => .bind updateVariablesType_weak fun _ => Con.weak ?_
  exact .bind (selectBody_con _) fun hs => .bind (.forM fun a _ => genLin_con _ _ _ _) fun _ =>
    .bind (selectBody_con _) fun js => .forM fun a _ => genQuad_con _ _ _ _ _ _

theorem toIsing_weak (env : Env) (clk : Nat → ℚ) : Weak Same (toIsing env clk) := by
  intro m n h
  rw [toIsing_run, toIsing_run, h.alike.mtype]
  split
  · exact ⟨rfl, h⟩
  · exact genConv_weak _ _ _ _ _ _ _ _ m n h

theorem toQubo_weak (env : Env) (clk : Nat → ℚ) : Weak Same (toQubo env clk) := by
  intro m n h
  rw [toQubo_run, toQubo_run, h.alike.mtype]
  split
  · exact ⟨rfl, h⟩
  · exact genConv_weak _ _ _ _ _ _ _ _ m n h

/-! ## Deleting a variable -/

theorem removeVariable_alike {c d : Constraint} (h : c.Alike d) (v : PVar) :
    (∃ c' d', c.removeVariable v = .ok c' ∧ d.removeVariable v = .ok d' ∧ c'.Alike d') ∨
    (∃ e e', c.removeVariable v = .error e ∧ d.removeVariable v = .error e') := by
  cases h with
  | nHot l s n h =>
    rename_i vs vs'
    simp only [Constraint.removeVariable]
    by_cases hv : v ∈ vs
    · rw [if_pos hv, if_pos (h.mem_iff.mp hv)]
      exact .inl ⟨_, _, rfl, rfl, .nHot _ _ _ (h.filter _)⟩
    · rw [if_neg hv, if_neg fun h' => hv (h.mem_iff.mpr h')]
      exact .inr ⟨_, _, rfl, rfl⟩
  | zeroOrOneHot l s h =>
    rename_i vs vs'
    simp only [Constraint.removeVariable]
    by_cases hv : v ∈ vs
    · rw [if_pos hv, if_pos (h.mem_iff.mp hv)]
      exact .inl ⟨_, _, rfl, rfl, .zeroOrOneHot _ _ (h.filter _)⟩
    · rw [if_neg hv, if_neg fun h' => hv (h.mem_iff.mpr h')]
      exact .inr ⟨_, _, rfl, rfl⟩
  | equality l s h1 h2 => exact .inr ⟨_, _, rfl, rfl⟩

theorem removeVariable_setVars {c c' : Constraint} {v : PVar} (h : c.removeVariable v = .ok c') (hc : c.SetVars) :
    c'.SetVars := by
  cases c with
  | nHot l s vs n =>
    simp only [Constraint.removeVariable] at h
    split at h
    · cases h; exact List.Nodup.filter _ hc
    · cases h
  | zeroOrOneHot l s vs =>
    simp only [Constraint.removeVariable] at h
    split at h
    · cases h; exact List.Nodup.filter _ hc
    · cases h
  | equality l s v1 v2 => cases h

theorem okOr_setVars {c : Constraint} (v : PVar) (hc : c.SetVars) : (okOr c (c.removeVariable v)).SetVars := by
  cases h : c.removeVariable v with
  | error e => exact hc
  | ok c' => exact removeVariable_setVars h hc

theorem constraintLoop_weak {m n : LModel} (h : Same m n) (v : PVar) :
    WeakRes Same (((dkeys m.constraints).forM (removeFromConstraint v)).run m)
      (((dkeys n.constraints).forM (removeFromConstraint v)).run n) := by
  have hok : ∀ (m : LModel) (d : List (String × Constraint)) k c c', dget d k = some c → c.removeVariable v = .ok c' →
      (removeFromConstraint v k).run { m with constraints := d } = .ok ⟨⟩ { m with constraints := dset d k c' } := by
    intro m d k c c' h1 h2
    unfold removeFromConstraint
    py_simp
    simp only [h1, Py.run_bind, h2, Py.run_liftE_ok, Py.run_set]
  have herr : ∀ (m : LModel) (d : List (String × Constraint)) k c e, dget d k = some c → c.removeVariable v = .error e →
      (removeFromConstraint v k).run { m with constraints := d } = .error e { m with constraints := d } := by
    intro m d k c c' h1 h2
    unfold removeFromConstraint
    py_simp
    simp only [h1, Py.run_bind, h2, Py.run_liftE_error]
  have hm := dictLoop (fun d => { m with constraints := d }) (removeFromConstraint v) (fun _ c => c.removeVariable v)
    (hok m) (herr m) m.constraints h.left.cons
  have hn := dictLoop (fun d => { n with constraints := d }) (removeFromConstraint v) (fun _ c => c.removeVariable v)
    (hok n) (herr n) n.constraints h.right.cons
  have hiff : ∀ {m n : LModel}, Same m n → (∀ p ∈ m.constraints, ∃ c', p.2.removeVariable v = .ok c') →
      ∀ p ∈ n.constraints, ∃ c', p.2.removeVariable v = .ok c' := by
    intro m n h hall p hp
    have := h.alike.cons p.1
    rw [dget_of_mem h.right.cons hp] at this
    cases hg : dget m.constraints p.1 with
    | none => rw [hg] at this; exact this.elim
    | some c =>
      rw [hg] at this
      obtain ⟨c', hc'⟩ := hall _ (dget_mem hg)
      rcases removeVariable_alike this v with ⟨_, d', _, hd, _⟩ | ⟨e, e', he, _⟩
      · exact ⟨d', hd⟩
      · simp only at hc'
        rw [hc'] at he
        cases he
  have hsym : Same n m := ⟨h.alike.symm, h.right, h.left⟩
  by_cases hall : ∀ p ∈ m.constraints, ∃ c', p.2.removeVariable v = .ok c'
  · have hall' := hiff h hall
    have h1 := hm.1 hall
    have h2 := hn.1 hall'
    rw [show ((dkeys m.constraints).forM (removeFromConstraint v)).run m = _ from h1,
      show ((dkeys n.constraints).forM (removeFromConstraint v)).run n = _ from h2]
    have hset : ∀ {m : LModel}, m.Proper → LModel.Proper { m with
        constraints := (m.constraints.map fun p => (p.1, okOr p.2 (p.2.removeVariable v))) } := by
      intro m hm
      refine { hm with cons := ?_, sets := ?_ }
      · show (dkeys _).Nodup
        rw [dkeys_map_snd m.constraints fun _ c => okOr c (c.removeVariable v)]
        exact hm.cons
      · intro p hp
        obtain ⟨q, hq, rfl⟩ := List.mem_map.mp hp
        exact okOr_setVars v (hm.sets q hq)
    refine ⟨rfl, { h.alike with cons := ?_ }, hset h.left, hset h.right⟩
    intro k
    simp only
    rw [dget_map_snd m.constraints fun _ c => okOr c (c.removeVariable v),
      dget_map_snd n.constraints fun _ c => okOr c (c.removeVariable v)]
    have := h.alike.cons k
    cases hg : dget m.constraints k <;> cases hg' : dget n.constraints k <;> rw [hg, hg'] at this
    · trivial
    · exact this.elim
    · exact this.elim
    · simp only [Option.map_some]
      rcases removeVariable_alike this v with ⟨c', d', hc, hd, hcd⟩ | ⟨e, e', hc, hd⟩
      · rw [hc, hd]; exact hcd
      · rw [hc, hd]; exact this
  · obtain ⟨e, t, h1⟩ := hm.2 hall
    obtain ⟨e', t', h2⟩ := hn.2 fun h' => hall (hiff hsym h')
    rw [show ((dkeys m.constraints).forM (removeFromConstraint v)).run m = _ from h1,
      show ((dkeys n.constraints).forM (removeFromConstraint v)).run n = _ from h2]
    trivial

theorem deleteVariable_weak (v : PVar) : Weak Same (deleteVariable v) := by
  unfold deleteVariable
  refine .bind (Con.modify fun m n h => h.addDeleted _).weak fun _ => ?_
  intro m n h
  refine WeakRes.bind (x := (dkeys m.constraints).forM (removeFromConstraint v))
    (y := (dkeys n.constraints).forM (removeFromConstraint v)) (constraintLoop_weak h v) ?_
  intro _ m n h
  exact (Con.bind (selectByVariable_con v) (fun names => .forM fun k _ => removeInteraction_con _ _) m n h).weak

/-! ## `to_physical` without constraints -/

/-- What a physical model consists of, apart from the numbering of the variables. -/
def Physical.content (p : Physical) : MType × List (String × ℚ) × List ((String × String) × ℚ) × ℚ × List String :=
  (p.mtype, p.linear, p.quad, p.offset, p.varsSet)

theorem popCols_weak {m n : LModel} (h : Same m n) (i : Nat) :
    WeakRes Same (((dkeys m.attrCols).forM (popCol i)).run m) (((dkeys n.attrCols).forM (popCol i)).run n) := by
  let g : String → List PyVal → Except Err (List PyVal) := fun _ col =>
    if i < col.length then .ok (col.eraseIdx i) else .error .indexError
  have hok : ∀ (m : LModel) (d : List (String × List PyVal)) k c c', dget d k = some c → g k c = .ok c' →
      (popCol i k).run { m with attrCols := d } = .ok ⟨⟩ { m with attrCols := dset d k c' } := by
    intro m d k c c' h1 h2
    unfold popCol
    py_simp
    simp only [g] at h2
    split at h2
    · rename_i hi
      cases h2
      simp only [h1, hi, if_true, Py.run_set]
    · cases h2
  have herr : ∀ (m : LModel) (d : List (String × List PyVal)) k c e, dget d k = some c → g k c = .error e →
      (popCol i k).run { m with attrCols := d } = .error e { m with attrCols := d } := by
    intro m d k c c' h1 h2
    unfold popCol
    py_simp
    simp only [g] at h2
    split at h2
    · cases h2
    · rename_i hi
      cases h2
      simp only [h1, hi, if_false, Py.run_throw]
  have hm := dictLoop (fun d => { m with attrCols := d }) (popCol i) g (hok m) (herr m) m.attrCols h.left.cols
  have hn := dictLoop (fun d => { n with attrCols := d }) (popCol i) g (hok n) (herr n) n.attrCols h.right.cols
  by_cases hall : ∀ p ∈ m.attrCols, ∃ v', g p.1 p.2 = .ok v'
  · have h1 := hm.1 hall
    have h2 := hn.1 ((allOk_perm h.alike.cols _).mp hall)
    rw [show ((dkeys m.attrCols).forM (popCol i)).run m = _ from h1, show ((dkeys n.attrCols).forM (popCol i)).run n = _ from h2]
    refine ⟨rfl, h.setCols (h.alike.cols.map _) ?_ ?_⟩
    · rw [dkeys_map_snd m.attrCols fun k v => okOr v (g k v)]; exact h.left.cols
    · rw [dkeys_map_snd n.attrCols fun k v => okOr v (g k v)]; exact h.right.cols
  · obtain ⟨e, t, h1⟩ := hm.2 hall
    obtain ⟨e', t', h2⟩ := hn.2 fun h' => hall ((allOk_perm h.alike.cols _).mpr h')
    rw [show ((dkeys m.attrCols).forM (popCol i)).run m = _ from h1, show ((dkeys n.attrCols).forM (popCol i)).run n = _ from h2]
    trivial

theorem popRow_weak (k : String) : Weak Same (popRow k) := by
  unfold popRow
  intro m n h
  show WeakRes Same ((get >>= _ : Py LModel Unit).run m) ((get >>= _ : Py LModel Unit).run n)
  rw [Py.run_bind, Py.run_bind, Py.run_get, Py.run_get]
  simp only
  rw [h.indexOf]
  cases n.indexOf k with
  | error e => trivial
  | ok i =>
    simp only [Py.run_bind, Py.run_liftE_ok, Py.run_modify]
    have h' : Same { m with rows := m.rows.eraseIdx i } { n with rows := n.rows.eraseIdx i } := by
      rw [h.alike.rows]; exact h.setRows _
    have := popCols_weak h' i
    refine WeakRes.bind (x := (dkeys m.attrCols).forM (popCol i)) (y := (dkeys n.attrCols).forM (popCol i))
      (f := fun _ => modify fun m => { m with length := m.length - 1 })
      (g := fun _ => modify fun m => { m with length := m.length - 1 }) this ?_
    intro _ m n h
    refine Con.weak (.modify fun m n h => ?_) m n h
    rw [h.alike.length]
    exact h.setLength _

/-- The same content, and related states; or an exception on both sides. -/
def PhysRes : Res LModel Physical → Res LModel Physical → Prop
  | .ok p s, .ok q t => p.content = q.content ∧ Same s t
  | .error _ _, .error _ _ => True
  | _, _ => False

theorem cleaned_same {m n : LModel} (h : Same m n) : Same (markClean m) (markClean n) := by
  have := h.setRows ((n.rows.take n.length.toNat).map (fun r => { r with dirty := false }) ++ n.rows.drop n.length.toNat)
  unfold markClean
  rw [show m.rows = n.rows from h.alike.rows, show m.length.toNat = n.length.toNat by rw [h.alike.length]]
  exact this

theorem toPhysical_weak {m n : LModel} (h : Same m n) (env : Env) (clks : Nat → Nat → ℚ) (ids : Nat → String)
    (ph : List (String × ℚ)) (hc : m.constraints = []) :
    PhysRes ((toPhysical env clks ids ph).run m) ((toPhysical env clks ids ph).run n) := by
  have hc' : n.constraints = [] := by
    cases hn : n.constraints with
    | nil => rfl
    | cons p l =>
      have := h.alike.cons p.1
      rw [hc, hn] at this
      simp [dget] at this
  rw [toPhysical_run, toPhysical_run, hc, hc', List.zipIdx_nil, Py.run_forM_nil, Py.run_forM_nil]
  simp only
  have hg : group ph m = group ph n := by unfold group; rw [h.alike.rows, h.alike.length]
  rw [hg, h.alike.offset]
  cases group ph n with
  | error e => trivial
  | ok g =>
    simp only
    cases n.offset.resolve ph with
    | error e => trivial
    | ok off =>
      simp only
      have hr : Same (restored m m) (restored n n) := h
      have := Weak.forM (R := Same) (f := popRow) (l := g.willRemove) (fun k _ => popRow_weak k) _ _ hr
      cases hm : (g.willRemove.forM popRow).run (restored m m) <;>
        cases hn : (g.willRemove.forM popRow).run (restored n n) <;> rw [hm, hn] at this
      · refine ⟨?_, ?_⟩
        · simp only [Physical.content, buildPhysical, h.alike.mtype]
        · have h2 := this.2
          exact cleaned_same h2
      · exact this.elim
      · exact this.elim
      · trivial

end Sawatabi
