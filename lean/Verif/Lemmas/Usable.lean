import Verif.Lemmas.Ordered
import Verif.Lemmas.VarsInv
import Verif.Spec.Physical

/-!
# Which labels the interactions of a model mention, along every call
-/

namespace Sawatabi

/-- Every interaction mentions labels in `A` only, and the active ones labels in `B` only. -/
def Fits (A B : String → Prop) (rows : List Row) : Prop :=
  ∀ r ∈ rows, ∀ l, r.inter.mentions l → A l ∧ (r.removed = false → B l)

theorem mentions_keys {i : Inter} {l : String} : i.mentions l ↔ i.key0 = l ∨ i.key1 = some l := by
  cases i <;> simp [Inter.mentions, Inter.key0, Inter.key1]

theorem Fits.upd {A B : String → Prop} {l l' : List Row} (h : Fits A B l) (hl : List.Forall₂ RowStep l l') : Fits A B l' := by
  induction hl with
  | nil => exact h
  | @cons r r' l l' hr _ ih =>
    intro x hx y hy
    rcases List.mem_cons.mp hx with rfl | hx
    · have := h r (by simp) y (by rw [mentions_keys] at hy ⊢; rw [hr.key0, hr.key1] at hy; exact hy)
      refine ⟨this.1, fun hx => this.2 ?_⟩
      cases hrem : r.removed with
      | false => rfl
      | true => rw [hr.removed hrem] at hx; cases hx
    · exact ih (fun r hr => h r (by simp [hr])) x hx y hy

theorem Fits.append {A B : String → Prop} {l : List Row} {r : Row} (h : Fits A B l)
    (hr : ∀ x, r.inter.mentions x → A x ∧ B x) : Fits A B (l ++ [r]) := by
  intro x hx y hy
  rcases List.mem_append.mp hx with hx | hx
  · exact h x hx y hy
  · rw [List.mem_singleton] at hx
    subst hx
    exact ⟨(hr y hy).1, fun _ => (hr y hy).2⟩

theorem Fits.mono {A B A' B' : String → Prop} {l : List Row} (h : Fits A B l) (hA : ∀ x, A x → A' x)
    (hB : ∀ x, A x → B x → B' x) : Fits A' B' l :=
  fun r hr x hx => ⟨hA x (h r hr x hx).1, fun hrem => hB x (h r hr x hx).1 ((h r hr x hx).2 hrem)⟩

section

variable {A B : String → Prop}

theorem add_fits {now : ℚ} {target : PyTarget} {name : PyName} {c s : PyCoef} {a : PyAttrs} {ts : PyTs}
    (ht : ∀ i, target.Denotes i → ∀ l, i.mentions l → A l ∧ B l) :
    Py.Preserves (onRows (Fits A B)) (addInteraction now target name c s a ts) := by
  intro m hm
  rw [addInteraction_run]
  split
  · exact hm
  · rename_i p hp
    obtain ⟨row, ats⟩ := p
    obtain ⟨hd, _⟩ := addChecks_ok_iff.mp hp
    cases h : (addTail row ats).run m with
    | ok u m' => obtain ⟨_, _, rfl⟩ := addTail_ok h; exact Fits.append hm (ht _ hd)
    | error e m' => obtain ⟨_, _, rfl⟩ := addTail_error h; exact Fits.append hm (ht _ hd)

theorem remove_fits (target : PyTarget) (name : PyName) :
    Py.Preserves (onRows (Fits A B)) (removeInteraction target name) := by
  intro m hm
  rw [removeInteraction_run]
  split
  · exact hm
  · split
    · exact hm
    · exact Fits.upd hm (forall₂_modify _ _ _ rmRow_step)

theorem update_fits {importTime now : ℚ} {target : PyTarget} {name : PyName} {c s : Option PyCoef} {a : PyAttrs}
    {ts : Option PyTs} (ht : ∀ i, target.Denotes i → ∀ l, i.mentions l → A l ∧ B l) :
    Py.Preserves (onRows (Fits A B)) (updateInteraction importTime now target name c s a ts) := by
  intro m hm
  rw [updateInteraction_run]
  split
  · exact hm
  · exact add_fits ht m hm
  · rename_i idx c' s' ats ts' _
    cases h : (writeRow idx c' s' ats ts').run m with
    | ok u m' =>
      obtain ⟨_, rfl⟩ := writeRow_ok h
      exact Fits.upd hm (forall₂_modify _ _ _ (updRow_step _ _ _))
    | error e m' =>
      obtain ⟨_, rfl⟩ := writeRow_error h
      exact Fits.upd hm (forall₂_modify _ _ _ (updRow₁_step _ _))

theorem updateVariablesType_fits : Py.Preserves (onRows (Fits A B)) updateVariablesType := by
  unfold updateVariablesType
  refine .bind .get' fun m => .bind (.forM fun n _ => retypeVar_rows n) fun _ =>
    .bind makeFrame_inv fun _ => .modify' fun s h => ?_
  refine Fits.upd h (forall₂_map _ _ fun r => ?_)
  split
  · exact RowStep.refl r
  · cases hi : r.inter with
    | lin v => exact ⟨rfl, id, by simp [hi, Inter.retype, Inter.key0], by simp [hi, Inter.retype, Inter.key1]⟩
    | quad v w => exact ⟨rfl, id, by simp [hi, Inter.retype, Inter.key0], by simp [hi, Inter.retype, Inter.key1]⟩

/-- The rows that are selected come from the model. -/
theorem selectBody_fits {b : Nat} {β : Type} {f : List Row → Py LModel β}
    (hf : ∀ l : List Row, (∀ r ∈ l, ∀ x, r.inter.mentions x → A x ∧ B x) → Py.Preserves (onRows (Fits A B)) (f l)) :
    Py.Preserves (onRows (Fits A B)) (selectBody b >>= f) := by
  intro m hm
  unfold selectBody
  py_simp
  have h0 : makeFrame.run m = .ok ⟨⟩ m ∨ ∃ e, makeFrame.run m = .error e m := by
    unfold makeFrame
    py_simp
    split
    · exact .inr ⟨_, rfl⟩
    · exact .inl rfl
  rcases h0 with h0 | ⟨e, h0⟩
  · rw [h0]
    refine hf _ (fun r hr x hx => ?_) m hm
    obtain ⟨hr, hb⟩ := List.mem_filter.mp hr
    have := hm r hr x hx
    simp only [Bool.and_eq_true, Bool.not_eq_true'] at hb
    exact ⟨this.1, this.2 hb.2⟩
  · rw [h0]
    exact hm

theorem none_fits : ∀ i, PyTarget.Denotes .none i → ∀ l, i.mentions l → A l ∧ B l := by
  intro i h; cases h

theorem var_fits {v : PVar} (h : A v.label ∧ B v.label) : ∀ i, PyTarget.Denotes (.var v) i → ∀ l, i.mentions l → A l ∧ B l := by
  intro i hi l hl
  cases hi
  simp only [Inter.mentions] at hl
  exact hl ▸ h

theorem pair_fits {v w : PVar} (hv : A v.label ∧ B v.label) (hw : A w.label ∧ B w.label) :
    ∀ i, PyTarget.Denotes (.tuple [some v, some w]) i → ∀ l, i.mentions l → A l ∧ B l := by
  intro i hi l hl
  cases hi with
  | pair _ _ h => rcases hl with rfl | rfl <;> assumption
  | swapped _ _ h => rcases hl with rfl | rfl <;> assumption

theorem genConv_fits (env : Env) (mt : MType) (f o f₂ g₂ o₂ : Coef → Coef) (clk : Nat → ℚ) :
    Py.Preserves (onRows (Fits A B)) (genConv env mt f o f₂ g₂ o₂ clk) := by
  unfold genConv
  refine .bind (.modify' fun s h => h) fun _ => .bind updateVariablesType_fits fun _ =>
    .bind (selectBody_inv _) fun hs => .bind (.forM fun h _ => ?_) fun _ => selectBody_fits fun js hjs => .forM fun p hp => ?_
  · unfold genLin updateCoef
    exact .bind (update_fits none_fits) fun _ => .modify' fun s h => h
  · have := hjs p.1 (by obtain ⟨x, i⟩ := p; exact List.fst_mem_of_mem_zipIdx hp)
    unfold genQuad updateCoef
    split
    · exact .throw' _
    · rename_i v w hi
      rw [hi] at this
      exact .bind (update_fits none_fits) fun _ => .bind (add_fits (var_fits (this _ (.inl rfl)))) fun _ =>
        .bind (add_fits (var_fits (this _ (.inr rfl)))) fun _ => .modify' fun s h => h

theorem toIsing_fits (env : Env) (clk : Nat → ℚ) : Py.Preserves (onRows (Fits A B)) (toIsing env clk) := by
  intro m hm
  rw [toIsing_run]
  split
  · exact hm
  · exact genConv_fits _ _ _ _ _ _ _ _ m hm

theorem toQubo_fits (env : Env) (clk : Nat → ℚ) : Py.Preserves (onRows (Fits A B)) (toQubo env clk) := by
  intro m hm
  rw [toQubo_run]
  split
  · exact hm
  · exact genConv_fits _ _ _ _ _ _ _ _ m hm

/-- Fixing, when all labels in question may be mentioned by active interactions. -/
theorem fix_fits (hAB : ∀ l, A l → B l) (clk : Nat → ℚ) (v : PVar) (value : PyNum) :
    Py.Preserves (onRows (Fits A B)) (fixVariable clk v value) := by
  have hone : ∀ now q s, Py.Preserves (onRows (Fits A B)) (fixOne now v q s) := by
    intro now q s
    unfold fixOne
    refine .bind_get fun m hm => ?_
    rw [Py.run_bind, Py.run_liftE]
    cases m.indexOf s with
    | error e => exact hm
    | ok idx =>
      simp only
      cases hr : m.rows[idx]? with
      | none => exact hm
      | some r =>
        have hrm := hm r (List.mem_of_getElem? hr)
        simp only
        cases hi : r.inter with
        | lin w =>
          simp only [Py.run_bind, Py.run_set]
          exact remove_fits _ _ _ hm
        | quad a b =>
          rw [hi] at hrm
          simp only
          have hcont : ∀ keep : PVar, A keep.label → Py.Preserves (onRows (Fits A B)) (do
              addInteraction now (.var keep) (.str (keep.label ++ " (before fixed: " ++ s ++ ")"))
                (match ((Coef.num q).mul r.coef).mul r.scale with
                  | .num q => PyCoef.num q
                  | .expr e => PyCoef.expr e) (.num 1) .none .none
              removeInteraction .none (.str s)) := fun keep hk =>
            .bind (add_fits (var_fits ⟨hk, hAB _ hk⟩)) fun _ => remove_fits _ _
          by_cases h1 : a.label = v.label
          · simp only [h1, if_true]
            exact hcont b (hrm _ (.inr rfl)).1 m hm
          · by_cases h2 : b.label = v.label
            · simp only [h1, h2, if_true, if_false]
              exact hcont a (hrm _ (.inl rfl)).1 m hm
            · simp only [h1, h2, if_false]
              exact hm
  unfold fixVariable
  refine .bind .get' fun m => .bind (.liftE' _) fun q => .bind (.modify' fun s h => h) fun _ =>
    .bind (selectByVariable_inv _) fun names => .ite (.pure' _) (.ite ?_ ?_)
  · exact .forM fun n _ => remove_fits _ _
  · exact .forM fun n _ => hone _ _ _

theorem lookupVar_mem {m : LModel} {st : List (String × (String × List Nat))} {k : String} {t : PVar}
    (h : lookupVar m st k = .ok t) : t.label ∈ m.allLabels := by
  unfold lookupVar at h
  cases hs : dget st k with
  | none => rw [hs] at h; cases h
  | some p =>
    rw [hs] at h
    simp only at h
    cases hg : dget m.vars p.1 with
    | none => rw [hg] at h; cases h
    | some a =>
      rw [hg] at h
      simp only at h
      cases hi : flatIndex a.shape p.2 with
      | none => rw [hi] at h; cases h
      | some i =>
        rw [hi] at h
        simp only at h
        cases hb : a.bits[i]? with
        | none => rw [hb] at h; cases h
        | some v =>
          rw [hb] at h
          cases h
          simp only [LModel.allLabels, List.mem_flatMap, List.mem_map]
          exact ⟨_, dget_mem hg, _, List.mem_of_getElem? hb, rfl⟩

/-- Importing a PyQUBO model: the variables are looked up among those of the model. -/
theorem fromPyqubo_fits (now : ℚ) (vs : List (String × VArray))
    (hAB : ∀ m : LModel, m.vars = vs → ∀ l ∈ m.allLabels, A l ∧ B l) :
    Py.Preserves (fun p : LModel × PModel => Fits A B p.1.rows ∧ p.1.vars = vs) (fromPyqubo now) := by
  let I : LModel → Prop := fun m => Fits A B m.rows ∧ m.vars = vs
  have hadd : ∀ {t : PyTarget} {c : PyCoef}, (∀ i, t.Denotes i → ∀ l, i.mentions l → A l ∧ B l) →
      Py.Preserves (fun p : LModel × PModel => I p.1) (onFst (addInteraction now t (.str "") c (.num 1) .none .none)) := by
    intro t c ht p hp
    rw [onFst_run]
    have h1 := add_fits (now := now) (name := .str "") (c := c) (s := .num 1) (a := .none) (ts := .none) ht p.1 hp.1
    have h2 := add_frame (I := fun m => m.vars = vs) (fun _ _ _ _ _ h => h) now t (.str "") c (.num 1) .none .none p.1 hp.2
    cases h : (addInteraction now t (.str "") c (.num 1) .none .none).run p.1 with
    | ok a t => rw [h] at h1 h2; exact ⟨h1, h2⟩
    | error e t => rw [h] at h1 h2; exact ⟨h1, h2⟩
  have hstep : ∀ kv, Py.Preserves (fun p : LModel × PModel => I p.1) (fromPyquboStep now kv) := by
    intro kv
    unfold fromPyquboStep
    refine .bind_get fun s hs => ?_
    py_simp
    rw [Py.run_liftE]
    cases h0 : lookupVar s.1 s.2.struct kv.1.1 with
    | error e => exact hs
    | ok t0 =>
      simp only
      rw [Py.run_liftE]
      cases h1 : lookupVar s.1 s.2.struct kv.1.2 with
      | error e => exact hs
      | ok t1 =>
        simp only
        have l0 := hAB s.1 hs.2 _ (lookupVar_mem h0)
        have l1 := hAB s.1 hs.2 _ (lookupVar_mem h1)
        have htail : Py.Preserves (fun p : LModel × PModel => I p.1)
            (if kv.1.1 = kv.1.2 then
              onFst (addInteraction now (.var t0) (.str "") (negCoef kv.2).toPy (.num 1) .none .none)
            else
              onFst (addInteraction now (.tuple [some t0, some t1]) (.str "") (negCoef kv.2).toPy (.num 1)
                .none .none)) := .ite (hadd (var_fits l0)) (hadd (pair_fits l0 l1))
        by_cases hk : kv.1.1 = kv.1.2
        · cases kv.2.isNum with
          | true =>
            simp only [hk, if_true] at htail ⊢
            exact htail s hs
          | false =>
            simp only [hk, if_true] at htail ⊢
            exact htail (s.1, _) hs
        · cases kv.2.isNum with
          | true =>
            simp only [hk, if_false] at htail ⊢
            exact htail s hs
          | false =>
            simp only [hk, if_false] at htail ⊢
            exact htail (s.1, _) hs
  unfold fromPyqubo
  refine .bind_get fun s hs => ?_
  have htail : Py.Preserves (fun p : LModel × PModel => I p.1)
      (modify fun s : LModel × PModel => ({ s.1 with offset := s.2.offset }, s.2)) := .modify' fun s h => h
  exact Py.Preserves.bind (I := fun p : LModel × PModel => I p.1) (.forM fun kv _ => hstep kv) (fun _ => htail) s hs

theorem mergedRows_fits {a b : LModel} (ha : Fits A B a.rows) (hb : Fits A B b.rows) : Fits A B (mergedRows a b) := by
  intro r hr
  unfold mergedRows at hr
  obtain ⟨p, hp, rfl⟩ := List.mem_map.mp hr
  have hmem : p.1 ∈ a.rows ++ b.rows := by
    obtain ⟨x, i⟩ := p
    exact List.fst_mem_of_mem_zipIdx hp
  have : ∀ l, p.1.inter.mentions l → A l ∧ (p.1.removed = false → B l) := by
    rcases List.mem_append.mp hmem with h | h
    · exact ha _ h
    · exact hb _ h
  split
  · exact this
  · exact this

theorem convertMtype_fits (env : Env) (clk : Nat → ℚ) : Py.Preserves (onRows (Fits A B)) (convertMtype env clk) := by
  unfold convertMtype
  refine .bind .get' fun s => ?_
  cases s.mtype
  · exact toQubo_fits env clk
  · exact toIsing_fits env clk

/-- A merge puts the interactions of both together, or raises before. -/
theorem merge_fits (env : Env) (clk : Nat → ℚ) (a b : LModel) (ha : Fits A B a.rows) (hb : Fits A B b.rows) :
    Fits A B ((merge env clk).run (a, b)).state.1.rows := by
  have hsame : ∀ b : LModel, Fits A B b.rows → Fits A B (mergeSame.run (a, b)).state.1.rows := by
    intro b hb
    rw [mergeSame_run]
    split
    · exact ha
    · have hv := mergeVars_rel b.vars a
      cases h : (b.vars.forM mergeVar).run a with
      | error e a₁ => rw [h] at hv; obtain ⟨vs, he⟩ := hv; simp only [Res.state] at he ⊢; rw [he]; exact ha
      | ok u a₁ =>
        rw [h] at hv
        obtain ⟨vs, he⟩ := hv
        simp only [Res.state] at he
        have ha₁ : Fits A B a₁.rows := by rw [he]; exact ha
        simp only
        cases hc : (mergedAttrs a₁ b).mapM (mergedCol a₁ b) with
        | error e => exact ha₁
        | ok cols =>
          simp only
          split
          · exact mergedRows_fits ha₁ hb
          · exact mergedRows_fits ha₁ hb
  rw [merge_run]
  split
  · exact hsame b hb
  · have hc := convertMtype_fits env clk b hb
    cases h : (convertMtype env clk).run b with
    | error e b₁ => exact ha
    | ok u b₁ => rw [h] at hc; exact hsame b₁ hc

theorem Fits.sublist {l l' : List Row} (h : Fits A B l) (hs : List.Sublist l' l) : Fits A B l' :=
  fun r hr => h r (hs.subset hr)

end

end Sawatabi
