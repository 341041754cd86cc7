import Verif.Lemmas.Usable
import Verif.Lemmas.MergeFrame
import Verif.Lemmas.Congruence
import Verif.Props.Registry
import Verif.Props.MergeExact
import Verif.Props.DeleteExact
import Verif.Props.DeleteLeft
import Verif.Props.PhysicalTerms

/-!
# C25 for models made by calls: every variable of the physical model has an index
-/

namespace Sawatabi.Props

variable {env : Env} {clks : Nat → Nat → ℚ} {ids : Nat → String} {ph : List (String × ℚ)} {m m' : LModel} {p : Physical}

/-- A label of a variable that the model has and that was not deleted. -/
def Usable (m : LModel) (l : String) : Prop := l ∈ m.allLabels ∧ l ∉ m.deleted

/-- Calls that mention only variables which the model has and which were not deleted: a name is registered once, arrays only
grow, interactions and constraints are about usable variables, a variable is deleted if that succeeds, variables are fixed and
PyQUBO models imported before anything is deleted, no usable variable of one merged model is deleted in the other. -/
def OverUsable (env : Env) (m : LModel) : Op → Prop
  | .variables n _ => dget m.vars n = none
  | .variablesArray _ => False
  | .append n sh => (∀ d ∈ sh, 0 ≤ d) ∧ ∀ a, dget m.vars n = some a → a.shape.length ≤ sh.length
  | .add _ t _ _ _ _ _ => ∀ i, t.Denotes i → ∀ l, i.mentions l → Usable m l
  | .update _ t _ _ _ _ _ => ∀ i, t.Denotes i → ∀ l, i.mentions l → Usable m l
  | .delete v => m.names.Nodup ∧ (dkeys m.constraints).Nodup ∧
      (∀ c ∈ m.constraints, ∀ vs ∈ c.2.sets, ∀ w ∈ vs, w.label = v.label → w = v) ∧
      ∃ m', (deleteVariable v).run m = .ok ⟨⟩ m'
  | .fix _ _ _ => m.deleted = []
  | .addConstraint c => ∀ vs ∈ c.sets, ∀ v ∈ vs, Usable m v.label
  | .fromPyqubo _ _ => m.deleted = []
  | .merge clk o => m.Rect ∧ o.Rect ∧ (∃ t, (merge env clk).run (m, o) = .ok ⟨⟩ t) ∧
      (∀ l ∈ m.deleted, ¬ Usable o l) ∧ ∀ l ∈ o.deleted, ¬ Usable m l
  | .toPhysical clks ids ph => m.constraints = [] ∨ ∃ p m', (toPhysical env clks ids ph).run m = .ok p m'
  | _ => True

/-- All interactions are about variables of the model, and the active ones and the constraints about usable variables. -/
structure WithinUsable (m : LModel) : Prop where
  vars : VarsOk m
  rows : Fits (· ∈ m.allLabels) (· ∉ m.deleted) m.rows
  cons : ∀ c ∈ m.constraints, ∀ vs ∈ c.2.sets, ∀ v ∈ vs, Usable m v.label

/-- Only the rows have changed, and they still fit. -/
theorem WithinUsable.same (h : WithinUsable m) (hv : VarsOk m') (hl : ∀ l ∈ m.allLabels, l ∈ m'.allLabels)
    (hd : m'.deleted = m.deleted) (hc : ∀ c ∈ m'.constraints, c ∈ m.constraints)
    (hr : Fits (· ∈ m.allLabels) (· ∉ m.deleted) m'.rows) : WithinUsable m' where
  vars := hv
  rows := hr.mono hl fun l _ h => by rw [hd]; exact h
  cons c hc' vs hvs v hv' := by
    obtain ⟨h1, h2⟩ := h.cons c (hc c hc') vs hvs v hv'
    exact ⟨hl _ h1, by rw [hd]; exact h2⟩

theorem allLabels_congr (h : m'.vars = m.vars) : m'.allLabels = m.allLabels := by
  unfold LModel.allLabels
  rw [h]

/-- Calls that leave the arrays alone. -/
theorem step_vars (env : Env) {op : Op} (h1 : ∀ n sh, op ≠ .variables n sh) (h2 : ∀ a, op ≠ .variablesArray a)
    (h3 : ∀ n sh, op ≠ .append n sh) (h4 : ∀ clk, op ≠ .toIsing clk) (h5 : ∀ clk, op ≠ .toQubo clk)
    (h6 : ∀ clk o, op ≠ .merge clk o) (m : LModel) : (op.step env m).vars = m.vars := by
  let I : LModel → Prop := fun s => s.vars = m.vars
  have hT : TableFree I := fun _ _ _ _ _ h => h
  have hO : OffsetFree I := fun _ _ h => h
  have h0 : I m := rfl
  show I (op.step env m)
  unfold Op.step
  cases op with
  | «variables» n sh => exact absurd rfl (h1 n sh)
  | variablesArray a => exact absurd rfl (h2 a)
  | append n sh => exact absurd rfl (h3 n sh)
  | add now t n c s a ts => exact add_frame hT _ _ _ _ _ _ _ m h0
  | update now t n c s a ts => exact update_frame hT _ _ _ _ _ _ _ _ m h0
  | remove t n => exact remove_frame hT _ _ m h0
  | select v => exact Py.Preserves.bind (I := I) (selectByVariable_inv v) (fun _ => .pure' _) m h0
  | delete v => exact delete_frame hT (fun _ _ h => h) v (fun _ h => h) m h0
  | fix clk v q => exact fix_frame hT hO clk v q (fun _ h => h) m h0
  | addConstraint c => rfl
  | removeConstraint l =>
    simp only [Op.call, removeConstraint]
    py_simp
    split <;> exact h0
  | setOffset c => rfl
  | fromPyqubo now pm => exact withSnd_inv pm (fromPyqubo_inv (I := I) (add_frame hT) hO now) m h0
  | toIsing clk => exact absurd rfl (h4 clk)
  | toQubo clk => exact absurd rfl (h5 clk)
  | merge clk o => exact absurd rfl (h6 clk o)
  | toPhysical a b c =>
    exact Py.Preserves.bind (I := I) (toPhysical_frame hT hO env a b c) (fun _ => .pure' _) m h0

/-- A conversion of the type keeps the labels. -/
theorem genConv_labels (hv : VarsOk m) (env : Env) (mt : MType) (f o f₂ g₂ o₂ : Coef → Coef) (clk : Nat → ℚ) :
    ∀ l ∈ m.allLabels, l ∈ ((genConv env mt f o f₂ g₂ o₂ clk).run m).state.allLabels := by
  obtain ⟨t, ht, hok, hmt, hk, hget⟩ := retype_varsOk hv mt
  refine genConv_frame (I := fun s => ∀ l ∈ m.allLabels, l ∈ s.allLabels) (fun _ _ _ _ _ h => h) (fun _ _ h => h)
    _ _ _ _ _ _ _ _ m ?_
  rw [ht]
  intro l hl
  rw [mem_allLabels hv] at hl
  obtain ⟨n, a, idx, ha, hi, rfl⟩ := hl
  exact (mem_allLabels hok).mpr ⟨n, _, idx, hget n a ha, hi, rfl⟩

/-- After a successful deletion, no constraint contains the variable. -/
theorem delete_constraints {v : PVar} (hc : (dkeys m.constraints).Nodup) (h : (deleteVariable v).run m = .ok ⟨⟩ m') :
    (∀ p ∈ m.constraints, Constraint.Holds v p.2) ∧ m'.constraints = m.constraints.map fun p => (p.1, without v p.2) := by
  unfold deleteVariable at h
  py_simp at h
  rcases constraintLoop (v := v) [] m.constraints { m with deleted := sadd m.deleted v.label } rfl hc with
    ⟨h1, h2⟩ | ⟨done, l, bad, tail, _, _, _, h2⟩
  · refine ⟨h1, ?_⟩
    rw [h2] at h
    simp only at h
    have hfr : Py.Preserves (fun s : LModel => s.constraints = m.constraints.map fun p => (p.1, without v p.2))
        (do let names ← selectByVariable v; names.forM fun n => removeInteraction .none (.str n)) :=
      .bind (selectByVariable_inv _) fun names => .forM fun n _ => remove_frame (fun _ _ _ _ _ h => h) _ _
    have := hfr { m with deleted := sadd m.deleted v.label
                         constraints := [] ++ m.constraints.map fun p => (p.1, without v p.2) } rfl
    rw [Py.run_bind] at this
    rw [h] at this
    exact this
  · rw [h2] at h
    cases h

theorem without_sets {v : PVar} {c : Sawatabi.Constraint} (h : Constraint.Holds v c) :
    ∀ vs ∈ (without v c).sets, ∀ w ∈ vs, w ≠ v ∧ ∃ us ∈ c.sets, w ∈ us := by
  cases h with
  | nHot l s us n _ =>
    intro vs hvs w hw
    simp only [without, Constraint.sets, List.mem_singleton] at hvs ⊢
    subst hvs
    simp only [List.mem_filter, decide_eq_true_eq] at hw
    exact ⟨hw.2, us, rfl, hw.1⟩
  | zeroOrOneHot l s us _ =>
    intro vs hvs w hw
    simp only [without, Constraint.sets, List.mem_singleton] at hvs ⊢
    subst hvs
    simp only [List.mem_filter, decide_eq_true_eq] at hw
    exact ⟨hw.2, us, rfl, hw.1⟩

theorem delete_within {v : PVar} (hm : WithinUsable m) (hu : m.names.Nodup) (hc : (dkeys m.constraints).Nodup)
    (hw : ∀ c ∈ m.constraints, ∀ vs ∈ c.2.sets, ∀ w ∈ vs, w.label = v.label → w = v)
    (hv : VarsOk m') (h : (deleteVariable v).run m = .ok ⟨⟩ m') : WithinUsable m' := by
  obtain ⟨hh, hcs⟩ := delete_constraints hc h
  obtain ⟨cs, he, hlen, hrows⟩ := C11_delete_exact h
  have hd : m'.deleted = sadd m.deleted v.label := by rw [he]
  have hl : m'.allLabels = m.allLabels := allLabels_congr (by rw [he])
  refine ⟨hv, ?_, ?_⟩
  · intro r' hr' l hl'
    obtain ⟨i, hi, hri⟩ := List.getElem_of_mem hr'
    have hi' : i < m.rows.length := hlen ▸ hi
    have hr : m.rows[i]? = some m.rows[i] := List.getElem?_eq_getElem hi'
    have hr2 : m'.rows[i]? = some r' := by rw [List.getElem?_eq_getElem hi, hri]
    obtain ⟨h1, h2⟩ := hrows i _ r' hr hr2
    have hmem : m.rows[i] ∈ m.rows := List.getElem_mem hi'
    have hfirst : ∀ (j : Nat) (q : Row), m.rows[j]? = some q → q.name = m.rows[i].name → i ≤ j := by
      intro j q hq hn
      obtain ⟨hj, hq⟩ := List.getElem?_eq_some_iff.mp hq
      have := (List.nodup_iff_injective_getElem.mp hu) (a₁ := ⟨j, by simpa [LModel.names] using hj⟩)
        (a₂ := ⟨i, by simpa [LModel.names] using hi'⟩) (by simp [LModel.names, hq, hn])
      simp only [Fin.mk.injEq] at this
      exact this.ge
    by_cases ht : ∃ q ∈ m.rows, (q.inter.key0 = v.label ∨ q.inter.key1 = some v.label) ∧ q.name = m.rows[i].name
    · have := h1 ⟨ht, hfirst⟩
      subst this
      refine ⟨?_, fun hf => by cases hf⟩
      show l ∈ m'.allLabels
      rw [hl]
      exact (hm.rows _ hmem l hl').1
    · have := h2 (fun hh => ht hh.1)
      subst this
      obtain ⟨ha, hb⟩ := hm.rows _ hmem l hl'
      refine ⟨by show l ∈ m'.allLabels; rw [hl]; exact ha, fun hf => ?_⟩
      show l ∉ m'.deleted
      rw [hd, mem_sadd]
      rintro (rfl | hdel)
      · exact ht ⟨_, hmem, mentions_keys.mp hl', rfl⟩
      · exact hb hf hdel
  · intro c hc' vs hvs w hw'
    rw [hcs] at hc'
    obtain ⟨c₀, hc₀, rfl⟩ := List.mem_map.mp hc'
    obtain ⟨hne, us, hus, hwus⟩ := without_sets (hh c₀ hc₀) vs hvs w hw'
    obtain ⟨ha, hb⟩ := hm.cons c₀ hc₀ us hus w hwus
    refine ⟨hl ▸ ha, ?_⟩
    rw [hd, mem_sadd]
    rintro (heq | hdel)
    · exact hne (hw c₀ hc₀ us hus w hwus heq)
    · exact hb hdel

theorem mem_dupdate {κ ν : Type} [DecidableEq κ] {d e : List (κ × ν)} {x : κ × ν} (h : x ∈ dupdate d e) : x ∈ d ∨ x ∈ e := by
  unfold dupdate at h
  induction e generalizing d with
  | nil => exact .inl h
  | cons q e ih =>
    rw [List.foldl_cons] at h
    rcases ih h with h | h
    · rcases mem_dset h with h | h
      · exact .inr (by rw [h]; exact List.mem_cons_self)
      · exact .inl h
    · exact .inr (List.mem_cons_of_mem _ h)

theorem merge_within {o : LModel} {clk : Nat → ℚ} (hm : WithinUsable m) (ho : WithinUsable o) (hrm : m.Rect) (hro : o.Rect)
    (hd1 : ∀ l ∈ m.deleted, ¬ Usable o l) (hd2 : ∀ l ∈ o.deleted, ¬ Usable m l) {o' : LModel}
    (h : (merge env clk).run (m, o) = .ok ⟨⟩ (m', o')) : WithinUsable m' := by
  have hlab := fun l hl => C39_merge_labels hm.vars ho.vars hrm hro h l hl
  have hv := merge_varsOk env clk hm.vars ho.vars
  rw [h] at hv
  have hcon := merge_argument_constraints h
  have hdel : o'.deleted = o.deleted := by
    by_cases ht : m.mtype = o.mtype
    · have := mergeSame_snd m o
      rw [merge_run, if_pos ht] at h
      rw [h] at this
      rw [← show o' = o from this]
    · have hc := merge_converted ht h
      have := convertMtype_run env clk o
      have hf : ((convertMtype env clk).run o).state.deleted = o.deleted := by
        rw [this]
        cases o.mtype with
        | qubo => exact congrArg (·.2.1) (step_registries env (op := .toIsing clk) id o)
        | ising => exact congrArg (·.2.1) (step_registries env (op := .toQubo clk) id o)
      rw [hc] at hf
      exact hf
  have hsame := merge_same h
  obtain ⟨w, cols, _, _, hs⟩ := mergeSame_eq hsame
  have hmd : m'.deleted = o'.deleted.foldl sadd m.deleted := by cases hs; rfl
  have hmc : m'.constraints = dupdate m.constraints o'.constraints := by cases hs; rfl
  have husm : ∀ l, Usable m l → Usable m' l := by
    rintro l ⟨h1, h2⟩
    refine ⟨hlab l (.inl h1), ?_⟩
    rw [hmd, mem_foldl_sadd, hdel]
    rintro (h3 | h3)
    · exact h2 h3
    · exact hd2 l h3 ⟨h1, h2⟩
  have huso : ∀ l, Usable o l → Usable m' l := by
    rintro l ⟨h1, h2⟩
    refine ⟨hlab l (.inr h1), ?_⟩
    rw [hmd, mem_foldl_sadd, hdel]
    rintro (h3 | h3)
    · exact hd1 l h3 ⟨h1, h2⟩
    · exact h2 h3
  refine ⟨hv, ?_, ?_⟩
  · have := merge_fits (A := (· ∈ m'.allLabels)) (B := (· ∉ m'.deleted)) env clk m o
      (hm.rows.mono (fun l hl => hlab l (.inl hl)) fun l h1 h2 => (husm l ⟨h1, h2⟩).2)
      (ho.rows.mono (fun l hl => hlab l (.inr hl)) fun l h1 h2 => (huso l ⟨h1, h2⟩).2)
    rw [h] at this
    exact this
  · intro c hc vs hvs v hv'
    rw [hmc, hcon] at hc
    rcases mem_dupdate hc with hc | hc
    · exact husm _ (hm.cons c hc vs hvs v hv')
    · exact huso _ (ho.cons c hc vs hvs v hv')

theorem append_labels {n : String} {sh : List Int} (hv : VarsOk m) (hd : ∀ d ∈ sh, 0 ≤ d)
    (hr : ∀ a, dget m.vars n = some a → a.shape.length ≤ sh.length) :
    ∀ l ∈ m.allLabels, l ∈ ((appendVars n sh).run m).state.allLabels := by
  intro l hl
  cases h : (appendVars n sh).run m with
  | error e t =>
    rw [appendVars_run] at h
    have : t = m := by
      split at h
      · cases h; rfl
      · cases hg : dget m.vars n with
        | none =>
          rw [hg] at h
          simp only [createVars_run] at h
          split at h
          · cases h; rfl
          · cases ha : arrayCreate n sh m.mtype.vtype with
            | error e => rw [ha] at h; cases h; rfl
            | ok a => rw [ha] at h; cases h
        | some old =>
          rw [hg] at h
          simp only at h
          cases ha : arrayCreate n (elementwiseAdd (old.shape.map Int.ofNat) sh) m.mtype.vtype with
          | error e => rw [ha] at h; cases h; rfl
          | ok a => rw [ha] at h; cases h
    subst this
    exact hl
  | ok a t =>
    have hok := appendVars_ok n sh m hv
    rw [h] at hok
    simp only [Res.state] at hok ⊢
    rw [mem_allLabels_dget hv.keys] at hl
    rw [mem_allLabels_dget hok.keys]
    obtain ⟨k, x, hx, hlx⟩ := hl
    cases hg : dget m.vars n with
    | none =>
      rw [C17_append_unknown hg, createVars_run] at h
      split at h
      · cases h
      · cases ha : arrayCreate n sh m.mtype.vtype with
        | error e => rw [ha] at h; cases h
        | ok a =>
          rw [ha] at h
          cases h
          refine ⟨k, x, ?_, hlx⟩
          have hkn : k ≠ n := by rintro rfl; rw [hg] at hx; cases hx
          simp only [dget_dset_ne _ _ hkn]
          exact hx
    | some old =>
      obtain ⟨_, _, _, hnew, hother, _⟩ := C17_append_exact hg h
      by_cases hkn : k = n
      · subst hkn
        rw [hg] at hx
        cases hx
        refine ⟨k, a, hnew, ?_⟩
        obtain ⟨v, hv', rfl⟩ := List.mem_map.mp hlx
        exact List.mem_map.mpr ⟨v, (C17_append_rank hv hg h).2 (hr _ hg) hd v hv', rfl⟩
      · exact ⟨k, x, by rw [hother k hkn]; exact hx, hlx⟩

theorem create_labels {n : String} {sh : List Int} (hv : VarsOk m) (hn : dget m.vars n = none) :
    ∀ l ∈ m.allLabels, l ∈ ((createVars n sh).run m).state.allLabels := by
  intro l hl
  rw [createVars_run]
  split
  · exact hl
  · cases ha : arrayCreate n sh m.mtype.vtype with
    | error e => exact hl
    | ok a =>
      have hok : VarsOk { m with vars := dset m.vars n a } := hv.set (arrayCreate_arrayOk ha) rfl
      simp only [Res.state]
      rw [mem_allLabels_dget hv.keys] at hl
      rw [mem_allLabels_dget hok.keys]
      obtain ⟨k, x, hx, hlx⟩ := hl
      refine ⟨k, x, ?_, hlx⟩
      have hkn : k ≠ n := by rintro rfl; rw [hn] at hx; cases hx
      simp only [dget_dset_ne _ _ hkn]
      exact hx

theorem varsRel_keeps {s t : LModel} (h : VarsRel s t) : t.rows = s.rows ∧ t.deleted = s.deleted ∧ t.constraints = s.constraints := by
  obtain ⟨vs, rfl⟩ := h
  exact ⟨rfl, rfl, rfl⟩

/-- `to_physical` on a model without constraints, or with success. -/
theorem toPhysical_fits {A B : String → Prop} (hm : Fits A B m.rows)
    (h : m.constraints = [] ∨ ∃ p m', (toPhysical env clks ids ph).run m = .ok p m') :
    Fits A B ((toPhysical env clks ids ph).run m).state.rows := by
  have hfinal : ∀ (ns : List String) (m₂ : LModel), (ns.forM popRow).run m = .ok ⟨⟩ m₂ → Fits A B (markClean m₂).rows := by
    intro ns m₂ h₂
    have hs := popRows_sublist ns m
    rw [h₂] at hs
    have h3 : Fits A B m₂.rows := hm.sublist hs
    intro r hr
    simp only [markClean, List.mem_append, List.mem_map] at hr
    rcases hr with ⟨r', hr', rfl⟩ | hr
    · exact h3 r' (List.mem_of_mem_take hr')
    · exact h3 r (List.mem_of_mem_drop hr)
  rcases h with hc | ⟨p, m', h⟩
  · rw [toPhysical_run, hc]
    simp only [List.zipIdx_nil, Py.run_forM_nil]
    cases group ph m with
    | error e => exact hm
    | ok g =>
      simp only
      cases m.offset.resolve ph with
      | error e => exact hm
      | ok off =>
        simp only
        have hs := popRows_sublist g.willRemove (restored m m)
        cases hp : (g.willRemove.forM popRow).run (restored m m) with
        | error e m₂ => rw [hp] at hs; exact hm.sublist hs
        | ok u m₂ => exact hfinal g.willRemove m₂ hp
  · rw [h]
    obtain ⟨bs, m₁, g, off, m₂, h⟩ := toPhysical_ok h
    simp only [Res.state]
    rw [h.final]
    exact hfinal _ _ h.removal

/-- One call. -/
theorem step_within {op : Op} (hp : OverUsable env m op) (hm : WithinUsable m)
    (ho : ∀ clk o, op = .merge clk o → WithinUsable o) : WithinUsable (op.step env m) := by
  have hv : VarsOk (op.step env m) := by
    refine step_varsOk env op m hm.vars ?_ fun clk o e => (ho clk o e).vars
    rintro a rfl
    exact hp
  have hmap : ∀ {α : Type} {x : Py LModel α}, ((do let _ ← x : Py LModel Unit).run m).state = (x.run m).state := by
    intro α x
    rw [Py.run_bind]
    cases x.run m <;> rfl
  have plain : ¬ op.Registers → (∀ n sh, op ≠ .variables n sh) → (∀ a, op ≠ .variablesArray a) → (∀ n sh, op ≠ .append n sh) →
      (∀ clk, op ≠ .toIsing clk) → (∀ clk, op ≠ .toQubo clk) → (∀ clk o, op ≠ .merge clk o) →
      Fits (· ∈ m.allLabels) (· ∉ m.deleted) (op.step env m).rows → WithinUsable (op.step env m) := by
    intro h0 h1 h2 h3 h4 h5 h6 hr
    have hreg := step_registries env h0 m
    have hlab := allLabels_congr (step_vars env h1 h2 h3 h4 h5 h6 m)
    exact hm.same hv (fun l hl => by rw [hlab]; exact hl) (congrArg (·.2.1) hreg)
      (fun c hc => by rw [← show (op.step env m).constraints = m.constraints from congrArg (·.1) hreg]; exact hc) hr
  have conv : ∀ mt f o f₂ g₂ o₂ clk, ¬ op.Registers → op.step env m = ((genConv env mt f o f₂ g₂ o₂ clk).run m).state →
      WithinUsable (op.step env m) := by
    intro mt f o f₂ g₂ o₂ clk h0 he
    have hreg := step_registries env h0 m
    refine hm.same hv ?_ (congrArg (·.2.1) hreg)
      (fun c hc => by rw [← show (op.step env m).constraints = m.constraints from congrArg (·.1) hreg]; exact hc) ?_
    · rw [he]; exact genConv_labels hm.vars _ _ _ _ _ _ _ _
    · rw [he]; exact genConv_fits _ _ _ _ _ _ _ _ m hm.rows
  have arrays : ∀ {α : Type} {x : Py LModel α}, op.step env m = (x.run m).state → VarsRel m (x.run m).state →
      (∀ l ∈ m.allLabels, l ∈ (x.run m).state.allLabels) → WithinUsable (op.step env m) := by
    intro α x he hr hl
    obtain ⟨h1, h2, h3⟩ := varsRel_keeps hr
    refine hm.same hv (by rw [he]; exact hl) (by rw [he]; exact h2) (fun c hc => by rw [he, h3] at hc; exact hc) ?_
    rw [he, h1]
    exact hm.rows
  cases op with
  | «variables» n sh => exact arrays hmap (createVars_rel n sh m) (create_labels hm.vars hp)
  | variablesArray a => exact hp.elim
  | append n sh => exact arrays hmap (appendVars_rel n sh m) (append_labels hm.vars hp.1 hp.2)
  | add now t n c s a ts =>
    exact plain id (by simp) (by simp) (by simp) (by simp) (by simp) (by simp) (add_fits hp m hm.rows)
  | update now t n c s a ts =>
    exact plain id (by simp) (by simp) (by simp) (by simp) (by simp) (by simp) (update_fits hp m hm.rows)
  | remove t n =>
    exact plain id (by simp) (by simp) (by simp) (by simp) (by simp) (by simp) (remove_fits t n m hm.rows)
  | select v =>
    refine plain id (by simp) (by simp) (by simp) (by simp) (by simp) (by simp) ?_
    exact Py.Preserves.bind (I := onRows (Fits (· ∈ m.allLabels) (· ∉ m.deleted))) (selectByVariable_inv v) (fun _ => .pure' _)
      m hm.rows
  | delete v =>
    obtain ⟨hu, hc, hw, m', h⟩ := hp
    have he : Op.step env m (.delete v) = m' := by
      unfold Op.step Op.call
      rw [h]
      rfl
    rw [he] at hv ⊢
    exact delete_within hm hu hc hw hv h
  | fix clk v q =>
    obtain ⟨h1, h2⟩ := step_fix_constraints env clk v q m
    have hlab := allLabels_congr (step_vars env (op := .fix clk v q) (by simp) (by simp) (by simp) (by simp) (by simp) (by simp) m)
    refine hm.same hv (fun l hl => by rw [hlab]; exact hl) h2 (fun c hc => by rw [h1] at hc; exact hc) ?_
    exact fix_fits (fun l _ => by rw [show m.deleted = [] from hp]; exact List.not_mem_nil) clk v q m hm.rows
  | addConstraint c =>
    refine ⟨hv, hm.rows, ?_⟩
    intro c' hc' vs hvs v hv'
    rcases mem_dset hc' with rfl | hc'
    · exact hp vs hvs v hv'
    · exact hm.cons c' hc' vs hvs v hv'
  | removeConstraint l =>
    have hc : ∀ c ∈ (Op.step env m (.removeConstraint l)).constraints, c ∈ m.constraints := by
      unfold Op.step Op.call removeConstraint
      py_simp
      split
      · exact fun c hc => hc
      · intro c hc
        exact mem_of_dpop hc
    have hlab := allLabels_congr (step_vars env (op := .removeConstraint l) (by simp) (by simp) (by simp) (by simp) (by simp) (by simp) m)
    refine hm.same hv (fun l hl => by rw [hlab]; exact hl) ?_ hc ?_
    · unfold Op.step Op.call removeConstraint
      py_simp
      split <;> rfl
    · unfold Op.step Op.call removeConstraint
      py_simp
      split <;> exact hm.rows
  | setOffset c =>
    exact plain id (by simp) (by simp) (by simp) (by simp) (by simp) (by simp) hm.rows
  | fromPyqubo now pm =>
    refine plain id (by simp) (by simp) (by simp) (by simp) (by simp) (by simp) ?_
    refine (withSnd_inv (I := fun s : LModel => Fits (· ∈ m.allLabels) (· ∉ m.deleted) s.rows ∧ s.vars = m.vars) pm
      (fromPyqubo_fits now m.vars fun s hs l hl => ⟨?_, ?_⟩) m ⟨hm.rows, rfl⟩).1
    · rw [← allLabels_congr hs]; exact hl
    · rw [show m.deleted = [] from hp]; exact List.not_mem_nil
  | toIsing clk =>
    by_cases ht : m.mtype = .ising
    · have : Op.step env m (.toIsing clk) = m := by
        unfold Op.step Op.call
        rw [toIsing_run, if_pos ht]
        rfl
      rw [this]
      exact hm
    · exact conv _ _ _ _ _ _ _ id (by unfold Op.step Op.call; rw [toIsing_run, if_neg ht])
  | toQubo clk =>
    by_cases ht : m.mtype = .qubo
    · have : Op.step env m (.toQubo clk) = m := by
        unfold Op.step Op.call
        rw [toQubo_run, if_pos ht]
        rfl
      rw [this]
      exact hm
    · exact conv _ _ _ _ _ _ _ id (by unfold Op.step Op.call; rw [toQubo_run, if_neg ht])
  | merge clk o =>
    obtain ⟨h1, h2, ⟨⟨t, o'⟩, h⟩, h3, h4⟩ := hp
    have he : Op.step env m (.merge clk o) = t := by
      unfold Op.step Op.call withSnd
      simp only [h]
      rfl
    rw [he]
    exact merge_within hm (ho clk o rfl) h1 h2 h3 h4 h
  | toPhysical a b c =>
    refine plain id (by simp) (by simp) (by simp) (by simp) (by simp) (by simp) ?_
    show Fits _ _ ((do let _ ← toPhysical env a b c : Py LModel Unit).run m).state.rows
    rw [hmap]
    exact toPhysical_fits hm.rows hp

/-- Models made by such calls have interactions and constraints about usable variables only. -/
theorem made_within (h : Made env (OverUsable env) m) : WithinUsable m := by
  induction h with
  | new mt id => exact ⟨new_varsOk mt id, (fun r hr => by cases hr), (fun c hc => by cases hc)⟩
  | step m op _ hp _ ih iho => exact step_within hp ih iho

/-- A model made by calls over its own usable variables: whatever `to_physical` returns for it can be written as a polynomial,
since every variable of the physical model has an index. -/
theorem C25_made_partial (hm : Made env (OverUsable env) m) {env' : Env} (h : (toPhysical env' clks ids ph).run m = .ok p m') :
    (∀ l ∈ p.varsSet, ∃ i, dget p.labelToIndex l = some i) ∧ ∃ t, p.toPolynomial = .ok t := by
  have hw := made_within hm
  obtain ⟨t, ht⟩ := C25_polynomial_constraints_partial (fun r hr hrem l hl => ⟨(hw.rows r hr l hl).1, (hw.rows r hr l hl).2 hrem⟩)
    hw.cons h
  refine ⟨fun l hl => ?_, t, ht⟩
  have := (C25_polynomial_iff h).mp ⟨t, ht⟩ l hl
  exact (C25_index_iff h l).mpr ⟨this.1, this.2, hl⟩

/-- Calls as in `C25_made_partial`: an interaction, a constraint and a deletion. -/
def Ex.usableAdd : Op :=
  .add 1 (.tuple [some ⟨.binary, "x[1]"⟩, some ⟨.binary, "x[0]"⟩]) (.str "") (.num 2) (.num 1) .none .none

def Ex.usableCon : Op := .addConstraint (.nHot "one" 3 [⟨.binary, "x[0]"⟩, ⟨.binary, "x[1]"⟩, ⟨.binary, "x[2]"⟩] 1)

def Ex.usableOps : List Op := [.variables "x" [3], Ex.usableAdd, Ex.usableCon, .delete ⟨.binary, "x[2]"⟩]

def Ex.usable (k : Nat) : LModel := (Ex.usableOps.take k).foldl (Op.step ⟨0, fun _ => "t"⟩) (LModel.new .qubo "1")

theorem Ex.usable_made : Made ⟨0, fun _ => "t"⟩ (OverUsable ⟨0, fun _ => "t"⟩) (Ex.usable 4) := by
  have h1 : Made ⟨0, fun _ => "t"⟩ (OverUsable ⟨0, fun _ => "t"⟩) (Ex.usable 1) :=
    .step _ (.variables "x" [3]) (.new .qubo "1") rfl (by simp)
  have h2 : Made ⟨0, fun _ => "t"⟩ (OverUsable ⟨0, fun _ => "t"⟩) (Ex.usable 2) := by
    refine .step _ Ex.usableAdd h1 ?_ (by simp [Ex.usableAdd])
    have hk : ∀ l ∈ ["x[0]", "x[1]"], l ∈ (Ex.usable 1).allLabels ∧ l ∉ (Ex.usable 1).deleted := by decide +kernel
    intro i hi l hl
    cases hi with
    | pair _ _ h => exact absurd h (by decide)
    | swapped _ _ h => rcases hl with rfl | rfl <;> exact hk _ (by decide)
  have h3 : Made ⟨0, fun _ => "t"⟩ (OverUsable ⟨0, fun _ => "t"⟩) (Ex.usable 3) := by
    refine .step _ Ex.usableCon h2 ?_ (by simp [Ex.usableCon])
    have hk : ∀ l ∈ ["x[0]", "x[1]", "x[2]"], l ∈ (Ex.usable 2).allLabels ∧ l ∉ (Ex.usable 2).deleted := by decide +kernel
    intro vs hvs v hv
    simp only [Constraint.sets, List.mem_singleton] at hvs
    subst hvs
    simp only [List.mem_cons, List.not_mem_nil, or_false] at hv
    rcases hv with rfl | rfl | rfl <;> exact hk _ (by decide)
  refine .step _ (.delete ⟨.binary, "x[2]"⟩) h3 ⟨by decide +kernel, by decide +kernel, ?_, ?_⟩ (by simp)
  · show ∀ c ∈ (Ex.usable 3).constraints, ∀ vs ∈ c.2.sets, ∀ w ∈ vs, w.label = "x[2]" → w = ⟨.binary, "x[2]"⟩
    decide +kernel
  · exact ⟨_, rfl⟩

example : (Ex.usable 4).deleted = ["x[2]"] ∧
    ∃ p m', (toPhysical ⟨0, fun _ => "t"⟩ (fun _ _ => 0) (fun _ => "2") []).run (Ex.usable 4) = .ok p m' ∧
      p.varsSet = ["x[0]", "x[1]"] :=
  ⟨by decide +kernel, _, _, rfl, by decide +kernel⟩

end Sawatabi.Props
