import Verif.Spec.Getters
import Verif.Props.Registry
import Verif.Props.EndToEnd

/-!
# C112: `select_interaction`, C113: the arrays that a model returns
-/

namespace Sawatabi.Props

open Sawatabi

variable {m m' : LModel} {q : List String → Except Err (FrameRow → Bool)} {fmt : SelectFormat} {s : Selection}

/-! ## C112 -/

theorem makeFrame_even (m : LModel) [Decidable m.Even] :
    makeFrame.run m = if m.Even then .ok ⟨⟩ m else .error .valueError m := by
  rw [makeFrame_run]
  by_cases h : m.Even
  · rw [if_pos h, if_neg]
    simp only [List.any_eq_true, not_exists, not_and]
    intro c hc
    simp [h c hc]
  · rw [if_neg h, if_pos]
    simp only [LModel.Even, not_forall] at h
    obtain ⟨c, hc, h⟩ := h
    exact List.any_eq_true.mpr ⟨c, hc, by simpa using h⟩

theorem dset_fold {α : Type} (l d : List (Nat × α)) (h : ((d ++ l).map (·.1)).Nodup) :
    l.foldl (fun d p => dset d p.1 p.2) d = d ++ l := by
  induction l generalizing d with
  | nil => simp
  | cons p l ih =>
    have hp : p.1 ∉ dkeys d := by
      intro hd
      rw [List.map_append, List.nodup_append] at h
      exact h.2.2 _ hd p.1 (by simp) rfl
    rw [List.foldl_cons, dset_of_not_mem _ hp, ih]
    · simp
    · simpa using h

theorem frame_keys (m : LModel) : m.frame.map (·.1) = List.range m.rows.length := by
  simp only [LModel.frame, List.map_map]
  rw [show ((·.1) ∘ fun p : Row × Nat => (p.2, (⟨p.1, m.attrCols.filterMap fun c => (c.2[p.2]?).map (c.1, ·)⟩ : FrameRow))) = (·.2) from rfl,
    List.zipIdx_map_snd, List.range_eq_range']

theorem line_attrs {cols : List (String × List PyVal)} {i : Nat} (h : ∀ c ∈ cols, i < c.2.length) (as : List (String × PyVal)) :
    List.Forall₂ (fun c e => e.1 = c.1 ∧ c.2[i]? = some e.2) cols as ↔ as = cols.filterMap fun c => (c.2[i]?).map (c.1, ·) := by
  induction cols generalizing as with
  | nil => simp
  | cons c cols ih =>
    have hc := h c (by simp)
    have e : c.2[i]? = some c.2[i] := List.getElem?_eq_getElem hc
    rw [List.filterMap_cons, e, List.forall₂_cons_left_iff]
    simp only [Option.map_some, ih fun c hc => h c (by simp [hc])]
    constructor
    · rintro ⟨b, u, ⟨h1, h2⟩, rfl, rfl⟩
      obtain ⟨b1, b2⟩ := b
      simp only at h1 h2
      obtain rfl := h1
      obtain rfl := Option.some.inj (h2.symm.trans e)
      rfl
    · rintro rfl
      exact ⟨_, _, ⟨rfl, e⟩, rfl, rfl⟩

theorem mem_frame (h : m.Even) (i : Nat) (fr : FrameRow) : (i, fr) ∈ m.frame ↔ m.Line i fr := by
  obtain ⟨r, as⟩ := fr
  simp only [LModel.frame, List.mem_map, Prod.exists, Prod.mk.injEq, List.mem_zipIdx_iff_getElem?, LModel.Line, FrameRow.mk.injEq]
  constructor
  · rintro ⟨r', j, h1, rfl, rfl, rfl⟩
    have hj := (List.getElem?_eq_some_iff.mp h1).1
    exact ⟨h1, (line_attrs (fun c hc => by rw [h c hc]; exact hj) _).mpr rfl⟩
  · rintro ⟨h1, h2⟩
    have hj := (List.getElem?_eq_some_iff.mp h1).1
    exact ⟨r, i, h1, rfl, rfl, ((line_attrs (fun c hc => by rw [h c hc]; exact hj) _).mp h2).symm⟩

/-- **C112**: what `select_interaction` does in every case. A table with columns of different lengths raises ValueError before the
query is read; an error of the query comes before the one of the format; the model stays as it is. -/
theorem C112_run (m : LModel) :
    (¬ m.Even → (selectInteraction q fmt).run m = .error .valueError m) ∧
    (m.Even → ∀ e, q (dkeys m.attrCols) = .error e → (selectInteraction q fmt).run m = .error e m) ∧
    (m.Even → ∀ c, q (dkeys m.attrCols) = .ok c → fmt = .other → (selectInteraction q fmt).run m = .error .valueError m) ∧
    (m.Even → ∀ c, q (dkeys m.attrCols) = .ok c → fmt ≠ .other → ∃ s, (selectInteraction q fmt).run m = .ok s m) := by
  classical
  unfold selectInteraction
  rw [Py.run_bind, makeFrame_even]
  refine ⟨fun h => ?_, fun h e he => ?_, fun h c hc hf => ?_, fun h c hc hf => ?_⟩
  · rw [if_neg h]
  · rw [if_pos h]
    simp only [Py.run_bind, Py.run_get, he, Py.run_liftE]
  · rw [if_pos h]
    subst hf
    simp only [Py.run_bind, Py.run_get, hc, Py.run_liftE]
    rfl
  · rw [if_pos h]
    simp only [Py.run_bind, Py.run_get, hc, Py.run_liftE]
    cases fmt with
    | series => exact ⟨_, rfl⟩
    | dict => exact ⟨_, rfl⟩
    | other => exact absurd rfl hf

theorem select_ok (h : (selectInteraction q fmt).run m = .ok s m') : m' = m ∧ m.Even ∧ ∃ c, q (dkeys m.attrCols) = .ok c ∧
    s.lines = m.frame.filter (fun p => c p.2) ∧ (fmt = .series ↔ ∃ l, s = .frame l) ∧ (fmt = .dict ↔ ∃ l, s = .dict l) := by
  classical
  by_cases he : m.Even
  · cases hq : q (dkeys m.attrCols) with
    | error e => rw [(C112_run m).2.1 he e hq] at h; cases h
    | ok c =>
      unfold selectInteraction at h
      rw [Py.run_bind, makeFrame_even, if_pos he] at h
      simp only [Py.run_bind, Py.run_get, hq, Py.run_liftE] at h
      cases fmt with
      | series =>
        cases h
        exact ⟨rfl, he, c, rfl, rfl, by simp, by simp⟩
      | dict =>
        cases h
        refine ⟨rfl, he, c, rfl, ?_, by simp, by simp⟩
        simp only [Selection.lines]
        rw [dset_fold, List.nil_append]
        rw [List.nil_append]
        refine (List.filter_sublist.map _).nodup ?_
        rw [frame_keys]
        exact List.nodup_range
      | other => cases h
  · rw [(C112_run m).1 he] at h
    cases h

/-- **C112**: the selection consists of exactly the lines of the table that meet the condition, removed interactions
included, in the order of the table and under their own places in it as index labels; both formats hold the same. -/
theorem C112_lines (h : (selectInteraction q fmt).run m = .ok s m') : m' = m ∧ ∃ c, q (dkeys m.attrCols) = .ok c ∧
    (s.lines.map (·.1)).Pairwise (· < ·) ∧ ∀ i fr, (i, fr) ∈ s.lines ↔ m.Line i fr ∧ c fr = true := by
  obtain ⟨rfl, he, c, hc, hl, _⟩ := select_ok h
  refine ⟨rfl, c, hc, ?_, fun i fr => ?_⟩
  · rw [hl]
    refine List.Pairwise.sublist (List.filter_sublist.map _) ?_
    rw [frame_keys]
    exact List.pairwise_lt_range
  · rw [hl, List.mem_filter, mem_frame he]

/-- **C112**: the format decides between a data frame and a dictionary, with the same lines. -/
theorem C112_formats {s₁ s₂ : Selection} {m₁ m₂ : LModel} (h₁ : (selectInteraction q .series).run m = .ok s₁ m₁)
    (h₂ : (selectInteraction q .dict).run m = .ok s₂ m₂) : ∃ l, s₁ = .frame l ∧ s₂ = .dict l := by
  obtain ⟨_, _, c, hc, hl, hs, _⟩ := select_ok h₁
  obtain ⟨_, _, c', hc', hl', _, hd⟩ := select_ok h₂
  obtain rfl := Except.ok.inj (hc.symm.trans hc')
  obtain ⟨l, rfl⟩ := hs.mp rfl
  obtain ⟨l', rfl⟩ := hd.mp rfl
  simp only [Selection.lines] at hl hl'
  exact ⟨l, rfl, by rw [hl, hl']⟩

/-- **C112**: there is a line for every interaction. -/
theorem C112_total (he : m.Even) {i : Nat} {r : Row} (hr : m.rows[i]? = some r) : ∃ as, m.Line i ⟨r, as⟩ := by
  have hj := (List.getElem?_eq_some_iff.mp hr).1
  exact ⟨_, hr, (line_attrs (fun c hc => by rw [he c hc]; exact hj) _).mpr rfl⟩

/-- **C112**: along histories whose updates name only known attributes, a query that pandas accepts is answered. -/
theorem C112_made_partial {env : Env} (h : Made env KnownKeys m) {c : FrameRow → Bool} (hq : q (dkeys m.attrCols) = .ok c)
    (hf : fmt ≠ .other) : ∃ s, (selectInteraction q fmt).run m = .ok s m := by
  have hm := made_rect (fun _ _ h => h) h
  refine (C112_run m).2.2.2 (fun c hc => ?_) c hq hf
  exact hm.toCols.cols c.1 c.2 (dget_of_mem (by rw [hm.keys]; exact hm.nodup) hc)

/-- **C112**: `select_interactions_by_variable` gives the names of the selection by key. -/
theorem C112_by_variable (v : PVar) {ns : List String} {m₁ : LModel} (h₁ : (selectByVariable v).run m = .ok ns m₁)
    (h : (selectInteraction q fmt).run m = .ok s m')
    (hq : q (dkeys m.attrCols) = .ok fun fr => fr.row.inter.key0 = v.label || fr.row.inter.key1 = some v.label) :
    ns = s.lines.map (·.2.row.name) := by
  obtain ⟨_, he, c, hc, hl, _⟩ := select_ok h
  obtain rfl := Except.ok.inj (hq.symm.trans hc)
  classical
  unfold selectByVariable at h₁
  rw [Py.run_bind, makeFrame_even, if_pos he] at h₁
  cases h₁
  rw [hl]
  simp only [LModel.frame, List.filter_map, List.map_map]
  have : m.rows = m.rows.zipIdx.map (·.1) := (List.zipIdx_map_fst _ _).symm
  conv_lhs => rw [this]
  rw [List.filter_map, List.map_map]
  rfl

/-- **C112**: the interactions that the conversions rewrite are the selection by body that is not removed. -/
theorem C112_body (b : Nat) {rs : List Row} {m₁ : LModel} (h₁ : (selectBody b).run m = .ok rs m₁)
    (h : (selectInteraction q fmt).run m = .ok s m') (hq : q (dkeys m.attrCols) = .ok fun fr => fr.row.inter.body == b && !fr.row.removed) :
    rs = s.lines.map (·.2.row) := by
  obtain ⟨_, he, c, hc, hl, _⟩ := select_ok h
  obtain rfl := Except.ok.inj (hq.symm.trans hc)
  obtain ⟨_, rfl⟩ := selectBody_run b h₁
  rw [hl]
  simp only [LModel.frame, List.filter_map, List.map_map]
  have : m.rows = m.rows.zipIdx.map (·.1) := (List.zipIdx_map_fst _ _).symm
  conv_lhs => rw [this]
  rw [List.filter_map]
  rfl

/-- **C112**: with distinct names, a query for a name finds that one interaction, at the place where the model has it. -/
theorem C112_name (hu : m.names.Nodup) (h : (selectInteraction q fmt).run m = .ok s m') {i : Nat} {r : Row}
    (hr : m.rows[i]? = some r) (hq : q (dkeys m.attrCols) = .ok fun fr => fr.row.name = r.name) :
    ∃ as, s.lines = [(i, ⟨r, as⟩)] := by
  obtain ⟨rfl, c, hc, hp, hl⟩ := C112_lines h
  obtain rfl := Except.ok.inj (hq.symm.trans hc)
  obtain ⟨as, hline⟩ := C112_total (select_ok h).2.1 hr
  have huniq : ∀ x ∈ s.lines, x = (i, (⟨r, as⟩ : FrameRow)) := by
    rintro ⟨j, fr⟩ hx
    obtain ⟨⟨h1, h2⟩, h3⟩ := (hl j fr).mp hx
    have hji : j = i := by
      have e1 : (m'.rows.map (·.name))[j]? = some r.name := by rw [List.getElem?_map, h1]; simpa using h3
      have e2 : (m'.rows.map (·.name))[i]? = some r.name := by rw [List.getElem?_map, hr]; rfl
      obtain ⟨l1, g1⟩ := List.getElem?_eq_some_iff.mp e1
      obtain ⟨l2, g2⟩ := List.getElem?_eq_some_iff.mp e2
      exact (List.Nodup.getElem_inj_iff hu).mp (g1.trans g2.symm)
    subst hji
    obtain ⟨r', as'⟩ := fr
    obtain rfl : r' = r := Option.some.inj (h1.symm.trans hr)
    have hj := (List.getElem?_eq_some_iff.mp hr).1
    have hlen : ∀ c ∈ m'.attrCols, j < c.2.length := fun c hc => by rw [(select_ok h).2.1 c hc]; exact hj
    rw [(line_attrs hlen as').mp h2, (line_attrs hlen as).mp hline.2]
  have hmem : (i, (⟨r, as⟩ : FrameRow)) ∈ s.lines := (hl _ _).mpr ⟨hline, by simp⟩
  refine ⟨as, ?_⟩
  have hnd : s.lines.Nodup := (hp.imp fun h => ne_of_lt h).of_map _ fun a b h e => h (by rw [e])
  match hs : s.lines with
  | [] => rw [hs] at hmem; cases hmem
  | [x] => rw [huniq x (by simp [hs])]
  | x :: y :: l =>
    rw [hs] at hnd
    have := (huniq x (by simp [hs])).trans (huniq y (by simp [hs])).symm
    subst this
    simp at hnd

/-- A history with an attribute and a removed interaction. -/
def selectOps : List Op :=
  [.variables "x" [3], .add 1 (.var Ex.x0) (.str "") (.num 1) (.num 1) (.dict [("a", .num 7)]) .none,
   .add 2 (.tuple [some Ex.x0, some Ex.x1]) (.str "") (.num 2) (.num 1) .none .none,
   .add 3 (.var Ex.x1) (.str "") (.num 3) (.num 1) .none .none, .remove (.var Ex.x1) (.str "")]

/-- The query `key_0 == "x[0]"`. -/
def byKey0 : List String → Except Err (FrameRow → Bool) := fun _ => .ok fun fr => fr.row.inter.key0 = "x[0]"

theorem made_after {env : Env} {P : LModel → Op → Prop} {mt : MType} {id : String} (ops : List Op)
    (h : ∀ op ∈ ops, op.NotMerge ∧ ∀ m, P m op) : Made env P (afterOps env (LModel.new mt id) ops) := by
  induction ops using List.reverseRecOn with
  | nil => exact .new mt id
  | append_singleton ops op ih =>
    have hstep : afterOps env (LModel.new mt id) (ops ++ [op]) = op.step env (afterOps env (LModel.new mt id) ops) := by
      simp [afterOps]
    rw [hstep]
    refine .step _ op (ih fun o ho => h o (by simp [ho])) ((h op (by simp)).2 _) fun clk o e => ?_
    exact (e ▸ (h op (by simp)).1 : Op.NotMerge (.merge clk o)).elim

example : Made ⟨0, fun _ => ""⟩ KnownKeys (afterOps ⟨0, fun _ => ""⟩ (LModel.new .ising "1") selectOps) := by
  refine made_after _ ?_
  unfold selectOps
  simp [Op.NotMerge, KnownKeys]

example : (match (selectInteraction byKey0 .dict).run (afterOps ⟨0, fun _ => ""⟩ (LModel.new .ising "1") selectOps) with
    | .ok s _ => s.lines.map fun p => (p.1, p.2.row.name, p.2.attrs)
    | .error _ _ => []) = [(0, "x[0]", [("attributes.a", .num 7)]), (1, "x[0]*x[1]", [("attributes.a", .nan)])] := by
  decide +kernel

example : (match (selectInteraction (fun _ => .ok fun fr => fr.row.removed) .series).run
      (afterOps ⟨0, fun _ => ""⟩ (LModel.new .ising "1") selectOps) with
    | .ok s _ => s.lines.map fun p => (p.1, p.2.row.name)
    | .error _ _ => []) = [(2, "x[1]")] := by decide +kernel

example : (afterOps ⟨0, fun _ => ""⟩ (LModel.new .ising "1") selectOps).names.Nodup := by decide +kernel

/-- After an update with an attribute that no `add_interaction` named, and another `add_interaction`, no query is answered. -/
theorem C112_ragged_refuted : ∃ m, Made ⟨0, fun _ => ""⟩ AnyCall m ∧
    ∀ q fmt, (selectInteraction q fmt).run m = .error .valueError m := by
  refine ⟨afterOps ⟨0, fun _ => ""⟩ (LModel.new .ising "1") (selectOps ++
    [.update 4 (.var Ex.x0) (.str "") none none (.dict [("b", .num 1)]) none, .add 5 (.var Ex.x1) (.str "new") (.num 1) (.num 1) .none .none]),
    ?_, fun q fmt => (C112_run _).1 ?_⟩
  · refine made_after _ ?_
    unfold selectOps
    simp [Op.NotMerge, AnyCall]
  · unfold LModel.Even
    decide +kernel

/-! ## C113 -/

theorem shape_dset {vars : List (String × VArray)} {n : String} {a b : VArray} (ha : dget vars n = some a) (hb : b.shape = a.shape) (k : String) :
    (dget (dset vars n b) k).map (·.shape) = (dget vars k).map (·.shape) := by
  by_cases hk : k = n
  · subst hk
    rw [dget_dset_self, ha]
    simp [hb]
  · rw [dget_dset_ne _ _ hk]

/-- The calls that do not register arrays keep the names and shapes. -/
theorem step_shapes (env : Env) {op : Op} (hn : op.Named) (h1 : ∀ n sh, op ≠ .variables n sh) (h2 : ∀ n sh, op ≠ .append n sh)
    (m : LModel) (k : String) : (dget (op.step env m).vars k).map (·.shape) = (dget m.vars k).map (·.shape) := by
  let I : LModel → Prop := fun s => ∀ k, (dget s.vars k).map (·.shape) = (dget m.vars k).map (·.shape)
  have hT : TableFree I := fun _ _ _ _ _ h => h
  have hO : OffsetFree I := fun _ _ h => h
  have hmap : ∀ {α : Type} {x : Py LModel α}, I (x.run m).state → I ((do let _ ← x : Py LModel Unit).run m).state := by
    intro α x hx
    rw [Py.run_bind]
    cases hr : x.run m with
    | ok a t => rw [hr] at hx; exact hx
    | error e t => rw [hr] at hx; exact hx
  have h0 : I m := fun _ => rfl
  have hconv : ∀ mt f o f₂ g₂ o₂ clk, I ((genConv env mt f o f₂ g₂ o₂ clk).run m).state := by
    intro mt f o f₂ g₂ o₂ clk
    refine genConv_frame (I := I) hT hO env mt f o f₂ g₂ o₂ clk m ?_
    refine Py.Preserves.forM (I := I) (fun n _ s hs => ?_) _ (fun _ => rfl)
    rw [retypeVar_run]
    split
    · exact hs
    · rename_i a ha
      split
      · exact hs
      · rename_i b hb
        intro k
        rw [← hs k]
        exact shape_dset ha (by rw [arrayCreate_shape hb]) k
  refine (show I (op.step env m) from ?_) k
  unfold Op.step
  cases op with
  | «variables» n sh => exact absurd rfl (h1 n sh)
  | variablesArray a => exact hn.elim
  | append n sh => exact absurd rfl (h2 n sh)
  | add now t n c s a ts => exact add_frame hT _ _ _ _ _ _ _ m h0
  | update now t n c s a ts => exact update_frame hT _ _ _ _ _ _ _ _ m h0
  | remove t n => exact remove_frame hT _ _ m h0
  | select v => exact hmap (selectByVariable_inv v m h0)
  | delete v => exact delete_frame hT (fun _ _ h => h) v (fun _ h => h) m h0
  | fix clk v q => exact fix_frame hT hO clk v q (fun _ h => h) m h0
  | addConstraint c => exact h0
  | removeConstraint l =>
    simp only [Op.call, removeConstraint]
    py_simp
    split <;> exact h0
  | setOffset c => exact h0
  | fromPyqubo now pm => exact withSnd_inv pm (fromPyqubo_inv (I := I) (add_frame hT) hO now) m h0
  | toIsing clk =>
    simp only [Op.call, toIsing_run]
    split
    · exact h0
    · exact hconv _ _ _ _ _ _ _
  | toQubo clk =>
    simp only [Op.call, toQubo_run]
    split
    · exact h0
    · exact hconv _ _ _ _ _ _ _
  | merge clk o => exact hn.elim
  | toPhysical a b c => exact hmap (toPhysical_frame hT hO env a b c m h0)

/-- The names and shapes of the arrays of a model. -/
def shapesOf (m : LModel) : Shapes := fun k => (dget m.vars k).map fun a => a.shape.map Int.ofNat

theorem shapesOf_registered {n : String} {sh : List Int} {a : VArray} (hpos : ∀ d ∈ sh, 0 < d) (ha : dget m'.vars n = some a)
    (hs : a.shape = sh.map Int.toNat) (ho : ∀ k, k ≠ n → dget m'.vars k = dget m.vars k) :
    shapesOf m' = fun k => if k = n then some sh else shapesOf m k := by
  funext k
  by_cases hk : k = n
  · subst hk
    rw [if_pos rfl]
    simp only [shapesOf, ha, hs, Option.map_some, List.map_map, Option.some.injEq]
    refine (List.map_congr_left fun d hd => ?_).trans (List.map_id _)
    have := hpos d hd
    simp only [Function.comp, id, Int.ofNat_eq_natCast]
    omega
  · rw [if_neg hk]
    simp only [shapesOf, ho k hk]

theorem create_shapes (m : LModel) (n : String) (sh : List Int) :
    shapesOf ((createVars n sh).run m).state = if '*' ∈ n.toList then shapesOf m else (shapesOf m).put n sh := by
  cases hr : (createVars n sh).run m with
  | ok a m' =>
    obtain ⟨h1, h2, h3⟩ := C18_variables_iff.mp ⟨a, m', hr⟩
    obtain ⟨g1, g2, g3, _⟩ := C18_variables hr
    rw [if_neg h3, Shapes.put, if_pos ⟨h1, h2⟩]
    exact shapesOf_registered h2 g2 g1.shape g3
  | error e m' =>
    have hno : ¬ (sh ≠ [] ∧ (∀ d ∈ sh, 0 < d) ∧ '*' ∉ n.toList) := by
      intro h
      obtain ⟨a, m₁, h⟩ := C18_variables_iff (m := m).mpr h
      rw [hr] at h
      cases h
    rw [C18_variables_failed hr]
    split
    · rfl
    · rename_i hs
      rw [Shapes.put, if_neg fun h => hno ⟨h.1, h.2, hs⟩]
      rfl

theorem append_shapes (hm : VarsOk m) {n : String} {old : VArray} (ho : dget m.vars n = some old) (sh : List Int) :
    shapesOf ((appendVars n sh).run m).state =
      if sh = [] then shapesOf m else (shapesOf m).put n (List.zipWith (· + ·) (old.shape.map Int.ofNat) sh) := by
  obtain ⟨_, hne, _, hstar⟩ := hm.get ho
  rw [appendVars_run, ho]
  by_cases h0 : sh = []
  · rw [if_pos h0, if_pos h0]
    rfl
  rw [if_neg h0, if_neg h0]
  simp only
  show shapesOf (Res.state (match arrayCreate n (List.zipWith (· + ·) (old.shape.map Int.ofNat) sh) m.mtype.vtype with
    | .error e => _ | .ok a => _)) = _
  generalize hz : List.zipWith (· + ·) (old.shape.map Int.ofNat) sh = z
  by_cases hc : z ≠ [] ∧ ∀ d ∈ z, 0 < d
  · rw [(arrayCreate_spec n z m.mtype.vtype).1 ⟨hc.1, hc.2, hstar⟩, Shapes.put, if_pos hc]
    exact shapesOf_registered hc.2 (dget_dset_self _ _ _) rfl fun k hk => dget_dset_ne _ _ hk
  · obtain ⟨e, he⟩ := (arrayCreate_spec n z m.mtype.vtype).2 fun h => hc ⟨h.1, h.2.1⟩
    rw [he, Shapes.put, if_neg hc]
    rfl

theorem shapes_step (env : Env) {op : Op} (hn : op.Named) (hm : VarsOk m) : shapesOf (op.step env m) = (shapesOf m).after op := by
  have hmap : ∀ {α : Type} {x : Py LModel α}, ((do let _ ← x : Py LModel Unit).run m).state = (x.run m).state := by
    intro α x
    rw [Py.run_bind]
    cases x.run m <;> rfl
  by_cases h1 : ∃ n sh, op = .variables n sh
  · obtain ⟨n, sh, rfl⟩ := h1
    show shapesOf ((do let _ ← createVars n sh : Py LModel Unit).run m).state = _
    rw [hmap, create_shapes]
    rfl
  by_cases h2 : ∃ n sh, op = .append n sh
  · obtain ⟨n, sh, rfl⟩ := h2
    show shapesOf ((do let _ ← appendVars n sh : Py LModel Unit).run m).state = _
    rw [hmap]
    cases ho : dget m.vars n with
    | none =>
      rw [C17_append_unknown ho, create_shapes]
      simp only [Shapes.after]
      rw [show shapesOf m n = none by simp [shapesOf, ho]]
    | some old =>
      rw [append_shapes hm ho]
      simp only [Shapes.after]
      rw [show shapesOf m n = some (old.shape.map Int.ofNat) by simp [shapesOf, ho]]
  · have hs : (shapesOf m).after op = shapesOf m := by
      cases op with
      | «variables» n sh => exact absurd ⟨n, sh, rfl⟩ h1
      | append n sh => exact absurd ⟨n, sh, rfl⟩ h2
      | _ => rfl
    rw [hs]
    funext k
    have := step_shapes env hn (fun n sh h => h1 ⟨n, sh, h⟩) (fun n sh h => h2 ⟨n, sh, h⟩) m k
    have e : ∀ s : LModel, shapesOf s k = ((dget s.vars k).map (·.shape)).map (·.map Int.ofNat) := by
      intro s
      simp only [shapesOf, Option.map_map]
      rfl
    rw [e, e, this]

theorem shapes_history (env : Env) (mt : MType) (id : String) (ops : List Op) (h : ∀ op ∈ ops, op.Named) :
    VarsOk (afterOps env (LModel.new mt id) ops) ∧ shapesOf (afterOps env (LModel.new mt id) ops) = shapesAfter ops := by
  induction ops using List.reverseRecOn with
  | nil => exact ⟨new_varsOk mt id, rfl⟩
  | append_singleton ops op ih =>
    obtain ⟨h1, h2⟩ := ih fun o ho => h o (by simp [ho])
    have hn : op.Named := h op (by simp)
    have hstep : afterOps env (LModel.new mt id) (ops ++ [op]) = op.step env (afterOps env (LModel.new mt id) ops) := by
      simp [afterOps]
    rw [hstep]
    refine ⟨step_varsOk env op _ h1 ?_ ?_, ?_⟩
    · rintro a rfl
      exact hn.elim
    · rintro clk o rfl
      exact hn.elim
    · rw [shapes_step env hn h1, h2]
      simp [shapesAfter]

/-- **C113**: after any history of calls that register arrays by name and shape, returning or raising, `get_variables_by_name`
returns for each name that is registered an array of the shape that the `variables` and `append` calls add up to, with one
variable per index tuple; for any other name it raises KeyError. -/
theorem C113_by_name (env : Env) (mt : MType) (id : String) (ops : List Op) (h : ∀ op ∈ ops, op.Named) (n : String) :
    let m := afterOps env (LModel.new mt id) ops
    match shapesAfter ops n with
    | none => m.getVariablesByName n = .error .keyError
    | some sh => ∃ a, m.getVariablesByName n = .ok a ∧ IsArray n (sh.map Int.toNat) m.mtype.vtype a := by
  obtain ⟨h1, h2⟩ := shapes_history env mt id ops h
  simp only
  generalize afterOps env (LModel.new mt id) ops = m at h1 h2
  rw [← h2]
  simp only [shapesOf, LModel.getVariablesByName]
  cases hg : dget m.vars n with
  | none => rfl
  | some a =>
    refine ⟨a, rfl, ?_⟩
    have : (a.shape.map Int.ofNat).map Int.toNat = a.shape := by
      rw [List.map_map]
      exact (List.map_congr_left fun d _ => rfl).trans (List.map_id _)
    simp only [Option.map_some, this]
    exact (h1.get hg).1

/-- **C113**: `get_variables` holds the same arrays, under distinct names. -/
theorem C113_all (env : Env) (mt : MType) (id : String) (ops : List Op) (h : ∀ op ∈ ops, op.Named) :
    let m := afterOps env (LModel.new mt id) ops
    (m.getVariables.map (·.1)).Nodup ∧ ∀ n a, (n, a) ∈ m.getVariables ↔ m.getVariablesByName n = .ok a := by
  obtain ⟨h1, _⟩ := shapes_history env mt id ops h
  simp only
  generalize afterOps env (LModel.new mt id) ops = m at h1
  refine ⟨h1.keys, fun n a => ?_⟩
  simp only [LModel.getVariables, LModel.getVariablesByName]
  constructor
  · intro ha
    rw [dget_of_mem h1.keys ha]
  · intro ha
    cases hg : dget m.vars n with
    | none => rw [hg] at ha; cases ha
    | some b =>
      rw [hg] at ha
      cases ha
      exact dget_mem hg

/-- The lists of labels hold no label twice. -/
theorem labels_nodup (env : Env) (mt : MType) (id : String) (ops : List Op) (h : ∀ op ∈ ops, op.NotMerge) :
    (afterOps env (LModel.new mt id) ops).deleted.Nodup ∧ (afterOps env (LModel.new mt id) ops).fixed.Nodup := by
  induction ops using List.reverseRecOn with
  | nil => exact ⟨List.nodup_nil, List.nodup_nil⟩
  | append_singleton ops op ih =>
    obtain ⟨h1, h2⟩ := ih fun o ho => h o (by simp [ho])
    have hn : op.NotMerge := h op (by simp)
    have hstep : afterOps env (LModel.new mt id) (ops ++ [op]) = op.step env (afterOps env (LModel.new mt id) ops) := by
      simp [afterOps]
    rw [hstep]
    generalize afterOps env (LModel.new mt id) ops = m at h1 h2
    have hsadd : ∀ (l : List String) (k : String), l.Nodup → (sadd l k).Nodup := by
      intro l k hl
      unfold sadd
      split
      · exact hl
      · rename_i hk
        exact List.nodup_append.mpr ⟨hl, List.nodup_singleton _, fun a ha b hb e => hk (by
          rw [List.mem_singleton] at hb
          rw [← hb, ← e]
          exact ha)⟩
    by_cases hr : op.Registers
    · cases op with
      | addConstraint c => exact ⟨h1, h2⟩
      | removeConstraint l =>
        unfold Op.step
        simp only [Op.call, removeConstraint]
        py_simp
        split <;> exact ⟨h1, h2⟩
      | delete v =>
        refine ⟨by rw [(step_delete env v m).1]; exact hsadd _ _ h1, ?_⟩
        rw [(step_delete env v m).2]
        exact h2
      | merge clk o => exact hn.elim
      | fix clk v x =>
        refine ⟨by rw [(step_fix_constraints env clk v x m).2]; exact h1, ?_⟩
        by_cases hv : ValueOf m.mtype x
        · rw [(step_fix env clk v x m).1 hv]
          exact hsadd _ _ h2
        · rw [(step_fix env clk v x m).2 hv]
          exact h2
      | _ => exact hr.elim
    · have := step_registries env hr m
      simp only [registries, Prod.mk.injEq] at this
      rw [this.2.1, this.2.2]
      exact ⟨h1, h2⟩

/-- **C113**: `get_deleted_array` and `get_fixed_array` list each label named in a `delete_variable` call, or in a
`fix_variable` call with a value of the type of the model, once. -/
theorem C113_arrays (env : Env) (mt : MType) (id : String) (ops : List Op) (h : ∀ op ∈ ops, op.NotMerge) :
    let m := afterOps env (LModel.new mt id) ops
    m.getDeletedArray.Nodup ∧ (∀ l, l ∈ m.getDeletedArray ↔ DeletedBy ops l) ∧
    m.getFixedArray.Nodup ∧ (∀ l, l ∈ m.getFixedArray ↔ FixedBy env (LModel.new mt id) ops l) :=
  ⟨(labels_nodup env mt id ops h).1, C86_deleted env mt id ops h, (labels_nodup env mt id ops h).2, C86_fixed env mt id ops h⟩

/-- **C113**, the documented "alive variables": `delete_variable` and `fix_variable`, returning or raising, never change what
the getters return, so a deleted or fixed variable is still among the variables. -/
theorem C113_delete_fix (env : Env) (v : PVar) (clk : Nat → ℚ) (x : PyNum) (m : LModel) :
    (Op.step env m (.delete v)).getVariables = m.getVariables ∧ (Op.step env m (.fix clk v x)).getVariables = m.getVariables :=
  ⟨delete_frame (I := fun s : LModel => s.vars = m.vars) (fun _ _ _ _ _ h => h) (fun _ _ h => h) v (fun _ h => h) m rfl,
    fix_frame (I := fun s : LModel => s.vars = m.vars) (fun _ _ _ _ _ h => h) (fun _ _ h => h) clk v x (fun _ h => h) m rfl⟩

/-- A variable that is deleted or fixed is still listed. -/
theorem C113_alive_refuted : ¬ ∀ env m, Made env AnyCall m → ∀ n a, (n, a) ∈ m.getVariables → ∀ v ∈ a.bits,
    v.label ∉ m.getDeletedArray ∧ v.label ∉ m.getFixedArray := by
  intro h
  have := h ⟨0, fun _ => ""⟩ (afterOps ⟨0, fun _ => ""⟩ (LModel.new .ising "1") [.variables "x" [2], .delete Ex.x0]) (by
    refine made_after _ ?_
    simp [Op.NotMerge, AnyCall])
  have := (this "x" ⟨[2], [Ex.x0, Ex.x1]⟩ (by decide +kernel) Ex.x0 (by decide)).1
  exact this (by decide +kernel)

/-- The variables of a name shrink with `append`, and a failed call keeps them. -/
example : shapesAfter [.variables "x" [2, 3], .append "x" [1, -1], .append "y" [2], .variables "z" [0], .append "x" [-3, 1], .delete Ex.x0] "x" =
      some [3, 2] ∧
    shapesAfter [.variables "x" [2, 3], .append "x" [1, -1], .append "y" [2], .variables "z" [0]] "z" = none ∧
    ∀ op ∈ [Op.variables "x" [2, 3], .append "x" [1, -1], .append "y" [2], .variables "z" [0], .append "x" [-3, 1], .delete Ex.x0], op.Named := by
  refine ⟨by decide +kernel, by decide +kernel, ?_⟩
  simp [Op.Named]

end Sawatabi.Props
