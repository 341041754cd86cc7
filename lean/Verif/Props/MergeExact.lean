import Verif.Props.Merge
import Verif.Props.Conversion
import Verif.Lemmas.Proper

/-!
# Merges of all models: arrays, and what raising merges leave (C39, C40)
-/

namespace Sawatabi.Props

variable {a b a' b' : LModel} {env : Env} {clk : Nat → ℚ}

/-! ## C39: the arrays after any successful merge -/

theorem mergeVars_exact (vs : List (String × VArray)) (m : LModel) {m₁ : LModel} (hk : (dkeys vs).Nodup)
    (hr : ∀ p ∈ vs, ∀ cur, dget m.vars p.1 = some cur → cur.shape.length = p.2.shape.length)
    (h : (vs.forM mergeVar).run m = .ok ⟨⟩ m₁) (n : String) :
    dget m₁.vars n = joinArray m.mtype.vtype n (dget m.vars n) (dget vs n) := by
  induction vs generalizing m with
  | nil =>
    cases h
    cases hd : dget m₁.vars n <;> simp [dget, joinArray]
  | cons p vs ih =>
    obtain ⟨k, y⟩ := p
    have hk' := List.nodup_cons.mp hk
    rw [Py.run_forM_cons] at h
    cases h1 : (mergeVar (k, y)).run m with
    | error e t => rw [h1] at h; cases h
    | ok u t =>
      rw [h1] at h
      simp only at h
      have hstep : t.mtype = m.mtype ∧ dget t.vars k = joinArray m.mtype.vtype k (dget m.vars k) (some y) ∧
          ∀ k', k' ≠ k → dget t.vars k' = dget m.vars k' := by
        rw [mergeVar_run] at h1
        cases hc : dget m.vars k with
        | none =>
          simp only [hc] at h1
          cases h1
          exact ⟨rfl, dget_dset_self _ _ _, fun k' hk => dget_dset_ne _ _ hk⟩
        | some cur =>
          simp only [hc] at h1
          rw [appendVars_run, hc] at h1
          split at h1
          · rename_i u' t' h2
            split at h2
            · cases h2
            · simp only at h2
              rw [merge_shape (hr (k, y) (by simp) cur hc).symm] at h2
              cases hcr : arrayCreate k ((List.zipWith max cur.shape y.shape).map Int.ofNat) m.mtype.vtype with
              | error e => rw [hcr] at h2; cases h2
              | ok z =>
                rw [hcr] at h2
                cases h2
                cases h1
                obtain ⟨_, hz⟩ := arrayCreate_ok hcr
                refine ⟨rfl, ?_, fun k' hk => dget_dset_ne _ _ hk⟩
                rw [dget_dset_self, hz]
                simp only [joinArray, List.map_map]
                congr 2
                conv_rhs => rw [← List.map_id (List.zipWith max cur.shape y.shape)]
                rfl
          · cases h1
      obtain ⟨e1, e2, e3⟩ := hstep
      have := ih t hk'.2 (by
        intro q hq cur hc
        rw [e3 q.1 (by
          intro he
          apply hk'.1
          show k ∈ dkeys vs
          rw [← he]
          exact List.mem_map_of_mem (f := (·.1)) hq)] at hc
        exact hr q (by simp [hq]) cur hc) h
      rw [this, e1]
      simp only [dget]
      by_cases hn : k = n
      · subst hn
        rw [if_pos rfl, e2, (dget_eq_none_iff vs k).mpr hk'.1]
        cases dget m.vars k <;> rfl
      · rw [if_neg hn, e3 n (fun h => hn h.symm)]

theorem mergeSame_arrays (ha : (dkeys a.vars).Nodup) (hb : (dkeys b.vars).Nodup) (h : mergeSame.run (a, b) = .ok ⟨⟩ (a', b'))
    (n : String) : Joined a.mtype.vtype n (dget a.vars n) (dget b.vars n) (dget a'.vars n) := by
  rw [mergeSame_run] at h
  split at h
  · cases h
  rename_i hr
  have hr : rankClash a b = false := by simpa using hr
  cases hv : (b.vars.forM mergeVar).run a with
  | error e t => rw [hv] at h; cases h
  | ok u a₁ =>
    rw [hv] at h
    simp only at h
    have key := mergeVars_exact b.vars a hb (fun p hp cur hc => (rankClash_false ha).mp hr p.1 cur p.2 hc (dget_of_mem hb hp)) hv n
    split at h
    · cases h
    · split at h
      · cases h
      · cases h
        simp only [mergedRest, mergedTable, key]
        cases hx : dget a.vars n with
        | none => cases hy : dget b.vars n with
          | none => exact .neither
          | some y => exact .right y
        | some x => cases hy : dget b.vars n with
          | none => exact .left x
          | some y => exact .both x y _ ((rankClash_false ha).mp hr n x y hx hy) (stdArray_isArray _ _ _)

/-- After a successful merge of any two models (with arrays registered in any way, and tables of any shape) the model has
exactly the arrays of both, where the argument is taken as the merge left it. An array of both is replaced by a new one
whose shape is the elementwise maximum. -/
theorem C39_exact (ha : a.Proper) (hb : b.Proper) (h : (merge env clk).run (a, b) = .ok ⟨⟩ (a', b')) (n : String) :
    Joined a.mtype.vtype n (dget a.vars n) (dget b'.vars n) (dget a'.vars n) := by
  rw [merge_run] at h
  split at h
  · have := mergeSame_snd a b
    rw [h] at this
    simp only [Res.state] at this
    rw [this]
    exact mergeSame_arrays ha.vars hb.vars h n
  · have hp := convertMtype_proper env clk b hb
    cases hc : (convertMtype env clk).run b with
    | error e b₁ => rw [hc] at h; cases h
    | ok u b₁ =>
      rw [hc] at h hp
      simp only at h
      have := mergeSame_snd a b₁
      rw [h] at this
      simp only [Res.state] at this
      rw [this]
      exact mergeSame_arrays ha.vars hp.vars h n

theorem mem_allLabels_dget {m : LModel} (hm : (dkeys m.vars).Nodup) {l : String} :
    l ∈ m.allLabels ↔ ∃ n x, dget m.vars n = some x ∧ l ∈ x.bits.map (·.label) := by
  unfold LModel.allLabels
  rw [List.mem_flatMap]
  constructor
  · rintro ⟨⟨n, x⟩, hp, hl⟩
    exact ⟨n, x, dget_of_mem hm hp, hl⟩
  · rintro ⟨n, x, hx, hl⟩
    exact ⟨(n, x), dget_mem hx, hl⟩

/-- Exactly the labels after a successful merge: an array that only one model has keeps its labels, an array of both has
those of its name and new shape, whatever they were before. -/
theorem C39_labels_exact (ha : a.Proper) (hb : b.Proper) (h : (merge env clk).run (a, b) = .ok ⟨⟩ (a', b')) (l : String) :
    l ∈ a'.allLabels ↔ (∃ n x, dget a.vars n = some x ∧ dget b'.vars n = none ∧ l ∈ x.bits.map (·.label)) ∨
      (∃ n y, dget a.vars n = none ∧ dget b'.vars n = some y ∧ l ∈ y.bits.map (·.label)) ∨
      ∃ n x y idx, dget a.vars n = some x ∧ dget b'.vars n = some y ∧ InShape idx (List.zipWith max x.shape y.shape) ∧
        l = arrayLabel n idx := by
  have hp : ProperPair (a', b') := by
    have := merge_proper env clk (a, b) ⟨ha, hb⟩
    rw [h] at this
    exact this
  rw [mem_allLabels_dget hp.1.vars]
  have hj := C39_exact ha hb h
  have hlab : ∀ {n sh vt z}, IsArray n sh vt z → (l ∈ z.bits.map (·.label) ↔ ∃ idx, InShape idx sh ∧ l = arrayLabel n idx) := by
    intro n sh vt z hz
    simp only [List.mem_map, hz.mem]
    constructor
    · rintro ⟨v, ⟨idx, hi, rfl⟩, rfl⟩
      exact ⟨idx, hi, rfl⟩
    · rintro ⟨idx, hi, rfl⟩
      exact ⟨_, ⟨idx, hi, rfl⟩, rfl⟩
  constructor
  · rintro ⟨n, z, hz, hl⟩
    have := hj n
    rw [hz] at this
    cases hx : dget a.vars n with
    | none =>
      cases hy : dget b'.vars n with
      | none => rw [hx, hy] at this; cases this
      | some y =>
        rw [hx, hy] at this
        cases this
        exact .inr (.inl ⟨n, _, hx, hy, hl⟩)
    | some x =>
      cases hy : dget b'.vars n with
      | none =>
        rw [hx, hy] at this
        cases this
        exact .inl ⟨n, _, hx, hy, hl⟩
      | some y =>
        rw [hx, hy] at this
        cases this with
        | both _ _ _ hr hz' =>
          obtain ⟨idx, hi, e⟩ := (hlab hz').mp hl
          exact .inr (.inr ⟨n, x, y, idx, hx, hy, hi, e⟩)
  · rintro (⟨n, x, hx, hy, hl⟩ | ⟨n, y, hx, hy, hl⟩ | ⟨n, x, y, idx, hx, hy, hi, e⟩)
    · have := hj n
      rw [hx, hy] at this
      cases hz : dget a'.vars n with
      | none => rw [hz] at this; cases this
      | some z => rw [hz] at this; cases this; exact ⟨n, _, hz, hl⟩
    · have := hj n
      rw [hx, hy] at this
      cases hz : dget a'.vars n with
      | none => rw [hz] at this; cases this
      | some z => rw [hz] at this; cases this; exact ⟨n, _, hz, hl⟩
    · have := hj n
      rw [hx, hy] at this
      cases hz : dget a'.vars n with
      | none => rw [hz] at this; cases this
      | some z =>
        rw [hz] at this
        cases this with
        | both _ _ _ hr hz' => exact ⟨n, z, hz, (hlab hz').mpr ⟨idx, hi, e⟩⟩

/-- The slice of `C39_foreign_array_refuted` meets the hypotheses. -/
example : ∃ s, (merge convEnv fun _ => 0).run (Ex.after (LModel.new .ising "1") (variablesArray ⟨[1], [Ex.x1]⟩),
    Ex.after (LModel.new .ising "2") (createVars "x" [1])) = .ok ⟨⟩ s ∧
    (Ex.after (LModel.new .ising "1") (variablesArray ⟨[1], [Ex.x1]⟩)).Proper ∧
    (Ex.after (LModel.new .ising "2") (createVars "x" [1])).Proper :=
  ⟨_, rfl, ⟨by decide, by decide, by decide, (fun p h => by cases h), by decide, by decide⟩,
    ⟨by decide, by decide, by decide, (fun p h => by cases h), by decide, by decide⟩⟩

/-! ## C40: raising merges -/

/-- What a conversion, whether it returns or raises, does to the other fields of a model. -/
theorem converted_frame (hb : VarsOk b) {b₁ : LModel} (h : ((convertMtype env clk).run b).state = b₁) :
    b₁.mtype = b.mtype.other ∧ b₁.constraints = b.constraints ∧ b₁.deleted = b.deleted ∧ b₁.fixed = b.fixed ∧ b₁.id = b.id ∧
      ∀ n, (∀ y, dget b.vars n = some y → dget b₁.vars n = some (stdArray n y.shape b.mtype.other.vtype)) ∧
        (dget b.vars n = none → dget b₁.vars n = none) := by
  have key : ∀ mt f o f₂ g₂ o₂, ((genConv env mt f o f₂ g₂ o₂ clk).run b).state = b₁ →
      b₁.mtype = mt ∧ b₁.constraints = b.constraints ∧ b₁.deleted = b.deleted ∧ b₁.fixed = b.fixed ∧ b₁.id = b.id ∧
        ∀ n, (∀ y, dget b.vars n = some y → dget b₁.vars n = some (stdArray n y.shape mt.vtype)) ∧
          (dget b.vars n = none → dget b₁.vars n = none) := by
    intro mt f o f₂ g₂ o₂ hrun
    have := genConv_frame (I := fun s : LModel => s.mtype = mt ∧ s.constraints = b.constraints ∧ s.deleted = b.deleted ∧
      s.fixed = b.fixed ∧ s.id = b.id ∧
      ∀ n, (∀ y, dget b.vars n = some y → dget s.vars n = some (stdArray n y.shape mt.vtype)) ∧
        (dget b.vars n = none → dget s.vars n = none)) (fun _ _ _ _ _ h => h) (fun _ _ h => h) env mt f o f₂ g₂ o₂ clk b (by
        obtain ⟨m', hm', _, hmt, hk, hget⟩ := retype_varsOk hb mt
        obtain ⟨vs, rfl, _⟩ := retypeLoop_ok _ hm'
        rw [hm']
        refine ⟨hmt, rfl, rfl, rfl, rfl, fun n => ⟨fun y hy => hget n y hy, ?_⟩⟩
        intro hn
        simp only [Res.state]
        rw [dget_eq_none_iff] at hn ⊢
        simp only at hk
        rw [hk]
        exact hn)
    rw [hrun] at this
    exact this
  rw [convertMtype_run] at h
  cases hbm : b.mtype with
  | qubo =>
    simp only [toIsing_run, hbm] at h
    exact key .ising _ _ _ _ _ h
  | ising =>
    simp only [toQubo_run, hbm] at h
    exact key .qubo _ _ _ _ _ h

/-- Some array of both models has different ranks. -/
def RanksDiffer (a b : LModel) : Prop :=
  ∃ n x y, dget a.vars n = some x ∧ dget b.vars n = some y ∧ x.shape.length ≠ y.shape.length

/-- Some constraint label is in both models. -/
def SharesConstraint (a b : LModel) : Prop := ∃ l, l ∈ dkeys a.constraints ∧ l ∈ dkeys b.constraints

theorem rankClash_iff (ha : (dkeys a.vars).Nodup) : rankClash a b = true ↔ RanksDiffer a b := by
  constructor
  · intro h
    by_contra hn
    have : rankClash a b = false := by
      rw [rankClash_false ha]
      intro n x y hx hy
      by_contra hne
      exact hn ⟨n, x, y, hx, hy, hne⟩
    rw [this] at h
    cases h
  · rintro ⟨n, x, y, hx, hy, hne⟩
    cases h : rankClash a b with
    | true => rfl
    | false => exact absurd ((rankClash_false ha).mp h n x y hx hy) hne

theorem constraintClash_iff : constraintClash a b = true ↔ SharesConstraint a b := by
  unfold constraintClash SharesConstraint
  rw [List.any_eq_true]
  constructor
  · rintro ⟨p, hp, h⟩
    exact ⟨p.1, List.mem_map_of_mem (f := (·.1)) hp, by simpa using h⟩
  · rintro ⟨l, h1, h2⟩
    obtain ⟨p, hp, rfl⟩ := List.mem_map.mp h1
    exact ⟨p, hp, by simpa using h2⟩

/-- The argument as `merge` uses it: itself, or what converting it made of it. -/
def Used (env : Env) (clk : Nat → ℚ) (a b b₁ : LModel) : Prop :=
  (a.mtype = b.mtype ∧ b₁ = b) ∨ (a.mtype ≠ b.mtype ∧ (convertMtype env clk).run b = .ok ⟨⟩ b₁)

theorem used_frame (hb : VarsOk b) (hrb : b.Rect) {b₁ : LModel} (h : Used env clk a b b₁) :
    VarsOk b₁ ∧ b₁.Rect ∧ a.mtype = b₁.mtype ∧ (RanksDiffer a b₁ ↔ RanksDiffer a b) ∧
      (SharesConstraint a b₁ ↔ SharesConstraint a b) := by
  rcases h with ⟨ht, rfl⟩ | ⟨ht, hc⟩
  · exact ⟨hb, hrb, ht, Iff.rfl, Iff.rfl⟩
  · have h1 := (convertMtype_varsOk env clk b hb).1
    have h2 := convertMtype_rect env clk b hrb
    have h3 := converted_frame (env := env) (clk := clk) hb (b₁ := b₁) (by rw [hc]; rfl)
    rw [hc] at h1 h2
    refine ⟨h1, h2, by rw [MType.eq_other ht, h3.1], ?_, by unfold SharesConstraint; rw [h3.2.1]⟩
    unfold RanksDiffer
    constructor
    · rintro ⟨n, x, y, hx, hy, hne⟩
      obtain ⟨g1, g2⟩ := h3.2.2.2.2.2 n
      cases hy' : dget b.vars n with
      | none => rw [g2 hy'] at hy; cases hy
      | some y' =>
        rw [g1 y' hy'] at hy
        cases hy
        exact ⟨n, x, y', hx, hy', hne⟩
    · rintro ⟨n, x, y, hx, hy, hne⟩
      exact ⟨n, x, _, hx, (h3.2.2.2.2.2 n).1 y hy, hne⟩

/-- What `merge` does to well-formed models of any types. If converting the argument raises, the model is unchanged. If
an array has different ranks, the model is unchanged, too. Otherwise, if they share a constraint label, the merge raises
when it has merged arrays and interactions and before it merges constraints, offset and deleted and fixed variables. In all
other cases it returns. -/
theorem C40_exact_partial (ha : VarsOk a) (hb : VarsOk b) (hra : a.Rect) (hrb : b.Rect) :
    (∀ e b₁, a.mtype ≠ b.mtype → (convertMtype env clk).run b = .error e b₁ → (merge env clk).run (a, b) = .error e (a, b₁)) ∧
    ∀ b₁, Used env clk a b b₁ →
      (RanksDiffer a b → (merge env clk).run (a, b) = .error .valueError (a, b₁)) ∧
      (¬RanksDiffer a b → SharesConstraint a b → ∃ a₁, (merge env clk).run (a, b) = .error .valueError (a₁, b₁) ∧
        (∀ n, Joined a.mtype.vtype n (dget a.vars n) (dget b₁.vars n) (dget a₁.vars n)) ∧
        a₁.rows.map Row.anon = (a.rows ++ b₁.rows).map Row.anon ∧ a₁.mtype = a.mtype ∧ a₁.constraints = a.constraints ∧
        a₁.offset = a.offset ∧ a₁.deleted = a.deleted ∧ a₁.fixed = a.fixed ∧ a₁.id = a.id) ∧
      (¬RanksDiffer a b → ¬SharesConstraint a b → ∃ a₁, (merge env clk).run (a, b) = .ok ⟨⟩ (a₁, b₁)) := by
  constructor
  · intro e b₁ ht hc
    rw [merge_run, if_neg ht, hc]
  · intro b₁ hu
    obtain ⟨hb₁, hrb₁, ht, hrank, hcon⟩ := used_frame hb hrb hu
    have hrun : (merge env clk).run (a, b) = mergeSame.run (a, b₁) := by
      rw [merge_run]
      rcases hu with ⟨h1, rfl⟩ | ⟨h1, h2⟩
      · rw [if_pos h1]
      · rw [if_neg h1, h2]
    rw [← hrank, ← hcon, hrun]
    refine ⟨fun h => ?_, fun h hs => ?_, fun h hs => ?_⟩
    · rw [mergeSame_run, (rankClash_iff ha.keys).mpr h, if_pos rfl]
    · have hr : rankClash a b₁ = false := by
        cases hx : rankClash a b₁ with
        | false => rfl
        | true => exact absurd ((rankClash_iff ha.keys).mp hx) h
      obtain ⟨w, cols, _, hw, _, hrun⟩ := mergeSame_ok ha hb₁ ht hra hrb₁ hr
      rw [hrun, constraintClash_iff.mpr hs, if_pos rfl]
      refine ⟨_, rfl, fun n => ?_, ?_, rfl, rfl, rfl, rfl, rfl, rfl⟩
      · simp only [mergedTable, hw n]
        cases hx : dget a.vars n with
        | none => cases hy : dget b₁.vars n with
          | none => exact .neither
          | some y => exact .right y
        | some x => cases hy : dget b₁.vars n with
          | none => exact .left x
          | some y => exact .both x y _ ((rankClash_false ha.keys).mp hr n x y hx hy) (stdArray_isArray _ _ _)
      · exact mergedRows_anon { a with vars := w } b₁
    · have hr : rankClash a b₁ = false := by
        cases hx : rankClash a b₁ with
        | false => rfl
        | true => exact absurd ((rankClash_iff ha.keys).mp hx) h
      have hc : constraintClash a b₁ = false := by
        cases hx : constraintClash a b₁ with
        | false => rfl
        | true => exact absurd (constraintClash_iff.mp hx) hs
      obtain ⟨w, cols, _, hw, _, hrun⟩ := mergeSame_ok ha hb₁ ht hra hrb₁ hr
      rw [hrun, hc, if_neg (by simp)]
      exact ⟨_, rfl⟩

/-- Exactly when a merge of well-formed models returns: if the types agree or the argument can be converted, no array has
different ranks, and no constraint label is in both. -/
theorem C40_success_iff_partial (ha : VarsOk a) (hb : VarsOk b) (hra : a.Rect) (hrb : b.Rect) (hu : b.names.Nodup) :
    (∃ s, (merge env clk).run (a, b) = .ok ⟨⟩ s) ↔
      (a.mtype = b.mtype ∨ Convertible env clk b) ∧ ¬RanksDiffer a b ∧ ¬SharesConstraint a b := by
  have hconv : a.mtype ≠ b.mtype → ((∃ b₁, (convertMtype env clk).run b = .ok ⟨⟩ b₁) ↔ Convertible env clk b) := by
    intro _
    rw [convertMtype_run]
    cases hm : b.mtype with
    | qubo => exact (C37_success_iff hrb hu).1 hm
    | ising => exact (C37_success_iff hrb hu).2 hm
  obtain ⟨h1, h2⟩ := C40_exact_partial (env := env) (clk := clk) ha hb hra hrb
  have hused : (∃ b₁, Used env clk a b b₁) ↔ (a.mtype = b.mtype ∨ Convertible env clk b) := by
    by_cases ht : a.mtype = b.mtype
    · exact ⟨fun _ => .inl ht, fun _ => ⟨b, .inl ⟨ht, rfl⟩⟩⟩
    · rw [← hconv ht]
      constructor
      · rintro ⟨b₁, ⟨h, _⟩ | ⟨_, h⟩⟩
        · exact absurd h ht
        · exact .inr ⟨b₁, h⟩
      · rintro (h | ⟨b₁, h⟩)
        · exact absurd h ht
        · exact ⟨b₁, .inr ⟨ht, h⟩⟩
  rw [← hused]
  constructor
  · rintro ⟨s, hs⟩
    have hex : ∃ b₁, Used env clk a b b₁ := by
      by_cases ht : a.mtype = b.mtype
      · exact ⟨b, .inl ⟨ht, rfl⟩⟩
      · cases hc : (convertMtype env clk).run b with
        | error e b₁ => rw [h1 e b₁ ht hc] at hs; cases hs
        | ok u b₁ => exact ⟨b₁, .inr ⟨ht, hc⟩⟩
    refine ⟨hex, fun hr => ?_, fun hr => ?_⟩
    · obtain ⟨b₁, hb₁⟩ := hex
      rw [(h2 b₁ hb₁).1 hr] at hs
      cases hs
    · obtain ⟨b₁, hb₁⟩ := hex
      by_cases hk : RanksDiffer a b
      · rw [(h2 b₁ hb₁).1 hk] at hs
        cases hs
      · obtain ⟨a₁, he, _⟩ := (h2 b₁ hb₁).2.1 hk hr
        rw [he] at hs
        cases hs
  · rintro ⟨⟨b₁, hb₁⟩, hr, hc⟩
    obtain ⟨a₁, h⟩ := (h2 b₁ hb₁).2.2 hr hc
    exact ⟨_, h⟩

/-- A merge leaves its argument as it is exactly if the types agree, whether it returns or raises. -/
theorem C40_argument_iff (hb : VarsOk b) : ((merge env clk).run (a, b)).state.2 = b ↔ a.mtype = b.mtype := by
  constructor
  · intro h
    by_contra ht
    have hs : ((merge env clk).run (a, b)).state.2 = ((convertMtype env clk).run b).state := by
      rw [merge_run, if_neg ht]
      cases hc : (convertMtype env clk).run b with
      | error e b₁ => rfl
      | ok u b₁ => exact mergeSame_snd a b₁
    rw [h] at hs
    have := (converted_frame (env := env) (clk := clk) hb hs.symm).1
    revert this
    cases b.mtype <;> simp [MType.other]
  · exact C40_argument_unchanged_partial

/-- A QUBO model and an Ising model with a common constraint label: the hypotheses hold, and the merge raises after it
changed the interactions. -/
example : ∃ s, (merge convEnv fun _ => 0).run (Ex.after mergeA (addConstraint (.nHot "one" 2 [Ex.b0] 1)),
      Ex.after mergeQ (addConstraint (.nHot "one" 2 [Ex.b0] 1))) = .error .valueError s ∧
    s.1.rows.length = 3 ∧ s.1.constraints.length = 1 ∧ s.2.mtype = .ising := by
  refine ⟨_, rfl, by decide +kernel, by decide +kernel, by decide +kernel⟩

end Sawatabi.Props
