import Verif.Lemmas.VarsInv

/-!
# Merging variables, tables and constraints
-/

namespace Sawatabi

/-- The shape `merge` arrives at. -/
theorem merge_shape {s c : List Nat} (h : s.length = c.length) :
    elementwiseAdd (c.map Int.ofNat) (elementwiseSub (elementwiseMax (s.map Int.ofNat) (c.map Int.ofNat)) (c.map Int.ofNat))
      = (List.zipWith max c s).map Int.ofNat := by
  induction s generalizing c with
  | nil => cases c with
    | nil => rfl
    | cons d c => simp at h
  | cons x s ih => cases c with
    | nil => simp at h
    | cons d c =>
      have := ih (c := c) (by simpa using h)
      simp only [elementwiseAdd, elementwiseSub, elementwiseMax] at this ⊢
      simp only [List.map_cons, List.zipWith_cons_cons, this, List.cons.injEq, and_true, Int.ofNat_eq_natCast]
      omega

/-- The array of a name after a merge. -/
def joinArray (vt : VType) (n : String) : Option VArray → Option VArray → Option VArray
  | none, y => y
  | some x, none => some x
  | some x, some y => some (stdArray n (List.zipWith max x.shape y.shape) vt)

theorem mergeVar_ok {p : String × VArray} {m : LModel} (hm : VarsOk m) (hp : ArrayOk m.mtype.vtype p.1 p.2)
    (hr : ∀ cur, dget m.vars p.1 = some cur → cur.shape.length = p.2.shape.length) :
    ∃ vs, (mergeVar p).run m = .ok ⟨⟩ { m with vars := vs } ∧
      dget vs p.1 = joinArray m.mtype.vtype p.1 (dget m.vars p.1) (some p.2) ∧
      ∀ k, k ≠ p.1 → dget vs k = dget m.vars k := by
  rw [mergeVar_run]
  cases h : dget m.vars p.1 with
  | none => exact ⟨_, rfl, dget_dset_self _ _ _, fun k hk => dget_dset_ne _ _ hk⟩
  | some cur =>
    simp only
    have hl := hr cur h
    obtain ⟨_, hne, hpos, hstar⟩ := hm.get h
    obtain ⟨_, hne', hpos', _⟩ := hp
    have hd : elementwiseSub (elementwiseMax (p.2.shape.map Int.ofNat) (cur.shape.map Int.ofNat)) (cur.shape.map Int.ofNat) ≠ [] := by
      intro h0
      have := congrArg List.length h0
      simp [elementwiseSub, elementwiseMax, hl] at this
      exact hne' this
    have hc : ∀ (vt : VType), arrayCreate p.1 ((List.zipWith max cur.shape p.2.shape).map Int.ofNat) vt =
        .ok (stdArray p.1 (List.zipWith max cur.shape p.2.shape) vt) := by
      intro vt
      refine arrayCreate_of_ok (vt := vt) (a := stdArray p.1 (List.zipWith max cur.shape p.2.shape) vt)
        ⟨stdArray_isArray _ _ _, ?_, ?_, hstar⟩
      · intro h0
        have := congrArg List.length h0
        simp [stdArray, hl] at this
        exact hne' this
      · intro d hd
        simp only [stdArray] at hd
        obtain ⟨i, hi⟩ := List.mem_iff_getElem?.mp hd
        rw [List.getElem?_zipWith] at hi
        cases h1 : cur.shape[i]? with
        | none => rw [h1] at hi; simp at hi
        | some x =>
          cases h2 : p.2.shape[i]? with
          | none => rw [h1, h2] at hi; simp at hi
          | some y =>
            rw [h1, h2] at hi
            simp only [Option.some.injEq] at hi
            have := hpos x (List.mem_of_getElem? h1)
            omega
    rw [appendVars_run, h, if_neg hd]
    simp only [merge_shape hl.symm, hc]
    exact ⟨_, rfl, dget_dset_self _ _ _, fun k hk => dget_dset_ne _ _ hk⟩

theorem mergeVars_ok (vs : List (String × VArray)) (m : LModel) (hm : VarsOk m) (hk : (dkeys vs).Nodup)
    (hvs : ∀ p ∈ vs, ArrayOk m.mtype.vtype p.1 p.2)
    (hr : ∀ p ∈ vs, ∀ cur, dget m.vars p.1 = some cur → cur.shape.length = p.2.shape.length) :
    ∃ w, (vs.forM mergeVar).run m = .ok ⟨⟩ { m with vars := w } ∧ VarsOk { m with vars := w } ∧
      ∀ n, dget w n = joinArray m.mtype.vtype n (dget m.vars n) (dget vs n) := by
  induction vs generalizing m with
  | nil =>
    refine ⟨m.vars, rfl, hm, ?_⟩
    intro n
    cases h : dget m.vars n <;> simp [dget, joinArray]
  | cons p vs ih =>
    obtain ⟨w₁, h1, h2, h3⟩ := mergeVar_ok hm (hvs p (by simp)) (hr p (by simp))
    have hok := mergeVar_varsOk p m hm (hvs p (by simp))
    rw [h1] at hok
    have hk' := List.nodup_cons.mp hk
    obtain ⟨w, hw1, hw2, hw3⟩ := ih { m with vars := w₁ } hok hk'.2 (fun q hq => hvs q (by simp [hq])) (by
      intro q hq cur hc
      simp only at hc
      rw [h3 q.1 (by
        intro he
        apply hk'.1
        show p.1 ∈ dkeys vs
        rw [← he]
        exact List.mem_map_of_mem (f := (·.1)) hq)] at hc
      exact hr q (by simp [hq]) cur hc)
    refine ⟨w, ?_, hw2, ?_⟩
    · rw [Py.run_forM_cons, h1]
      exact hw1
    · intro n
      rw [hw3 n]
      simp only
      obtain ⟨k, b⟩ := p
      simp only [dget]
      by_cases hn : k = n
      · subst hn
        rw [if_pos rfl, h2, (dget_eq_none_iff vs k).mpr hk'.1]
        cases dget m.vars k <;> rfl
      · rw [if_neg hn, h3 n (fun h => hn h.symm)]

theorem rankClash_false {a b : LModel} (ha : (dkeys a.vars).Nodup) : rankClash a b = false ↔
    ∀ n x y, dget a.vars n = some x → dget b.vars n = some y → x.shape.length = y.shape.length := by
  unfold rankClash
  rw [List.any_eq_false]
  constructor
  · intro h n x y hx hy
    have := h (n, x) (dget_mem hx)
    simp only [hy] at this
    simpa using this
  · rintro h ⟨n, x⟩ hp
    have hx := dget_of_mem ha hp
    simp only
    cases hy : dget b.vars n with
    | none => simp
    | some y => simpa using h n x y hx hy

/-- The whole merge of two models of the same type, under the invariants. -/
theorem mergeSame_ok {a b : LModel} (ha : VarsOk a) (hb : VarsOk b) (ht : a.mtype = b.mtype) (hra : a.Rect) (hrb : b.Rect)
    (hr : rankClash a b = false) :
    ∃ w cols, VarsOk { a with vars := w } ∧ (∀ n, dget w n = joinArray a.mtype.vtype n (dget a.vars n) (dget b.vars n)) ∧
      (mergedAttrs a b).mapM (mergedCol a b) = .ok cols ∧
      mergeSame.run (a, b) = if constraintClash a b then .error .valueError (mergedTable { a with vars := w } b cols, b)
        else .ok ⟨⟩ (mergedRest (mergedTable { a with vars := w } b cols) b, b) := by
  obtain ⟨w, h1, h2, h3⟩ := mergeVars_ok b.vars a ha hb.keys (by
      intro p hp
      rw [ht]
      exact hb.arrays p.1 p.2 hp) (by
      intro p hp cur hc
      exact (rankClash_false ha.keys).mp hr p.1 cur p.2 hc (dget_of_mem hb.keys hp))
  obtain ⟨cols, hc⟩ := mergedCols_ok hra hrb
  refine ⟨w, cols, h2, h3, hc, ?_⟩
  rw [mergeSame_run, hr, if_neg (by simp), h1]
  simp only
  rw [show mergedAttrs { a with vars := w } b = mergedAttrs a b from rfl,
    show mergedCol { a with vars := w } b = mergedCol a b from rfl, hc]
  rfl

/-- The argument of a merge of equal types is untouched. -/
theorem mergeSame_snd (a b : LModel) : (mergeSame.run (a, b)).state.2 = b := by
  rw [mergeSame_run]
  split
  · rfl
  · cases (b.vars.forM mergeVar).run a with
    | error e a₁ => rfl
    | ok u a₁ =>
      simp only
      cases (mergedAttrs a₁ b).mapM (mergedCol a₁ b) with
      | error e => rfl
      | ok cols =>
        simp only
        split <;> rfl

/-- Shape of a successful merge of equal types. -/
theorem mergeSame_eq {a b : LModel} {s : LModel × LModel} (h : mergeSame.run (a, b) = .ok ⟨⟩ s) :
    ∃ w cols, (mergedAttrs a b).mapM (mergedCol a b) = .ok cols ∧ constraintClash a b = false ∧
      s = (mergedRest (mergedTable { a with vars := w } b cols) b, b) := by
  rw [mergeSame_run] at h
  split at h
  · cases h
  · have hv := mergeVars_rel b.vars a
    cases hr : (b.vars.forM mergeVar).run a with
    | error e a₁ => rw [hr] at h; cases h
    | ok u a₁ =>
      rw [hr] at h hv
      obtain ⟨w, rfl⟩ := hv
      simp only at h
      cases hc : (mergedAttrs { a with vars := w } b).mapM (mergedCol { a with vars := w } b) with
      | error e => simp only [Res.state, hc] at h; cases h
      | ok cols =>
        simp only [Res.state, hc] at h
        split at h
        · cases h
        · rename_i hcc
          cases h
          exact ⟨w, cols, hc, (Bool.not_eq_true _).mp hcc, rfl⟩

/-- A row without its name. -/
def Row.anon (r : Row) : Row := { r with name := "" }

theorem mergedRows_anon (a b : LModel) : (mergedRows a b).map Row.anon = (a.rows ++ b.rows).map Row.anon := by
  unfold mergedRows
  rw [List.map_map]
  conv_rhs => rw [← List.zipIdx_map_fst 0 (a.rows ++ b.rows), List.map_map]
  apply List.map_congr_left
  intro p _
  simp only [Function.comp]
  split <;> rfl

theorem sum_map_anon (f : Row → ℚ) (hf : ∀ r, f r.anon = f r) (l : List Row) :
    ((l.map Row.anon).map f).sum = (l.map f).sum := by
  rw [List.map_map]
  congr 1
  apply List.map_congr_left
  intro r _
  exact hf r

theorem mergedRows_sum (f : Row → ℚ) (hf : ∀ r, f r.anon = f r) (a b : LModel) :
    ((mergedRows a b).map f).sum = (a.rows.map f).sum + (b.rows.map f).sum := by
  rw [← sum_map_anon f hf, mergedRows_anon, sum_map_anon f hf, List.map_append, List.sum_append]

theorem dget_dupdate {κ ν : Type} [DecidableEq κ] (d e : List (κ × ν)) (he : (dkeys e).Nodup) (k : κ) :
    dget (dupdate d e) k = (dget e k).or (dget d k) := by
  induction e generalizing d with
  | nil => rfl
  | cons p e ih =>
    obtain ⟨k', v⟩ := p
    have he' := List.nodup_cons.mp he
    have := ih (dset d k' v) he'.2
    simp only [dupdate] at this
    simp only [dupdate, List.foldl_cons, this, dget]
    by_cases h : k' = k
    · subst h
      rw [if_pos rfl, (dget_eq_none_iff e k').mpr he'.1, dget_dset_self]
      rfl
    · rw [if_neg h, dget_dset_ne _ _ (fun hh => h hh.symm)]

theorem mapM_lookup {a b : LModel} {l : List String} {cols : List (String × List PyVal)}
    (h : l.mapM (mergedCol a b) = .ok cols) {k : String} (hk : k ∈ l) :
    ∃ c, dget cols k = some c ∧ mergedCol a b k = .ok (k, c) := by
  have := mapM_except_ok h
  clear h
  induction this with
  | nil => cases hk
  | @cons x p l cols hx hrest ih =>
    obtain ⟨k', c⟩ := p
    have h1 := mergedCol_fst hx
    simp only at h1
    subst h1
    simp only [dget]
    by_cases hkk : k' = k
    · subst hkk
      rw [if_pos rfl]
      exact ⟨c, rfl, hx⟩
    · rw [if_neg hkk]
      rcases List.mem_cons.mp hk with rfl | hk
      · exact absurd rfl hkk
      · exact ih hk

end Sawatabi
