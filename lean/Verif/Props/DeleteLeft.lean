import Verif.Props.DeleteFix
import Verif.Props.ConversionLeft

/-!
# What a deletion that raises leaves (C12)

`delete_variable` records the variable as deleted, then takes it out of the constraints one after the other, then removes the
interactions one after the other. An exception stops this in the middle.
-/

namespace Sawatabi.Props

variable {m m' : LModel} {v : PVar} {e : Err}

/-- A constraint without a variable. -/
def without (v : PVar) : Sawatabi.Constraint → Sawatabi.Constraint
  | .nHot l s vs n => .nHot l s (vs.filter (· ≠ v)) n
  | .zeroOrOneHot l s vs => .zeroOrOneHot l s (vs.filter (· ≠ v))
  | .equality l s a b => .equality l s a b

/-- The exception of a constraint that does not give up the variable. -/
def refusal : Sawatabi.Constraint → Err
  | .equality .. => .attributeError
  | _ => .valueError

theorem removeVariable_holds {c : Sawatabi.Constraint} (h : Constraint.Holds v c) : c.removeVariable v = .ok (without v c) := by
  cases h with
  | nHot l s vs n h => exact if_pos h
  | zeroOrOneHot l s vs h => exact if_pos h

theorem removeVariable_refuses {c : Sawatabi.Constraint} (h : ¬ Constraint.Holds v c) :
    c.removeVariable v = .error (refusal c) := by
  cases c with
  | nHot l s vs n => exact if_neg fun hv => h (.nHot _ _ _ _ hv)
  | zeroOrOneHot l s vs => exact if_neg fun hv => h (.zeroOrOneHot _ _ _ hv)
  | equality l s a b => rfl

theorem not_holds_without (c : Sawatabi.Constraint) : ¬ Constraint.Holds v (without v c) := by
  intro h
  cases c with
  | nHot l s vs n => cases h with | nHot _ _ _ _ h => simp at h
  | zeroOrOneHot l s vs => cases h with | zeroOrOneHot _ _ _ h => simp at h
  | equality l s a b => cases h

theorem constraintLoop (pre rest : List (String × Sawatabi.Constraint)) (m : LModel) (hm : m.constraints = pre ++ rest)
    (hn : (dkeys (pre ++ rest)).Nodup) :
    ((∀ p ∈ rest, Constraint.Holds v p.2) ∧ ((dkeys rest).forM (removeFromConstraint v)).run m =
        .ok ⟨⟩ { m with constraints := pre ++ rest.map fun p => (p.1, without v p.2) }) ∨
    ∃ done l bad tail, rest = done ++ (l, bad) :: tail ∧ (∀ p ∈ done, Constraint.Holds v p.2) ∧ ¬ Constraint.Holds v bad ∧
      ((dkeys rest).forM (removeFromConstraint v)).run m = .error (refusal bad)
        { m with constraints := pre ++ (done.map fun p => (p.1, without v p.2)) ++ (l, bad) :: tail } := by
  induction rest generalizing pre m with
  | nil =>
    left
    simp only [dkeys, List.map_nil, Py.run_forM_nil]
    rw [← hm]
    simp
  | cons p rest ih =>
    obtain ⟨l, c⟩ := p
    have hl : l ∉ dkeys pre := by
      simp only [dkeys, List.map_append, List.map_cons] at hn
      rw [List.nodup_append] at hn
      intro h
      exact hn.2.2 l h l (by simp) rfl
    have hget : dget m.constraints l = some c := by
      rw [hm, dget_append_right hl]
      simp [dget]
    have hstep : (removeFromConstraint v l).run m = match c.removeVariable v with
        | .error e => .error e m
        | .ok c' => .ok ⟨⟩ { m with constraints := pre ++ (l, c') :: rest } := by
      unfold removeFromConstraint
      py_simp
      rw [hget]
      simp only [Py.run_bind]
      cases c.removeVariable v with
      | error e => rfl
      | ok c' =>
        simp only [Py.run_liftE_ok, Py.run_set, hm, dset_append_right _ hl]
        simp [dset]
    have hcons : ((dkeys ((l, c) :: rest)).forM (removeFromConstraint v)).run m =
        ((l :: dkeys rest).forM (removeFromConstraint v)).run m := rfl
    rw [hcons, Py.run_forM_cons, hstep]
    by_cases hc : Constraint.Holds v c
    · rw [removeVariable_holds hc]
      simp only
      rcases ih (pre ++ [(l, without v c)]) { m with constraints := pre ++ (l, without v c) :: rest } (by simp)
        (by simpa [dkeys] using hn) with ⟨h1, h2⟩ | ⟨done, l', bad, tail, h1, h2, h3, h4⟩
      · left
        refine ⟨List.forall_mem_cons.mpr ⟨hc, h1⟩, ?_⟩
        rw [h2]
        simp
      · right
        refine ⟨(l, c) :: done, l', bad, tail, by rw [h1]; rfl, List.forall_mem_cons.mpr ⟨hc, h2⟩, h3, ?_⟩
        rw [h4]
        simp
    · right
      refine ⟨[], l, c, rest, rfl, by simp, hc, ?_⟩
      rw [removeVariable_refuses hc]
      simp only [List.map_nil, List.append_nil]
      rw [← hm]

/-- What `delete_variable(v)` leaves when it raises, on a model with a well-formed table, different names and different
constraint labels: `v` is recorded as deleted and taken out of the constraints before the one that refuses, or, if no
constraint refuses, out of all of them, and the interactions on `v` before the one with the empty name are removed. -/
theorem C12_left (hm : m.Rect) (hu : m.names.Nodup) (hc : (dkeys m.constraints).Nodup)
    (h : (deleteVariable v).run m = .error e m') :
    (∃ done l bad tail, m.constraints = done ++ (l, bad) :: tail ∧ (∀ p ∈ done, Constraint.Holds v p.2) ∧
      ¬ Constraint.Holds v bad ∧ e = refusal bad ∧
      m' = { m with deleted := sadd m.deleted v.label
                    constraints := (done.map fun p => (p.1, without v p.2)) ++ (l, bad) :: tail }) ∨
    ((∀ p ∈ m.constraints, Constraint.Holds v p.2) ∧ e = .valueError ∧
      ∃ done bad rest, (m.rows.filter fun r => r.inter.key0 = v.label || r.inter.key1 = some v.label) = done ++ bad :: rest ∧
        bad.name = "" ∧
        m' = { m with deleted := sadd m.deleted v.label
                      constraints := m.constraints.map fun p => (p.1, without v p.2)
                      rows := m.rows.map fun r => if r ∈ done then { r with removed := true, dirty := true } else r }) := by
  unfold deleteVariable at h
  py_simp at h
  rcases constraintLoop (v := v) [] m.constraints { m with deleted := sadd m.deleted v.label } rfl hc with
    ⟨h1, h2⟩ | ⟨done, l, bad, tail, h1, h2, h3, h4⟩
  · right
    rw [h2] at h
    simp only [List.nil_append] at h
    rw [selectByVariable_rect v (m := { m with deleted := sadd m.deleted v.label
                                               constraints := m.constraints.map fun p => (p.1, without v p.2) })
      (rect_same (m := m) hm rfl rfl rfl rfl)] at h
    simp only at h
    obtain ⟨l₁, n, l₂, s₁, hsplit, hok, herr⟩ := Py.forM_error _ h
    unfold touching at hsplit
    obtain ⟨done, t₁, hsp, rfl, ht₁⟩ := List.map_eq_append_iff.mp hsplit
    obtain ⟨bad, rest, rfl, rfl, rfl⟩ := List.map_eq_cons_iff.mp ht₁
    have hsub : ∀ r ∈ done, r ∈ m.rows := fun r hr => by
      have : r ∈ m.rows.filter (·.touches v.label) := by rw [hsp]; simp [hr]
      exact (List.mem_filter.mp this).1
    have hbad : bad ∈ m.rows := by
      have : bad ∈ m.rows.filter (·.touches v.label) := by rw [hsp]; simp
      exact (List.mem_filter.mp this).1
    rw [removeLoop_run _ { m with deleted := sadd m.deleted v.label
                                  constraints := m.constraints.map fun p => (p.1, without v p.2) } (removeLoop_ne hok) (fun n hn => by
      obtain ⟨r, hr, rfl⟩ := List.mem_map.mp hn
      exact List.mem_map.mpr ⟨r, hsub r hr, rfl⟩) hu] at hok
    cases hok
    have hrows : rmNames (done.map (·.name)) m.rows =
        m.rows.map fun r => if r ∈ done then { r with removed := true, dirty := true } else r := by
      unfold rmNames
      apply List.map_congr_left
      intro r hr
      have : r.name ∈ done.map (·.name) ↔ r ∈ done := by
        constructor
        · intro hn
          obtain ⟨r', hr', he⟩ := List.mem_map.mp hn
          rwa [← List.inj_on_of_nodup_map hu (hsub r' hr') hr he]
        · exact fun hn => List.mem_map.mpr ⟨r, hn, rfl⟩
      by_cases hd : r ∈ done
      · rw [if_pos (this.mpr hd), if_pos hd]
        rfl
      · rw [if_neg fun hn => hd (this.mp hn), if_neg hd]
    have hbn : bad.name = "" := by
      by_contra hne
      have := removeLoop_run [bad.name] { m with
          deleted := sadd m.deleted v.label
          constraints := m.constraints.map fun p => (p.1, without v p.2)
          rows := rmNames (done.map (·.name)) m.rows } (by simpa using hne) (by
            simp only [List.mem_singleton, forall_eq, LModel.names, rmNames_names]
            exact List.mem_map.mpr ⟨bad, hbad, rfl⟩) (by simp only [LModel.names, rmNames_names]; exact hu)
      rw [Py.run_forM_cons, herr] at this
      cases this
    rw [hbn, removeEmpty_run] at herr
    cases herr
    refine ⟨h1, rfl, done, bad, rest, ?_, hbn, ?_⟩
    · rw [← hsp]
      rfl
    · simp only [hrows]
  · left
    rw [h4] at h
    cases h
    exact ⟨done, l, bad, tail, h1, h2, h3, rfl, by simp⟩

theorem sadd_again (l : List String) (k : String) : sadd (sadd l k) k = sadd l k := by
  have : k ∈ sadd l k := by
    unfold sadd
    split
    · assumption
    · simp
  generalize sadd l k = l' at *
  unfold sadd
  rw [if_pos this]

/-- A deletion that raised raises again, and the second call changes nothing: if the first call got past a constraint, that
constraint does not contain the variable any more and refuses now. -/
theorem C12_retry (hm : m.Rect) (hu : m.names.Nodup) (hc : (dkeys m.constraints).Nodup)
    (h : (deleteVariable v).run m = .error e m') : ∃ e', (deleteVariable v).run m' = .error e' m' := by
  rcases C12_left hm hu hc h with ⟨done, l, bad, tail, h1, h2, h3, rfl, rfl⟩ | ⟨h1, rfl, done, bad, rest, h2, h3, rfl⟩
  · set m' : LModel := { m with deleted := sadd m.deleted v.label
                                constraints := (done.map fun p => (p.1, without v p.2)) ++ (l, bad) :: tail } with hm'
    have hkeys : dkeys m'.constraints = dkeys m.constraints := by
      rw [h1]
      simp [hm', dkeys, Function.comp_def]
    rcases constraintLoop (v := v) [] m'.constraints m' rfl (by rw [List.nil_append, hkeys]; exact hc) with
      ⟨g1, g2⟩ | ⟨done', l', bad', tail', g1, g2, g3, g4⟩
    · exact absurd (g1 (l, bad) (by simp [hm'])) h3
    · have hd' : done' = [] := by
        cases done' with
        | nil => rfl
        | cons p done' =>
          exfalso
          have hp := g2 p (by simp)
          cases done with
          | nil =>
            simp only [hm', List.map_nil, List.nil_append, List.cons_append, List.cons.injEq] at g1
            rw [← g1.1] at hp
            exact h3 hp
          | cons q done =>
            simp only [hm', List.map_cons, List.cons_append, List.cons.injEq] at g1
            rw [← g1.1] at hp
            exact not_holds_without _ hp
      subst hd'
      refine ⟨refusal bad', ?_⟩
      unfold deleteVariable
      py_simp
      have hdel : { m' with deleted := sadd m'.deleted v.label } = m' := by
        simp only [hm', sadd_again]
      rw [hdel, g4]
      simp only [List.map_nil, List.append_nil, List.nil_append]
      rw [List.nil_append] at g1
      rw [← g1]
  · set m' : LModel := { m with
        deleted := sadd m.deleted v.label
        constraints := m.constraints.map fun p => (p.1, without v p.2)
        rows := m.rows.map fun r => if r ∈ done then { r with removed := true, dirty := true } else r } with hm'
    have hkeys : dkeys m'.constraints = dkeys m.constraints := by
      simp [hm', dkeys, Function.comp_def]
    have hdel : { m' with deleted := sadd m'.deleted v.label } = m' := by
      simp only [hm', sadd_again]
    have hnames : m'.names = m.names := by
      simp only [hm', LModel.names, List.map_map]
      apply List.map_congr_left
      intro r _
      simp only [Function.comp]
      split <;> rfl
    cases hr : (deleteVariable v).run m' with
    | ok u t =>
      exfalso
      have := (C12_delete_iff (m := m') (rect_same hm rfl (by simp [hm']) rfl rfl) (by rw [hnames]; exact hu)
        (by rw [hkeys]; exact hc)).mp ⟨t, hr⟩
      have hb : bad ∈ m.rows.filter fun r => r.inter.key0 = v.label || r.inter.key1 = some v.label := by rw [h2]; simp
      obtain ⟨hb1, hb2⟩ := List.mem_filter.mp hb
      by_cases hd : bad ∈ done
      · exact this.2 { bad with removed := true, dirty := true }
          (List.mem_map.mpr ⟨bad, hb1, by rw [if_pos hd]⟩) (by simpa using hb2) h3
      · exact this.2 bad (List.mem_map.mpr ⟨bad, hb1, by rw [if_neg hd]⟩) (by simpa using hb2) h3
    | error e' t =>
      refine ⟨e', ?_⟩
      have hleft := C12_left (m := m') (rect_same hm rfl (by simp [hm']) rfl rfl) (by rw [hnames]; exact hu)
        (by rw [hkeys]; exact hc) hr
      suffices t = m' by rw [this]
      rcases hleft with ⟨done', l', bad', tail', g1, g2, g3, -, g4⟩ | ⟨g1, -, done', bad', rest', g2, g3, g4⟩
      · have hd' : done' = [] := by
          cases done' with
          | nil => rfl
          | cons p done' =>
            exfalso
            have hp := g2 p (by simp)
            have : p ∈ m'.constraints := by rw [g1]; simp
            obtain ⟨q, -, rfl⟩ := List.mem_map.mp (show p ∈ m.constraints.map fun p => (p.1, without v p.2) from this)
            exact not_holds_without _ hp
        subst hd'
        rw [g4]
        simp only [List.map_nil, List.nil_append] at g1 ⊢
        rw [← g1]
        exact hdel
      · have hcs : m'.constraints = [] := by
          cases hcm : m'.constraints with
          | nil => rfl
          | cons p cs =>
            exfalso
            have hmem : p ∈ m'.constraints := by rw [hcm]; simp
            obtain ⟨q, -, rfl⟩ := List.mem_map.mp (show p ∈ m.constraints.map fun p => (p.1, without v p.2) from hmem)
            exact not_holds_without _ (g1 _ hmem)
        -- the interactions before the one with the empty name are the removed ones
        have hrows : (m'.rows.map fun r => if r ∈ done' then { r with removed := true, dirty := true } else r) = m'.rows := by
          have hf : (m'.rows.filter fun r => r.inter.key0 = v.label || r.inter.key1 = some v.label) =
              (m.rows.filter fun r => r.inter.key0 = v.label || r.inter.key1 = some v.label).map
                fun r => if r ∈ done then { r with removed := true, dirty := true } else r := by
            simp only [hm', List.filter_map]
            congr 1
            apply List.filter_congr
            intro r _
            simp only [Function.comp]
            split <;> rfl
          rw [hf, h2, List.map_append, List.map_cons] at g2
          have hlen : done'.length ≤ done.length := by
            by_contra hlt
            have hnd : ((done ++ bad :: rest).map (·.name)).Nodup := by
              rw [← h2]
              exact names_sublist hu
            -- `bad` and `bad'` both have the empty name
            have hb : (done ++ bad :: rest)[done.length]? = some bad := by simp
            have e1 : ((done ++ bad :: rest).map (·.name))[done.length]? = some "" := by simp [h3]
            have e2 : ((done ++ bad :: rest).map (·.name))[done'.length]? = some "" := by
              have hg := congrArg (fun l => (l.map (·.name))[done'.length]?) g2
              simp only [List.map_append, List.map_cons, List.map_map] at hg
              have hmn : ∀ l : List Row, l.map ((fun r : Row => r.name) ∘ fun r =>
                  if r ∈ done then { r with removed := true, dirty := true } else r) = l.map (·.name) := by
                intro l
                apply List.map_congr_left
                intro r _
                simp only [Function.comp]
                split <;> rfl
              rw [hmn, hmn] at hg
              have hbn : (if bad ∈ done then { bad with removed := true, dirty := true } else bad).name = bad.name := by
                split <;> rfl
              rw [hbn] at hg
              rw [List.map_append, List.map_cons, hg]
              simp [g3]
            have := (List.getElem?_inj (by
              rw [List.length_map, List.length_append, List.length_cons]; omega) hnd).mp (e1.trans e2.symm)
            omega
          have hpre : ∀ r ∈ done', r.removed = true ∧ r.dirty = true := by
            intro r hr
            have hp : done' <+: done.map fun r => if r ∈ done then { r with removed := true, dirty := true } else r := by
              have hx : done' = (done' ++ bad' :: rest').take done'.length := by simp
              rw [hx, ← g2, List.take_append_of_le_length (by simpa using hlen)]
              exact List.take_prefix _ _
            obtain ⟨q, hq, rfl⟩ := List.mem_map.mp (hp.subset hr)
            rw [if_pos hq]
            exact ⟨rfl, rfl⟩
          conv_rhs => rw [← List.map_id m'.rows]
          apply List.map_congr_left
          intro r _
          by_cases hd : r ∈ done'
          · rw [if_pos hd]
            obtain ⟨q1, q2⟩ := hpre r hd
            cases r
            simp only at q1 q2
            subst q1 q2
            rfl
          · rw [if_neg hd]
            rfl
        rw [g4, hrows, hcs]
        have : ({ m' with deleted := sadd m'.deleted v.label, constraints := [] } : LModel) = m' := by
          rw [← hcs]
          exact hdel
        exact this

/-- The hypotheses hold: the first constraint gives up the variable, the second refuses, and then the first refuses. -/
example : let m := Ex.after Ex.qubo (do
      addConstraint (.nHot "c" 1 [Ex.b0, Ex.b1, Ex.b2] 1)
      addConstraint (.equality "d" 1 [Ex.b0] [Ex.b1]))
    m.Rect ∧ m.names.Nodup ∧ (dkeys m.constraints).Nodup ∧ ∃ m', (deleteVariable Ex.b0).run m = .error .attributeError m' ∧
      m'.constraints = [("c", .nHot "c" 1 [Ex.b1, Ex.b2] 1), ("d", .equality "d" 1 [Ex.b0] [Ex.b1])] ∧
      (deleteVariable Ex.b0).run m' = .error .valueError m' := by
  refine ⟨⟨by decide, by decide, by decide, by decide⟩, by decide, by decide, _, rfl, by decide, by decide⟩

end Sawatabi.Props
