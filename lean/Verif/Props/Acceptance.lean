import Verif.Lemmas.Update
import Verif.Lemmas.Conv
import Verif.Spec.Acceptance
import Verif.Props.Interactions
import Verif.Props.EndToEnd

/-!
# C85: which arguments add, update and remove reject
-/

namespace Sawatabi.Props

variable {m m' : LModel} {now importTime : ℚ} {target : PyTarget} {name : PyName}

/-- Every list of reasons decides. -/
theorem decides_total (l : List (Prop × Err)) : ∃ r, Decides l r := by
  induction l with
  | nil => exact ⟨_, .nothing⟩
  | cons a l ih =>
    obtain ⟨p, e⟩ := a
    by_cases h : p
    · exact ⟨_, .hit h⟩
    · obtain ⟨r, hr⟩ := ih
      exact ⟨r, .skip h hr⟩

/-- It decides for one outcome. -/
theorem decides_unique {l : List (Prop × Err)} {r r' : Option Err} (h : Decides l r) (h' : Decides l r') : r = r' := by
  induction h with
  | nothing => cases h'; rfl
  | hit hp =>
    cases h' with
    | hit _ => rfl
    | skip hn _ => exact absurd hp hn
  | skip hn _ ih =>
    cases h' with
    | hit hp => exact absurd hp hn
    | skip _ t => exact ih t

theorem truthy_iff (t : PyTarget) : t.truthy = true ↔ t.Given := by
  unfold PyTarget.Given PyTarget.truthy
  cases t with
  | tuple l => cases l <;> simp
  | _ => simp

theorem name_truthy_iff (n : PyName) : n.truthy = true ↔ n.Given := by
  unfold PyName.Given PyName.truthy
  cases n <;> simp

theorem getInfo_typeError {t : PyTarget} (h : ¬ t.WellTyped) : getInfo t = .error .typeError := by
  match t with
  | .var v => exact absurd (Or.inl ⟨v, rfl⟩) h
  | .none => rfl
  | .other => rfl
  | .falsy => rfl
  | .tuple [] => rfl
  | .tuple [_] => rfl
  | .tuple (_ :: _ :: _ :: _) => rfl
  | .tuple [none, none] => rfl
  | .tuple [some _, none] => rfl
  | .tuple [none, some _] => rfl
  | .tuple [some v, some w] => exact absurd (Or.inr ⟨v, w, rfl⟩) h

theorem getInfo_valueError {t : PyTarget} (h : t.SameLabel) : getInfo t = .error .valueError := by
  obtain ⟨v, w, rfl, h⟩ := h
  simp [getInfo, h]

theorem getInfo_denotes {t : PyTarget} (h : t.WellTyped) (h' : ¬ t.SameLabel) : ∃ i, t.Denotes i ∧ getInfo t = .ok i := by
  rcases h with ⟨v, rfl⟩ | ⟨v, w, rfl⟩
  · exact ⟨_, .var v, rfl⟩
  · have hne : v.label ≠ w.label := fun hh => h' ⟨v, w, rfl, hh⟩
    rcases lt_or_gt_of_ne hne with hlt | hlt
    · exact ⟨_, .pair v w hlt, getInfo_ok_iff.mpr (.pair v w hlt)⟩
    · exact ⟨_, .swapped w v hlt, getInfo_ok_iff.mpr (.swapped w v hlt)⟩

theorem checkNum?_bad {c : Option PyCoef} (h : NotNumber c) : checkNum? c = .error .typeError := by
  obtain ⟨x, rfl, h⟩ := h
  cases x with
  | num q => exact absurd rfl (h q)
  | _ => rfl

theorem checkNum?_good {c : Option PyCoef} (h : ¬ NotNumber c) : ∃ q, checkNum? c = .ok q := by
  cases c with
  | none => exact ⟨_, rfl⟩
  | some x =>
    cases x with
    | num q => exact ⟨_, rfl⟩
    | expr e => exact absurd ⟨_, rfl, by simp⟩ h
    | bad => exact absurd ⟨_, rfl, by simp⟩ h

theorem names_default (i : Inter) : PyName.Names (.str "") i i.defaultName := by
  cases i with
  | lin v => exact .lin v
  | quad v w => exact .quad v w

theorem eq_of_names {i : Inter} {n : String} (h : PyName.Names (.str "") i n) : n = i.defaultName := by
  cases h with
  | given _ _ h => exact absurd rfl h
  | lin v => rfl
  | quad v w => rfl

theorem denotes_unique {t : PyTarget} {i j : Inter} (hi : t.Denotes i) (hj : t.Denotes j) : i = j := by
  have h1 := getInfo_ok_iff.mpr hi
  rw [getInfo_ok_iff.mpr hj] at h1
  exact (Except.ok.inj h1).symm

theorem isRemoved_gone {n : String} (h : m.IsGone n) : m.isRemoved n = .ok true := by
  obtain ⟨pre, r, post, hrows, hpre, hn, hr⟩ := h
  have hi : m.indexOf n = .ok pre.length := by
    unfold LModel.indexOf
    rw [hrows, List.findIdx?_append]
    have : pre.findIdx? (·.name = n) = none := by
      rw [List.findIdx?_eq_none_iff]
      intro x hx
      simpa using hpre x hx
    rw [this]
    simp [List.findIdx?_cons, hn]
  have hl : pre.length < m.rows.length := by rw [hrows]; simp
  rw [isRemoved_of hi hl]
  have : m.rows[pre.length] = r := by simp [hrows]
  rw [this, hr]

theorem isRemoved_not_gone {n : String} (hn : n ∈ m.names) (h : ¬ m.IsGone n) : m.isRemoved n = .ok false ∧
    ∃ i, m.indexOf n = .ok i ∧ i < m.rows.length := by
  obtain ⟨i, hi⟩ := indexOf_of_hasName ((hasName_iff m n).mpr hn)
  obtain ⟨hl, hname⟩ := indexOf_ok hi
  refine ⟨?_, i, hi, hl⟩
  rw [isRemoved_of hi hl]
  cases hr : m.rows[i].removed with
  | false => rfl
  | true =>
    refine absurd ⟨m.rows.take i, m.rows[i], m.rows.drop (i + 1), ?_, ?_, hname, hr⟩ h
    · simp
    · intro x hx hxn
      unfold LModel.indexOf at hi
      cases hf : m.rows.findIdx? (·.name = n) with
      | none => rw [hf] at hi; cases hi
      | some j =>
        rw [hf] at hi
        cases hi
        rw [List.findIdx?_eq_some_iff_getElem] at hf
        obtain ⟨_, _, hmin⟩ := hf
        obtain ⟨k, hk, rfl⟩ := List.mem_iff_getElem.mp hx
        have hkj : k < i := by simp at hk; omega
        have := hmin k hkj
        simp at hxn this
        exact this hxn

/-- The exception of the checks. -/
theorem addChecks_raises {c s : PyCoef} {attributes : PyAttrs} {ts : PyTs} {e : Err}
    (h : Decides (addReasons m target name c s attributes ts) (some e)) :
    addChecks now m target name c s attributes ts = .error e := by
  unfold addReasons at h
  unfold addChecks
  rcases h with _ | h | ⟨h1, h⟩
  · rw [if_pos (by simpa using (truthy_iff target).not.mpr h)]
  rw [if_neg (by simpa using (truthy_iff target).mpr (not_not.mp h1))]
  rcases h with _ | h | ⟨h2, h⟩
  · rw [h]; rfl
  obtain ⟨c', hc'⟩ : ∃ c', checkCoef c = .ok c' := by cases c <;> first | exact ⟨_, rfl⟩ | exact absurd rfl h2
  simp only [hc']
  rcases h with _ | h | ⟨h3, h⟩
  · rw [h]; rfl
  obtain ⟨s', hs'⟩ : ∃ s', checkCoef s = .ok s' := by cases s <;> first | exact ⟨_, rfl⟩ | exact absurd rfl h3
  simp only [hs']
  rcases h with _ | h | ⟨h4, h⟩
  · rw [h]; rfl
  obtain ⟨a', ha'⟩ : ∃ a', addAttrs attributes = .ok a' := by
    cases attributes <;> first | exact ⟨_, rfl⟩ | exact absurd rfl h4
  simp only [ha']
  rcases h with _ | h | ⟨h5, h⟩
  · rw [h]; rfl
  obtain ⟨t', ht'⟩ : ∃ t', addTs now ts = .ok t' := by cases ts <;> first | exact ⟨_, rfl⟩ | exact absurd rfl h5
  simp only [ht']
  rcases h with _ | h | ⟨h6, h⟩
  · rw [getInfo_typeError h]
  rcases h with _ | h | ⟨h7, h⟩
  · rw [getInfo_valueError h]
  obtain ⟨i, hd, hi⟩ := getInfo_denotes (not_not.mp h6) h7
  simp only [hi]
  rcases h with _ | h | ⟨h8, h⟩
  · cases name with
    | str n => exact absurd rfl (h n)
    | tuple => rfl
    | other => rfl
  rcases h with _ | h | ⟨_, h⟩
  · obtain ⟨j, n, hj, hn, hmem⟩ := h
    cases denotes_unique hd hj
    have : addName name i = .ok n := by
      cases hn with
      | given _ _ h => simp [addName, PyName.truthy, h]
      | lin v => rfl
      | quad v w => rfl
    simp only [this]
    rw [if_pos ((hasName_iff m n).mpr hmem)]
  · cases h

/-- **C85** for `add_interaction`: if a reason to reject the arguments holds, the call raises the exception of the first
one and leaves the model as it was; if none holds, it returns (on a rectangular table, see C08; missing: other tables, where it can raise
IndexError, see `C85_ragged_refuted`). -/
theorem C85_add_partial {c s : PyCoef} {attributes : PyAttrs} {ts : PyTs} {r : Option Err}
    (h : Decides (addReasons m target name c s attributes ts) r) :
    (∀ e, r = some e → (addInteraction now target name c s attributes ts).run m = .error e m) ∧
      (r = none → m.Rect → ∃ m', (addInteraction now target name c s attributes ts).run m = .ok ⟨⟩ m') := by
  constructor
  · rintro e rfl
    rw [addInteraction_run, addChecks_raises h]
  · rintro rfl hm
    rw [C02_add_succeeds_iff hm]
    unfold addReasons at h
    rcases h with _ | _ | ⟨h1, h⟩
    rcases h with _ | _ | ⟨h2, h⟩
    rcases h with _ | _ | ⟨h3, h⟩
    rcases h with _ | _ | ⟨h4, h⟩
    rcases h with _ | _ | ⟨h5, h⟩
    rcases h with _ | _ | ⟨h6, h⟩
    rcases h with _ | _ | ⟨h7, h⟩
    rcases h with _ | _ | ⟨h8, h⟩
    rcases h with _ | _ | ⟨h9, h⟩
    obtain ⟨i, hd, _⟩ := getInfo_denotes (not_not.mp h6) h7
    have hn : ∃ n, name.Names i n := by
      cases name with
      | str n =>
        by_cases hn : n = ""
        · subst hn; exact ⟨_, names_default i⟩
        · exact ⟨n, .given n i hn⟩
      | tuple => exact absurd (by simp) h8
      | other => exact absurd (by simp) h8
    obtain ⟨n, hn⟩ := hn
    exact ⟨⟨i, n, hd, hn, fun hmem => h9 ⟨i, n, hd, hn, hmem⟩⟩, h2, h3, h4, h5⟩

/-- An existing interaction is found by the name resolution of remove. -/
theorem internalName_resolves {n : String} (h : Resolves m target name n) : internalName m target name = .ok n := by
  cases h with
  | byName n t ht hn hm =>
    subst ht
    have h1 : (PyName.str n).truthy = true := (name_truthy_iff _).mpr (by simpa [PyName.Given] using hn)
    simp [internalName, PyTarget.truthy, h1, optInfo, (hasName_iff m n).mpr hm, bind, Except.bind, pure, Except.pure]
  | byTarget t i n hd hn hm =>
    have h1 : target.truthy = true := Denotes_truthy hd
    have h2 : (PyName.str "").truthy = false := rfl
    have h3 : target ≠ .none := by rintro rfl; cases hd
    simp [internalName, h1, h2, optInfo, h3, getInfo_ok_iff.mpr hd, ← eq_of_names hn, (hasName_iff m n).mpr hm, bind,
      Except.bind, pure, Except.pure]

theorem internalName_raises {e : Err} (h : Decides (removeReasons m target name) (some e)) :
    internalName m target name = .error e := by
  unfold removeReasons at h
  unfold internalName
  rcases h with _ | h | ⟨h1, h⟩
  · rw [← truthy_iff, ← name_truthy_iff] at h
    simp only [Bool.not_eq_true] at h
    simp [h.1, h.2, throw, throwThe, MonadExceptOf.throw, bind, Except.bind]
  rcases h with _ | h | ⟨h2, h⟩
  · rw [← truthy_iff, ← name_truthy_iff] at h
    simp [h.1, h.2, throw, throwThe, MonadExceptOf.throw, bind, Except.bind]
  rw [← truthy_iff, ← name_truthy_iff] at h1 h2
  have e1 : (!target.truthy && !name.truthy) = false := by
    simp only [Bool.not_eq_true] at h1
    cases ht : target.truthy <;> cases hn : name.truthy <;> simp_all
  have e2 : (target.truthy && name.truthy) = false := by
    cases ht : target.truthy <;> cases hn : name.truthy <;> simp_all
  simp only [e1, e2, Bool.false_eq_true, if_false, bind, Except.bind, pure, Except.pure]
  rcases h with _ | h | ⟨h3, h⟩
  · rw [optInfo, if_neg h.1, getInfo_typeError h.2]
  rcases h with _ | h | ⟨h4, h⟩
  · have : target ≠ .none := by obtain ⟨v, w, rfl, _⟩ := h; simp
    rw [optInfo, if_neg this, getInfo_valueError h]
  rcases h with _ | h | ⟨h5, h⟩
  · subst h
    have ht : target.truthy = false := by simpa [PyName.truthy] using e2
    have : target = .none := by
      by_contra hne
      have hw : target.WellTyped := by_contra fun hw => h3 ⟨hne, hw⟩
      rcases hw with ⟨v, rfl⟩ | ⟨v, w, rfl⟩ <;> cases ht
    subst this
    rfl
  rcases h with _ | h | ⟨_, h⟩
  · by_cases hnone : target = .none
    · subst hnone
      have hn : name.truthy = true := by simpa [PyTarget.truthy] using e1
      simp only [optInfo, if_true, hn]
      cases name with
      | other => exact absurd rfl h5
      | tuple => rfl
      | str n =>
        have hne : n ≠ "" := by simpa [PyName.truthy] using hn
        have : m.hasName n = false := by
          by_contra hh
          exact h ⟨n, .byName n _ rfl hne ((hasName_iff m n).mp (by simpa using hh))⟩
        simp [this, throw, throwThe, MonadExceptOf.throw]
    · have hw : target.WellTyped := by_contra fun hw => h3 ⟨hnone, hw⟩
      obtain ⟨i, hd, hi⟩ := getInfo_denotes hw h4
      have hn : name.truthy = false := by simpa [Denotes_truthy hd] using e2
      have hname : name = .str "" := by
        cases name with
        | str n => simpa [PyName.truthy] using hn
        | tuple => cases hn
        | other => cases hn
      subst hname
      have : m.hasName i.defaultName = false := by
        by_contra hh
        exact h ⟨_, .byTarget _ i _ hd (names_default i) ((hasName_iff m _).mp (by simpa using hh))⟩
      simp [optInfo, hnone, hi, hn, this, throw, throwThe, MonadExceptOf.throw]
  · cases h

/-- **C85** for `remove_interaction`: as for add, on any model. -/
theorem C85_remove {r : Option Err} (h : Decides (removeReasons m target name) r) :
    (∀ e, r = some e → (removeInteraction target name).run m = .error e m) ∧
      (r = none → ∃ m', (removeInteraction target name).run m = .ok ⟨⟩ m') := by
  constructor
  · rintro e rfl
    rw [removeInteraction_run, internalName_raises h]
  · rintro rfl
    unfold removeReasons at h
    rcases h with _ | _ | ⟨h1, h⟩
    rcases h with _ | _ | ⟨h2, h⟩
    rcases h with _ | _ | ⟨h3, h⟩
    rcases h with _ | _ | ⟨h4, h⟩
    rcases h with _ | _ | ⟨h5, h⟩
    rcases h with _ | _ | ⟨h6, h⟩
    obtain ⟨n, hn⟩ := not_not.mp h6
    have hmem : n ∈ m.names := by cases hn <;> assumption
    obtain ⟨i, hi⟩ := indexOf_of_hasName ((hasName_iff m n).mpr hmem)
    rw [removeInteraction_run, internalName_resolves hn]
    simp only [hi]
    exact ⟨_, rfl⟩

/-- **C85** for `get_attributes`: the same arguments are rejected. -/
theorem C85_getAttributes {e : Err} (h : Decides (removeReasons m target name) (some e)) :
    m.getAttributes target name = .error e := by
  unfold LModel.getAttributes
  rw [internalName_raises h]
  rfl

/-- What the checks of update find out before they resolve the name. -/
theorem updateChecks_prefix {c s : Option PyCoef} {attributes : PyAttrs} {ts : Option PyTs} {r : Option Err}
    (h : Decides (updateReasons m target name c s attributes ts) r) :
    (∃ e, r = some e ∧ updateChecks importTime m target name c s attributes ts = .error e) ∨
    ((target = .none ∧ name.Given ∨ name = .str "" ∧ ∃ i, target.Denotes i) ∧ ts.getD (.num importTime) ≠ .bad ∧
      Decides [(name.Given ∧ ¬ ∃ n, Resolves m target name n, .keyError),
        (∃ n, Resolves m target name n ∧ m.IsGone n, .valueError)] r ∧
      ∃ info?, optInfo target = .ok info? ∧ ∃ c' s', updateChecks importTime m target name c s attributes ts =
        match updateName m info? name with
        | .error e => .error e
        | .ok none => .ok (.add (Option.getD c' 0) (Option.getD s' 1) (ts.getD (.num importTime)))
        | .ok (some n) =>
          match m.isRemoved n with
          | .error e => .error e
          | .ok true => .error .valueError
          | .ok false =>
            match m.indexOf n with
            | .error e => .error e
            | .ok idx => .ok (.write idx c' s' attributes.entries (ts.getD (.num importTime)).stored)) := by
  unfold updateReasons at h
  unfold updateChecks
  rcases h with _ | h | ⟨h1, h⟩
  · rw [← truthy_iff, ← name_truthy_iff] at h
    simp only [Bool.not_eq_true] at h
    exact .inl ⟨_, rfl, by simp [h.1, h.2]⟩
  rcases h with _ | h | ⟨h2, h⟩
  · rw [← truthy_iff, ← name_truthy_iff] at h
    exact .inl ⟨_, rfl, by simp [h.1, h.2]⟩
  rw [← truthy_iff, ← name_truthy_iff] at h1 h2
  have e1 : (!target.truthy && !name.truthy) = false := by
    simp only [Bool.not_eq_true] at h1
    cases ht : target.truthy <;> cases hn : name.truthy <;> simp_all
  have e2 : (target.truthy && name.truthy) = false := by
    cases ht : target.truthy <;> cases hn : name.truthy <;> simp_all
  simp only [e1, e2, Bool.false_eq_true, if_false]
  rcases h with _ | h | ⟨h3, h⟩
  · exact .inl ⟨_, rfl, by rw [checkNum?_bad h]⟩
  obtain ⟨c', hc'⟩ := checkNum?_good h3
  simp only [hc']
  rcases h with _ | h | ⟨h4, h⟩
  · exact .inl ⟨_, rfl, by rw [checkNum?_bad h]⟩
  obtain ⟨s', hs'⟩ := checkNum?_good h4
  simp only [hs']
  rcases h with _ | h | ⟨h5, h⟩
  · exact .inl ⟨_, rfl, by rw [if_pos h]⟩
  rw [if_neg h5]
  rcases h with _ | h | ⟨h6, h⟩
  · exact .inl ⟨_, rfl, by subst h; rfl⟩
  have ht : ts.getD (.num importTime) ≠ .bad := by
    cases ts with
    | none => simp
    | some t => simpa using h6
  simp only [if_neg ht]
  rcases h with _ | h | ⟨h7, h⟩
  · exact .inl ⟨_, rfl, by rw [optInfo, if_neg h.1, getInfo_typeError h.2]⟩
  rcases h with _ | h | ⟨h8, h⟩
  · have : target ≠ .none := by obtain ⟨v, w, rfl, _⟩ := h; simp
    exact .inl ⟨_, rfl, by rw [optInfo, if_neg this, getInfo_valueError h]⟩
  right
  by_cases hnone : target = .none
  · have hn : name.truthy = true := by subst hnone; simpa [PyTarget.truthy] using e1
    refine ⟨.inl ⟨hnone, (name_truthy_iff _).mp hn⟩, ht, h, none, by rw [optInfo, if_pos hnone], c', s', ?_⟩
    simp only [optInfo, if_pos hnone]
    rfl
  · have hw : target.WellTyped := by_contra fun hw => h7 ⟨hnone, hw⟩
    obtain ⟨i, hd, hi⟩ := getInfo_denotes hw h8
    have hn : name.truthy = false := by simpa [Denotes_truthy hd] using e2
    have hname : name = .str "" := by
      cases name with
      | str n => simpa [PyName.truthy] using hn
      | tuple => cases hn
      | other => cases hn
    refine ⟨.inr ⟨hname, i, hd⟩, ht, h, some i, by rw [optInfo, if_neg hnone, hi], c', s', ?_⟩
    simp only [optInfo, if_neg hnone, hi]
    rfl

theorem updateName_resolves {n : String} {info? : Option Inter} (hi : optInfo target = .ok info?)
    (h : Resolves m target name n) : updateName m info? name = .ok (some n) := by
  cases h with
  | byName n t ht hn hm =>
    have h1 : (PyName.str n).truthy = true := (name_truthy_iff _).mpr (by simpa [PyName.Given] using hn)
    simp [updateName, h1, (hasName_iff m n).mpr hm]
  | byTarget t i n hd hn hm =>
    have h2 : (PyName.str "").truthy = false := rfl
    have h3 : target ≠ .none := by rintro rfl; cases hd
    rw [optInfo, if_neg h3, getInfo_ok_iff.mpr hd] at hi
    cases hi
    simp [updateName, h2, ← eq_of_names hn, (hasName_iff m n).mpr hm]

theorem resolves_unique {n n' : String} (h : Resolves m target name n) (h' : Resolves m target name n') : n = n' := by
  have h1 := internalName_resolves h
  rw [internalName_resolves h'] at h1
  exact (Except.ok.inj h1).symm

/-- **C85** for `update_interaction`: as for add. A valid target without an interaction is not rejected: it is added. -/
theorem C85_update_partial {c s : Option PyCoef} {attributes : PyAttrs} {ts : Option PyTs} {r : Option Err}
    (h : Decides (updateReasons m target name c s attributes ts) r) :
    (∀ e, r = some e → (updateInteraction importTime now target name c s attributes ts).run m = .error e m) ∧
      (r = none → m.Rect →
        ∃ m', (updateInteraction importTime now target name c s attributes ts).run m = .ok ⟨⟩ m') := by
  rcases updateChecks_prefix (importTime := importTime) h with ⟨e, rfl, he⟩ | ⟨hform, hts, hd, info?, hi, c', s', heq⟩
  · exact ⟨fun e' h' => by cases h'; rw [updateInteraction_run, he], fun h' => by cases h'⟩
  clear h
  rcases hd with _ | h | ⟨h1, hd⟩
  · -- the name does not exist
    refine ⟨fun e he => ?_, fun h' => by cases h'⟩
    cases he
    have hn := (name_truthy_iff name).mpr h.1
    have hun : updateName m info? name = .error .keyError := by
      unfold updateName
      rw [if_pos hn]
      cases name with
      | tuple => rfl
      | other => rfl
      | str n =>
        have hne : n ≠ "" := by simpa [PyName.truthy] using hn
        have htn : target = .none := by
          rcases hform with ⟨ht, _⟩ | ⟨hs, _⟩
          · exact ht
          · exact absurd (by simpa using hs) hne
        have : m.hasName n = false := by
          by_contra hh
          exact h.2 ⟨n, .byName n _ htn hne ((hasName_iff m n).mp (by simpa using hh))⟩
        simp [this]
    rw [updateInteraction_run, heq, hun]
  rcases hd with _ | h | ⟨h2, hd⟩
  · -- the interaction is removed
    refine ⟨fun e he => ?_, fun h' => by cases h'⟩
    cases he
    obtain ⟨n, hn, hg⟩ := h
    rw [updateInteraction_run, heq, updateName_resolves hi hn]
    simp only [isRemoved_gone hg]
  · cases hd
    refine ⟨fun e he => (by cases he), fun _ hm => ?_⟩
    by_cases hres : ∃ n, Resolves m target name n
    · obtain ⟨n, hn⟩ := hres
      have hmem : n ∈ m.names := by cases hn <;> assumption
      obtain ⟨hrm, idx, hidx, hlt⟩ := isRemoved_not_gone hmem (fun hg => h2 ⟨n, hn, hg⟩)
      rw [updateInteraction_run, heq, updateName_resolves hi hn]
      simp only [hrm, hidx]
      obtain ⟨cols, hr, _⟩ := writeRow_len idx c' s' attributes.entries (ts.getD (.num importTime)).stored m hm.toColLen hlt
      exact ⟨_, hr⟩
    · rcases hform with ⟨_, hg⟩ | ⟨rfl, i, hd⟩
      · exact absurd ⟨hg, hres⟩ h1
      · have h3 : target ≠ .none := by rintro rfl; cases hd
        rw [optInfo, if_neg h3, getInfo_ok_iff.mpr hd] at hi
        cases hi
        have hnew : i.defaultName ∉ m.names := fun hmem => hres ⟨_, .byTarget _ i _ hd (names_default i) hmem⟩
        have hun : updateName m (some i) (.str "") = .ok none := by
          unfold updateName
          rw [if_neg (by decide)]
          have : m.hasName i.defaultName = false := by
            by_contra hh
            exact hnew ((hasName_iff m _).mp (by simpa using hh))
          simp [this]
        rw [updateInteraction_run, heq, hun]
        exact (C02_add_succeeds_iff hm).mpr ⟨⟨i, _, hd, names_default i, hnew⟩, by simp, by simp, by simp, hts⟩


/-- **C85** on models made by public calls with known attribute keys: `update_interaction` returns exactly if no reason to
reject its arguments holds. -/
theorem C85_update_made_partial {env : Env} (hm : Made env KnownKeys m) {c s : Option PyCoef} {attributes : PyAttrs} {ts : Option PyTs} :
    (∃ m', (updateInteraction importTime now target name c s attributes ts).run m = .ok ⟨⟩ m') ↔
      Decides (updateReasons m target name c s attributes ts) none := by
  obtain ⟨r, hr⟩ := decides_total (updateReasons m target name c s attributes ts)
  obtain ⟨h1, h2⟩ := C85_update_partial (importTime := importTime) (now := now) hr
  constructor
  · rintro ⟨m', h⟩
    cases r with
    | none => exact hr
    | some e => rw [h1 e rfl] at h; cases h
  · intro hd
    cases r with
    | none => exact h2 rfl (made_rect (fun _ _ h => h) hm)
    | some e => exact absurd (decides_unique hd hr) (by simp)

/-- On a table that is not rectangular an add that there is no reason to reject can raise. -/
theorem C85_ragged_refuted : Decides (addReasons ragged (.var Ex.x1) (.str "") (.num 2) (.num 1) (.dict [("a", .num 8)]) .none)
    none ∧ ∃ m', (addInteraction 5 (.var Ex.x1) (.str "") (.num 2) (.num 1) (.dict [("a", .num 8)]) .none).run ragged =
      .error .indexError m' := by
  constructor
  · unfold addReasons
    refine .skip (by simp [PyTarget.Given]) (.skip (by simp) (.skip (by simp) (.skip (by simp) (.skip (by simp) (.skip ?_
      (.skip ?_ (.skip (by simp) (.skip ?_ .nothing))))))))
    · exact not_not.mpr (.inl ⟨_, rfl⟩)
    · rintro ⟨v, w, h, hl⟩; cases h
    · rintro ⟨i, n, _, _, h⟩
      rw [show ragged.names = [] by decide] at h
      cases h
  · obtain ⟨m', h, _⟩ := C03_add_atomic_refuted
    exact ⟨m', h⟩

/-! ### Examples -/

example : Decides (updateReasons Ex.ising .none (.str "gone") (some (.num 1)) none .none none) (some .valueError) := by
  unfold updateReasons
  refine .skip (by simp [PyName.Given]) (.skip (by simp [PyTarget.Given]) (.skip ?_ (.skip ?_ (.skip (by simp) (.skip (by simp)
    (.skip (by simp) (.skip ?_ (.skip ?_ (.hit ?_)))))))))
  · rintro ⟨x, hx, h⟩; cases hx; exact h 1 rfl
  · rintro ⟨x, hx, h⟩; cases hx
  · rintro ⟨v, w, h, _⟩; cases h
  · rintro ⟨_, h⟩; exact h ⟨"gone", .byName _ _ rfl (by decide) (by decide)⟩
  · exact ⟨"gone", .byName _ _ rfl (by decide) (by decide), Ex.ising.rows.take 2, _, [], rfl, by decide, rfl, rfl⟩

example : Decides (removeReasons Ex.ising (.tuple [some Ex.x1, some Ex.x0]) (.str "")) none := by
  unfold removeReasons
  refine .skip (by simp [PyTarget.Given]) (.skip (by simp [PyName.Given]) (.skip ?_ (.skip ?_ (.skip (by simp) (.skip ?_ .nothing)))))
  · exact fun h => h.2 (.inr ⟨_, _, rfl⟩)
  · rintro ⟨v, w, h, hl⟩; cases h; revert hl; decide
  · exact not_not.mpr ⟨_, .byTarget _ _ _ (.swapped Ex.x0 Ex.x1 (by decide)) (.quad _ _) (by decide)⟩

example : Decides (addReasons Ex.ising (.var Ex.x0) .tuple (.num 1) (.num 1) .none .none) (some .typeError) := by
  unfold addReasons
  refine .skip (by simp [PyTarget.Given]) (.skip (by simp) (.skip (by simp) (.skip (by simp) (.skip (by simp) (.skip ?_
    (.skip ?_ (.hit (by simp))))))))
  · exact not_not.mpr (.inl ⟨_, rfl⟩)
  · rintro ⟨v, w, h, hl⟩; cases h

end Sawatabi.Props
