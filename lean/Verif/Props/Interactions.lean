import Verif.Lemmas.Update
import Verif.Props.Examples

/-!
# Properties of add, update and remove (C02 - C06, C09, C10)
-/

namespace Sawatabi.Props

variable {m m' : LModel} {now importTime : ℚ} {target : PyTarget} {name : PyName}

/-! ## C02: add_interaction adds exactly one energy term -/

/-- A successful `add_interaction(target, coefficient=c, scale=s)` changes the Hamiltonian by exactly
`-c*s*(product of the target's variables)`. -/
theorem C02_add_energy {c s : PyCoef} {attributes : PyAttrs} {ts : PyTs}
    (h : (addInteraction now target name c s attributes ts).run m = .ok ⟨⟩ m') (ρ : PEnv) (σ : Assign) :
    m'.energy ρ σ = m.energy ρ σ - c.value ρ * s.value ρ * target.product σ := by
  rw [addInteraction_run] at h
  split at h
  · cases h
  · rename_i p hp
    obtain ⟨row, ats⟩ := p
    obtain ⟨hd, _, _, hc, hs, _, _, _, _, hrm, _⟩ := addChecks_ok_iff.mp hp
    obtain ⟨cols, as, rfl⟩ := addTail_ok h
    simp only [LModel.energy, List.map_append, List.sum_append, List.map_cons, List.map_nil,
      List.sum_cons, List.sum_nil, Row.term, hrm, Stores_eval hc, Stores_eval hs, Denotes_product hd]
    simp only [Bool.false_eq_true, if_false]
    ring

/-- A successful add appends exactly one interaction, with the given data, and leaves every other
interaction, the variables, the constraints and the offset as they were. -/
theorem C02_add_frame {c s : PyCoef} {attributes : PyAttrs} {ts : PyTs}
    (h : (addInteraction now target name c s attributes ts).run m = .ok ⟨⟩ m') :
    ∃ r, m'.rows = m.rows ++ [r] ∧ target.Denotes r.inter ∧ name.Names r.inter r.name ∧
      r.name ∉ m.names ∧ c.Stores r.coef ∧ s.Stores r.scale ∧ r.removed = false ∧ r.dirty = true ∧
      m'.mtype = m.mtype ∧ m'.vars = m.vars ∧ m'.offset = m.offset ∧ m'.constraints = m.constraints ∧
      m'.deleted = m.deleted ∧ m'.fixed = m.fixed := by
  rw [addInteraction_run] at h
  split at h
  · cases h
  · rename_i p hp
    obtain ⟨row, ats⟩ := p
    obtain ⟨hd, hn, hnew, hc, hs, _, _, _, hdirty, hrm, _⟩ := addChecks_ok_iff.mp hp
    obtain ⟨cols, as, rfl⟩ := addTail_ok h
    exact ⟨row, rfl, hd, hn, hnew, hc, hs, hrm, hdirty, rfl, rfl, rfl, rfl, rfl, rfl⟩

/-- On a rectangular table add succeeds exactly for a valid target, valid coefficient, scale,
attributes and timestamp, and a name that is not taken. -/
theorem C02_add_succeeds_iff (hm : m.Rect) {c s : PyCoef} {attributes : PyAttrs} {ts : PyTs} :
    (∃ m', (addInteraction now target name c s attributes ts).run m = .ok ⟨⟩ m') ↔
      (∃ i n, target.Denotes i ∧ name.Names i n ∧ n ∉ m.names) ∧
      c ≠ .bad ∧ s ≠ .bad ∧ attributes ≠ .bad ∧ ts ≠ .bad := by
  constructor
  · rintro ⟨m', h⟩
    rw [addInteraction_run] at h
    split at h
    · cases h
    · rename_i p hp
      obtain ⟨row, ats⟩ := p
      obtain ⟨hd, hn, hnew, hc, hs, ha, ht, _⟩ := addChecks_ok_iff.mp hp
      refine ⟨⟨row.inter, row.name, hd, hn, hnew⟩, ?_, ?_, ha, ht⟩
      · rintro rfl; cases hc
      · rintro rfl; cases hs
  · rintro ⟨⟨i, n, hd, hn, hnew⟩, hc, hs, ha, ht⟩
    obtain ⟨c', hc'⟩ : ∃ c', c.Stores c' := by
      cases c with
      | num q => exact ⟨_, .num q⟩
      | expr e => exact ⟨_, .expr e⟩
      | bad => exact absurd rfl hc
    obtain ⟨s', hs'⟩ : ∃ s', s.Stores s' := by
      cases s with
      | num q => exact ⟨_, .num q⟩
      | expr e => exact ⟨_, .expr e⟩
      | bad => exact absurd rfl hs
    have hp : addChecks now m target name c s attributes ts = .ok
        ({ name := n, inter := i, coef := c', scale := s', timestamp := some (ts.at now), dirty := true,
           removed := false }, attributes.entries) :=
      addChecks_ok_iff.mpr ⟨hd, hn, hnew, hc', hs', ha, ht, rfl, rfl, rfl, rfl⟩
    obtain ⟨cols, as, hr, _⟩ := addTail_rect _ attributes.entries m hm
    exact ⟨_, by rw [addInteraction_run, hp]; exact hr⟩

example : ∃ m', (addInteraction 5 (.var Ex.x1) (.str "") (.num 2) (.expr (.ph "p"))
    (.dict [("b", .str "v")]) .none).run Ex.ising = .ok ⟨⟩ m' ∧ m' ≠ Ex.ising := by
  refine ⟨_, rfl, ?_⟩
  decide

/-! ## C03: a raising add, update or remove changes nothing -/

/-- A raising `remove_interaction` changes nothing. -/
theorem C03_remove_atomic {e : Err} (h : (removeInteraction target name).run m = .error e m') :
    m' = m := removeInteraction_atomic h

/-- On a rectangular table a raising `add_interaction` changes nothing. (`_partial`: the general claim
is refuted below; see C08 for which histories keep the table rectangular.) -/
theorem C03_add_atomic_partial (hm : m.Rect) {c s : PyCoef} {attributes : PyAttrs} {ts : PyTs} {e : Err}
    (h : (addInteraction now target name c s attributes ts).run m = .error e m') : m' = m := by
  rw [addInteraction_run] at h
  split at h
  · cases h; rfl
  · rename_i p hp
    obtain ⟨cols, as, hr, _⟩ := addTail_rect p.1 p.2 m hm
    rw [hr] at h
    cases h

/-- On a rectangular table a raising `update_interaction` changes nothing. -/
theorem C03_update_atomic_partial (hm : m.Rect) {c s : Option PyCoef} {attributes : PyAttrs}
    {ts : Option PyTs} {e : Err}
    (h : (updateInteraction importTime now target name c s attributes ts).run m = .error e m') :
    m' = m := by
  rw [updateInteraction_run] at h
  split at h
  · cases h; rfl
  · exact C03_add_atomic_partial hm h
  · rename_i hc
    obtain ⟨⟨n, _, hi, _⟩, _⟩ := updateChecks_write hc
    obtain ⟨hlt, _⟩ := indexOf_ok hi
    obtain ⟨cols, hr, _⟩ := writeRow_len _ _ _ _ _ m hm.toColLen hlt
    rw [hr] at h
    cases h

example : Ex.ising.Rect ∧ ((addInteraction 5 (.var Ex.x1) (.str "gone") (.num 2) (.num 1)
    (.dict [("b", .str "v")]) .none).run Ex.ising).isOk = false :=
  ⟨⟨by decide, by decide, by decide, by decide⟩, by decide⟩

/-- The model after: add, update with a new attribute key, remove, and the physical removal that
`to_physical` does. -/
def ragged : LModel := Ex.after (LModel.new .ising "1") do
  let _ ← createVars "x" [2]
  addInteraction 1 (.var Ex.x0) (.str "") (.num 1) (.num 1) .none .none
  updateInteraction 0 2 .none (.str "x[0]") none none (.dict [("a", .num 7)]) none
  removeInteraction .none (.str "x[0]")
  let _ ← toPhysical ⟨0, fun _ => ""⟩ (fun _ _ => 0) (fun _ => "") []

/-- The general claim is false: after that history an add with the same attribute key raises
IndexError when the interaction is already in the table. -/
theorem C03_add_atomic_refuted :
    ∃ m', (addInteraction 5 (.var Ex.x1) (.str "") (.num 2) (.num 1) (.dict [("a", .num 8)])
      .none).run ragged = .error .indexError m' ∧ m'.names = ["x[1]"] ∧ ragged.names = [] := by
  refine ⟨_, rfl, ?_, ?_⟩ <;> decide

/-! ## C04: 2-body targets are unordered and never degenerate -/

theorem getInfo_swap (v w : PVar) :
    getInfo (.tuple [some v, some w]) = getInfo (.tuple [some w, some v]) := by
  simp only [getInfo]
  rcases lt_trichotomy v.label w.label with h | h | h
  · simp [ne_of_lt h, (ne_of_lt h).symm, h, not_lt_of_gt h]
  · simp [h]
  · simp [ne_of_lt h, (ne_of_lt h).symm, h, not_lt_of_gt h]

/-- Both orders of a pair are the same argument for add. -/
theorem C04_add_swap (v w : PVar) (c s : PyCoef) (attributes : PyAttrs) (ts : PyTs) :
    (addInteraction now (.tuple [some v, some w]) name c s attributes ts).run m =
      (addInteraction now (.tuple [some w, some v]) name c s attributes ts).run m := by
  rw [addInteraction_run, addInteraction_run]
  have : addChecks now m (.tuple [some v, some w]) name c s attributes ts =
      addChecks now m (.tuple [some w, some v]) name c s attributes ts := by
    unfold addChecks
    rw [getInfo_swap v w]
    rfl
  rw [this]

/-- Both orders of a pair are the same argument for update. -/
theorem C04_update_swap (v w : PVar) (c s : Option PyCoef) (attributes : PyAttrs) (ts : Option PyTs) :
    (updateInteraction importTime now (.tuple [some v, some w]) name c s attributes ts).run m =
      (updateInteraction importTime now (.tuple [some w, some v]) name c s attributes ts).run m := by
  rw [updateInteraction_run, updateInteraction_run]
  have : updateChecks importTime m (.tuple [some v, some w]) name c s attributes ts =
      updateChecks importTime m (.tuple [some w, some v]) name c s attributes ts := by
    unfold updateChecks optInfo
    rw [getInfo_swap v w]
    rfl
  rw [this]
  split
  · rfl
  · exact C04_add_swap ..
  · rfl

theorem internalName_swap (v w : PVar) :
    internalName m (.tuple [some v, some w]) name = internalName m (.tuple [some w, some v]) name := by
  unfold internalName optInfo
  rw [getInfo_swap v w]
  rfl

/-- Both orders of a pair are the same argument for remove. -/
theorem C04_remove_swap (v w : PVar) :
    (removeInteraction (.tuple [some v, some w]) name).run m =
      (removeInteraction (.tuple [some w, some v]) name).run m := by
  rw [removeInteraction_run, removeInteraction_run, internalName_swap]

/-- Both orders of a pair are the same argument for `get_attributes`. -/
theorem C04_getAttributes_swap (v w : PVar) :
    m.getAttributes (.tuple [some v, some w]) name = m.getAttributes (.tuple [some w, some v]) name := by
  unfold LModel.getAttributes
  rw [internalName_swap]

/-- A pair of variables with equal labels is rejected by add, update and remove, on every model and
with whatever other arguments, and changes nothing. -/
theorem C04_degenerate_rejected (v w : PVar) (hvw : v.label = w.label) (c s : PyCoef) (c' s' : Option PyCoef)
    (attributes : PyAttrs) (ts : PyTs) (ts' : Option PyTs) :
    (∃ e, (addInteraction now (.tuple [some v, some w]) name c s attributes ts).run m = .error e m) ∧
    (∃ e, (updateInteraction importTime now (.tuple [some v, some w]) name c' s' attributes ts').run m
      = .error e m) ∧
    (∃ e, (removeInteraction (.tuple [some v, some w]) name).run m = .error e m) := by
  have hnd : ∀ i, ¬ (PyTarget.tuple [some v, some w]).Denotes i := by
    intro i h
    cases h with
    | pair v w h => exact absurd hvw (ne_of_lt h)
    | swapped v w h => exact absurd hvw.symm (ne_of_lt h)
  refine ⟨?_, ?_, ?_⟩
  · rw [addInteraction_run]
    split
    · exact ⟨_, rfl⟩
    · rename_i p hp
      exact absurd (addChecks_ok_iff.mp hp).1 (hnd _)
  · rw [updateInteraction_run]
    split
    · exact ⟨_, rfl⟩
    · rename_i hc
      obtain ⟨_, ⟨i, hd, _⟩, _⟩ := updateChecks_add hc
      exact absurd hd (hnd _)
    · rename_i hc
      obtain ⟨⟨n, hr, _⟩, _⟩ := updateChecks_write hc
      cases hr with
      | byName n t ht _ _ => cases ht
      | byTarget t i n h _ _ => exact absurd h (hnd _)
  · have : ∃ e, internalName m (.tuple [some v, some w]) name = .error e := by
      have hg : getInfo (.tuple [some v, some w]) = .error .valueError := by simp [getInfo, hvw]
      have ho : optInfo (.tuple [some v, some w]) = .error .valueError := by
        unfold optInfo
        rw [if_neg (by intro h; cases h), hg]
      unfold internalName
      simp only [bind, Except.bind, ho, throw, throwThe, MonadExceptOf.throw]
      repeat' split
      all_goals exact ⟨_, rfl⟩
    obtain ⟨e, he⟩ := this
    exact ⟨e, by rw [removeInteraction_run, he]⟩

example : (⟨.spin, "a"⟩ : PVar).label = (⟨.binary, "a"⟩ : PVar).label := rfl

/-! ## C05: update changes only what it was given -/

/-- The fields that an update changes in a row. -/
structure Updated (c s : Option ℚ) (ts : Option ℚ) (r r' : Row) : Prop where
  name : r'.name = r.name
  inter : r'.inter = r.inter
  removed : r'.removed = r.removed
  dirty : r'.dirty = true
  timestamp : r'.timestamp = ts
  coef : r'.coef = match c with
    | some q => .num q
    | none => r.coef
  scale : r'.scale = match s with
    | some q => .num q
    | none => r.scale

/-- A successful update of an existing interaction `n` (by name or by target) changes, in the
interaction of that name, exactly the given coefficient and scale plus timestamp and dirty mark; it
leaves every other interaction and everything else but attribute columns as it was. -/
theorem C05_update_frame (hu : m.names.Nodup) {c s : Option ℚ} {attributes : PyAttrs}
    {ts : Option PyTs} {n : String} (hn : Resolves m target name n)
    (h : (updateInteraction importTime now target name (c.map .num) (s.map .num) attributes ts).run m
      = .ok ⟨⟩ m') :
    (∃ f : Row → Row, m'.rows = m.rows.map f ∧ ∀ r ∈ m.rows,
      (r.name ≠ n → f r = r) ∧
      (r.name = n → Updated c s (ts.getD (.num importTime)).stored r (f r) ∧ r.removed = false)) ∧
    m'.length = m.length ∧ m'.attrs = m.attrs ∧ m'.mtype = m.mtype ∧ m'.vars = m.vars ∧
    m'.offset = m.offset ∧ m'.constraints = m.constraints ∧ m'.deleted = m.deleted ∧ m'.fixed = m.fixed := by
  have key : ∀ n', Resolves m target name n' → n' = n := by
    intro n' h'
    cases hn with
    | byName n t ht hne hm =>
      cases h' with
      | byName => rfl
      | byTarget => exact absurd rfl hne
    | byTarget t i n hd hnm hm =>
      cases h' with
      | byName n t ht hne hm => exact absurd rfl hne
      | byTarget t i' n' hd' hnm' hm' =>
        rw [names_empty hnm, names_empty hnm']
        have := getInfo_ok_iff.mpr hd
        rw [getInfo_ok_iff.mpr hd'] at this
        cases this
        rfl
  have hinj : ∀ {x y : Option ℚ}, x.map PyCoef.num = y.map PyCoef.num → x = y := by
    intro x y hxy
    cases x <;> cases y <;> simp at hxy ⊢
    exact hxy
  rw [updateInteraction_run] at h
  split at h
  · cases h
  · rename_i hc
    exfalso
    obtain ⟨he, ⟨i, hd, hnot⟩, _⟩ := updateChecks_add hc
    cases hn with
    | byName n t ht hne hm => simp only [PyName.str.injEq] at he; exact absurd he hne
    | byTarget t j n hd' hnm hm =>
      have := getInfo_ok_iff.mpr hd
      rw [getInfo_ok_iff.mpr hd'] at this
      cases this
      rw [names_empty hnm] at hm
      exact hnot hm
  · rename_i idx c' s' ats ts' hc
    obtain ⟨⟨n', hr, hi, hrm⟩, hc1, hs1, _, _, _, hts⟩ := updateChecks_write hc
    obtain rfl := key n' hr
    obtain rfl := hinj hc1
    obtain rfl := hinj hs1
    obtain ⟨hlt, hnm⟩ := indexOf_ok hi
    obtain ⟨cols, rfl⟩ := writeRow_ok h
    refine ⟨⟨fun r => if r.name = n' then updRow c s ts' r else r, ?_, ?_⟩, rfl, rfl, rfl, rfl, rfl,
      rfl, rfl, rfl⟩
    · exact modify_eq_map_of_unique _ hu hlt hnm
    · intro r hr
      refine ⟨fun hne => by simp [hne], fun he => ?_⟩
      subst hts
      simp only [he, if_true]
      refine ⟨⟨rfl, rfl, rfl, rfl, rfl, rfl, rfl⟩, ?_⟩
      unfold LModel.isRemoved at hrm
      rw [hi] at hrm
      simp only [bind, Except.bind, List.getElem?_eq_getElem hlt] at hrm
      obtain ⟨j, hj, rfl⟩ := List.getElem_of_mem hr
      have : idx = j := (List.Nodup.getElem_inj_iff hu (hi := by simpa [LModel.names] using hlt)
        (hj := by simpa [LModel.names] using hj)).mp (by simp [LModel.names, hnm, he])
      subst this
      simpa using hrm

/-- Attribute side of C05 (and of C09), on a rectangular table: after a successful update of the
interaction in row `idx`, each given attribute has the given value there, and every other stored
attribute value is unchanged. -/
theorem C05_update_attributes (hm : m.Rect) (hu : m.names.Nodup) {c s : Option PyCoef}
    {d : List (String × PyVal)} (hd : (dkeys d).Nodup) {ts : Option PyTs} {n : String}
    (hn : Resolves m target name n) {idx : Nat} (hidx : ∃ h : idx < m.rows.length, m.rows[idx].name = n)
    (h : (updateInteraction importTime now target name c s (.dict d) ts).run m = .ok ⟨⟩ m') :
    (∀ k v, (k, v) ∈ d → m'.cell ("attributes." ++ k) idx = some v) ∧
    (∀ key i v, m.cell key i = some v → (i ≠ idx ∨ ∀ kv ∈ d, key ≠ "attributes." ++ kv.1) →
      m'.cell key i = some v) := by
  rw [updateInteraction_run] at h
  split at h
  · cases h
  · rename_i hc
    exfalso
    obtain ⟨he, ⟨i, hd, hnot⟩, _⟩ := updateChecks_add hc
    cases hn with
    | byName n t ht hne hm => simp only [PyName.str.injEq] at he; exact absurd he hne
    | byTarget t j n hd' hnm hm =>
      have := getInfo_ok_iff.mpr hd
      rw [getInfo_ok_iff.mpr hd'] at this
      cases this
      rw [names_empty hnm] at hm
      exact hnot hm
  · rename_i idx' c' s' ats ts' hc
    obtain ⟨⟨n', hr, hi, hrm⟩, hc1, hs1, _, hats, _, hts⟩ := updateChecks_write hc
    simp only [PyAttrs.entries] at hats
    subst hats
    obtain ⟨hlt, hnm⟩ := indexOf_ok hi
    obtain ⟨hlt', hnm'⟩ := hidx
    have hnn : n' = n := by
      cases hn with
      | byName n t ht hne hm =>
        cases hr with
        | byName => rfl
        | byTarget => exact absurd rfl hne
      | byTarget t i n hd hnm hm =>
        cases hr with
        | byName n t ht hne hm => exact absurd rfl hne
        | byTarget t i' n' hd' hnm' hm' =>
          rw [names_empty hnm, names_empty hnm']
          have := getInfo_ok_iff.mpr hd
          rw [getInfo_ok_iff.mpr hd'] at this
          cases this
          rfl
    have hii : idx' = idx := (List.Nodup.getElem_inj_iff hu (hi := by simpa [LModel.names] using hlt)
        (hj := by simpa [LModel.names] using hlt')).mp (by simp [LModel.names, hnm, hnm', hnn])
    subst hii
    obtain ⟨cols, hr, h1, h2⟩ := writeRow_len idx' c' s' ats ts' m hm.toColLen hlt
    rw [hr] at h
    cases h
    exact ⟨fun k v hkv => h2 hd (k, v) hkv, h1⟩

example : Ex.ising.Rect ∧ Ex.ising.names.Nodup ∧
    Resolves Ex.ising (.tuple [some Ex.x1, some Ex.x0]) (.str "") "x[0]*x[1]" ∧
    ((updateInteraction 0 20 (.tuple [some Ex.x1, some Ex.x0]) (.str "") (some (.num 4)) none
      (.dict [("a", .num 1)]) none).run Ex.ising).isOk = true :=
  ⟨⟨by decide, by decide, by decide, by decide⟩, by decide,
    .byTarget _ (.quad Ex.x0 Ex.x1) _ (.swapped _ _ (by decide)) (.quad _ _) (by decide), by decide⟩

/-! ## C06: update by target inserts when absent -/

/-- By target, if the default name is absent, update is add with the same coefficient, scale and
timestamp (0 and 1 if not given, and the module's import time if no timestamp was given) and *no
attributes*. (`_partial`: for attributes the claim is false, see below.) -/
theorem C06_update_absent_target_partial {c s : Option ℚ} {attributes : PyAttrs} {ts : Option PyTs}
    {i : Inter} (hd : target.Denotes i) (hn : i.defaultName ∉ m.names) (ha : attributes ≠ .bad)
    (ht : ts ≠ some .bad) :
    (updateInteraction importTime now target (.str "") (c.map .num) (s.map .num) attributes ts).run m =
      (addInteraction now target (.str "") (.num (c.getD 0)) (.num (s.getD 1)) .none
        (ts.getD (.num importTime))).run m := by
  rw [updateInteraction_run]
  have hc : ∀ x : Option ℚ, checkNum? (x.map PyCoef.num) = .ok x := by intro x; cases x <;> rfl
  have hnot : m.hasName i.defaultName = false := by
    rw [← Bool.not_eq_true, hasName_iff]; exact hn
  have htn : target ≠ .none := by rintro rfl; cases hd
  have hts : ts.getD (.num importTime) ≠ .bad := by
    cases ts with
    | none => simp
    | some t => intro h; exact ht (by simpa using h)
  have hch : updateChecks importTime m target (.str "") (c.map .num) (s.map .num) attributes ts =
      .ok (.add (c.getD 0) (s.getD 1) (ts.getD (.num importTime))) := by
    unfold updateChecks
    simp [Denotes_truthy hd, PyName.truthy, hc, ha, hts, optInfo, htn, getInfo_ok_iff.mpr hd,
      updateName, hnot]
  rw [hch]

/-- By name, update of an absent interaction raises KeyError and changes nothing. -/
theorem C06_update_absent_name {c s : Option ℚ} {attributes : PyAttrs} {ts : Option PyTs} {n : String}
    (hne : n ≠ "") (hn : n ∉ m.names) (ha : attributes ≠ .bad) (ht : ts ≠ some .bad) :
    (updateInteraction importTime now .none (.str n) (c.map .num) (s.map .num) attributes ts).run m =
      .error .keyError m := by
  rw [updateInteraction_run]
  have hc : ∀ x : Option ℚ, checkNum? (x.map PyCoef.num) = .ok x := by intro x; cases x <;> rfl
  have hnot : m.hasName n = false := by
    rw [← Bool.not_eq_true, hasName_iff]; exact hn
  have hts : ts.getD (.num importTime) ≠ .bad := by
    cases ts with
    | none => simp
    | some t => intro h; exact ht (by simpa using h)
  have hch : updateChecks importTime m .none (.str n) (c.map .num) (s.map .num) attributes ts =
      .error .keyError := by
    unfold updateChecks
    simp [PyTarget.truthy, PyName.truthy, hc, ha, hts, optInfo, updateName, hnot, hne]
  rw [hch]

/-- The attributes given to an update that inserts are lost: `get_attribute` raises KeyError, while
after the corresponding add it returns the value. -/
theorem C06_update_absent_refuted :
    let m := Ex.ising
    let u := Ex.after m (updateInteraction 0 9 (.var Ex.x1) (.str "") none none
      (.dict [("b", .num 8)]) (some (.num 9)))
    let a := Ex.after m (addInteraction 9 (.var Ex.x1) (.str "") (.num 0) (.num 1)
      (.dict [("b", .num 8)]) (.num 9))
    a.getAttribute (.var Ex.x1) (.str "") "attributes.b" = .ok (.num 8) ∧
    u.getAttribute (.var Ex.x1) (.str "") "attributes.b" = .error .keyError := by
  decide

example : PyTarget.Denotes (.var Ex.x1) (.lin Ex.x1) ∧ (Inter.lin Ex.x1).defaultName ∉ Ex.ising.names :=
  ⟨.var _, by decide⟩

/-! ## C10: timestamps do not go backwards on update -/

/-- With an explicit timestamp, exactly that timestamp is stored. (`_partial`: the claim about the
default is false, see below.) -/
theorem C10_explicit_timestamp_partial (hu : m.names.Nodup) {c s : Option ℚ} {attributes : PyAttrs}
    {t : ℚ} {n : String} (hn : Resolves m target name n)
    (h : (updateInteraction importTime now target name (c.map .num) (s.map .num) attributes
      (some (.num t))).run m = .ok ⟨⟩ m') :
    ∀ r ∈ m'.rows, r.name = n → r.timestamp = some t := by
  obtain ⟨⟨f, hf, hall⟩, _⟩ := C05_update_frame hu hn h
  intro r hr hrn
  rw [hf, List.mem_map] at hr
  obtain ⟨r₀, hr₀, rfl⟩ := hr
  by_cases he : r₀.name = n
  · exact ((hall r₀ hr₀).2 he).1.timestamp
  · rw [(hall r₀ hr₀).1 he] at hrn
    exact absurd hrn he

/-- What update stores without a timestamp: the time the module was imported, for every time `now` of
the call. -/
theorem C10_default_is_import_time (hu : m.names.Nodup) {c s : Option ℚ} {attributes : PyAttrs}
    {n : String} (hn : Resolves m target name n)
    (h : (updateInteraction importTime now target name (c.map .num) (s.map .num) attributes none).run m
      = .ok ⟨⟩ m') :
    ∀ r ∈ m'.rows, r.name = n → r.timestamp = some importTime := by
  obtain ⟨⟨f, hf, hall⟩, _⟩ := C05_update_frame hu hn h
  intro r hr hrn
  rw [hf, List.mem_map] at hr
  obtain ⟨r₀, hr₀, rfl⟩ := hr
  by_cases he : r₀.name = n
  · exact ((hall r₀ hr₀).2 he).1.timestamp
  · rw [(hall r₀ hr₀).1 he] at hrn
    exact absurd hrn he

/-- The claim is false: in a process that imported the module at time 0, an interaction added at time
10 looks like one of time 0 after an update at time 20. -/
theorem C10_default_timestamp_refuted :
    ((Ex.ising.rows.filter (·.name = "x[0]")).map (·.timestamp) = [some 10]) ∧
    ((Ex.after Ex.ising (updateInteraction 0 20 (.var Ex.x0) (.str "") (some (.num 1)) none .none
      none)).rows.filter (·.name = "x[0]")).map (·.timestamp) = [some 0] := by
  decide

end Sawatabi.Props
