import Verif.Lemmas.MergeFrame
import Verif.Props.Examples

/-!
# Variables (C16, C17, C18)
-/

namespace Sawatabi.Props

variable {m m' : LModel} {n : String} {sh : List Int} {a old : VArray}

/-! ## C18: arrays of variables -/

/-- Exactly when `variables(name, shape)` succeeds. -/
theorem C18_variables_iff : (∃ a m', (createVars n sh).run m = .ok a m') ↔
    sh ≠ [] ∧ (∀ d ∈ sh, 0 < d) ∧ '*' ∉ n.toList := by
  rw [createVars_run]
  by_cases h : sh ≠ [] ∧ (∀ d ∈ sh, 0 < d) ∧ '*' ∉ n.toList
  · rw [if_neg h.1, (arrayCreate_spec n sh m.mtype.vtype).1 h]
    exact ⟨fun _ => h, fun _ => ⟨_, _, rfl⟩⟩
  · obtain ⟨e, he⟩ := (arrayCreate_spec n sh m.mtype.vtype).2 h
    rw [he]
    constructor
    · rintro ⟨a, m', hr⟩
      split at hr <;> cases hr
    · exact fun hc => absurd hc h

/-- A successful `variables(name, shape)` registers and returns an array with one variable per index
tuple, all labels distinct, `d1 * ... * dk` of them; nothing else changes. -/
theorem C18_variables (h : (createVars n sh).run m = .ok a m') :
    IsArray n (sh.map Int.toNat) m.mtype.vtype a ∧ dget m'.vars n = some a ∧
    (∀ k, k ≠ n → dget m'.vars k = dget m.vars k) ∧ m' = { m with vars := m'.vars } := by
  rw [createVars_run] at h
  split at h
  · cases h
  · cases hc : arrayCreate n sh m.mtype.vtype with
    | error e => rw [hc] at h; cases h
    | ok b =>
      rw [hc] at h
      cases h
      obtain ⟨_, rfl⟩ := arrayCreate_ok hc
      exact ⟨stdArray_isArray _ _ _, dget_dset_self _ _ _, fun k hk => dget_dset_ne _ _ hk, rfl⟩

/-- A failed one changes nothing. -/
theorem C18_variables_failed {e : Err} (h : (createVars n sh).run m = .error e m') : m' = m := by
  rw [createVars_run] at h
  split at h
  · cases h; rfl
  · split at h
    · cases h; rfl
    · cases h

example : ∃ a m', (createVars "x" [2, 3]).run Ex.ising = .ok a m' ∧ a.bits.length = 6 := ⟨_, _, rfl, by decide⟩

/-- The calls of a history that registers arrays by name and shape only. -/
def OwnArrays (_ : LModel) : Op → Prop
  | .variablesArray _ => False
  | .merge _ o => VarsOk o
  | _ => True

/-- Along every history that registers arrays by name and shape only, whatever else is called and
whichever calls fail, every registered array has one variable per index tuple, with distinct labels
and the variable type of the model. -/
theorem C18_arrays_along_history {env : Env} {m₀ : LModel} (h₀ : VarsOk m₀) (h : Reach env OwnArrays m₀ m) : VarsOk m := by
  induction h with
  | start => exact h₀
  | step m op h hp ih =>
    apply step_varsOk env op m ih
    · rintro a rfl; exact hp
    · rintro clk o rfl; exact hp

/-- `get_all_size` is the number of all variables. -/
theorem C18_all_size (h : VarsOk m) : m.allSize = m.allLabels.length := allSize_eq h

/-- Labels are distinct across arrays as well, if no array name contains a `[`. -/
theorem C18_labels_distinct_partial (h : VarsOk m) (hb : ∀ n ∈ dkeys m.vars, '[' ∉ n.toList) :
    m.allLabels.Nodup := allLabels_nodup h hb

/-- Without that condition two arrays can share a label. -/
theorem C18_labels_clash_refuted :
    let m := Ex.after (LModel.new .ising "1") (do
      let _ ← createVars "x[0]" [1]
      let _ ← createVars "x" [1, 1])
    VarsOk m ∧ m.allLabels = ["x[0][0]", "x[0][0]"] := by
  refine ⟨?_, by decide⟩
  exact Py.Preserves.bind (createVars_ok _ _) (fun _ => .bind (createVars_ok _ _) fun _ => .pure' _) _ (new_varsOk _ _)

example : VarsOk Ex.qubo ∧ (∀ n ∈ dkeys Ex.qubo.vars, '[' ∉ n.toList) ∧ Ex.qubo.allSize = 3 := by
  refine ⟨?_, by decide, by decide⟩
  refine ⟨by decide, ?_⟩
  intro n a h
  have h : (n, a) ∈ [("x", stdArray "x" [3] .binary)] := h
  simp only [List.mem_singleton, Prod.mk.injEq] at h
  obtain ⟨rfl, rfl⟩ := h
  exact ⟨stdArray_isArray _ _ _, by decide, by decide, by decide⟩

/-! ## C17: append -/

/-- `append` on an unknown name creates the array. -/
theorem C17_append_unknown (h : dget m.vars n = none) : (appendVars n sh).run m = (createVars n sh).run m := by
  rw [appendVars_run, h, createVars_run]
  split <;> rfl

/-- `append(name, d)` on an array of any rank: the shape becomes the elementwise sum as far as both have entries, the new array
has one variable per index tuple, and nothing else changes. -/
theorem C17_append_exact (hold : dget m.vars n = some old) (h : (appendVars n sh).run m = .ok a m') :
    a.shape.length = min old.shape.length sh.length ∧
    (∀ (i d : Nat) (e : Int), old.shape[i]? = some d → sh[i]? = some e → ∃ s, a.shape[i]? = some s ∧ (s : Int) = d + e) ∧
    IsArray n a.shape m.mtype.vtype a ∧ dget m'.vars n = some a ∧
    (∀ k, k ≠ n → dget m'.vars k = dget m.vars k) ∧ m' = { m with vars := m'.vars } := by
  rw [appendVars_run, hold] at h
  split at h
  · cases h
  · simp only at h
    cases hc : arrayCreate n (elementwiseAdd (old.shape.map Int.ofNat) sh) m.mtype.vtype with
    | error e => rw [hc] at h; cases h
    | ok b =>
      rw [hc] at h
      cases h
      obtain ⟨⟨_, hpos, _⟩, rfl⟩ := arrayCreate_ok hc
      refine ⟨by simp [stdArray, elementwiseAdd], ?_, stdArray_isArray _ _ _, dget_dset_self _ _ _,
        fun k hk => dget_dset_ne _ _ hk, rfl⟩
      intro i d e hd he
      have hz : (elementwiseAdd (old.shape.map Int.ofNat) sh)[i]? = some ((d : Int) + e) := by
        simp only [elementwiseAdd]
        rw [List.getElem?_zipWith, List.getElem?_map, hd, he]
        rfl
      refine ⟨((d : Int) + e).toNat, ?_, ?_⟩
      · simp only [stdArray]
        rw [List.getElem?_map, hz]
        rfl
      · have := hpos _ (List.mem_of_getElem? hz)
        omega

/-- `append(name, d)` on an array of the same rank. -/
theorem C17_append_shape (hold : dget m.vars n = some old) (hr : sh.length = old.shape.length)
    (h : (appendVars n sh).run m = .ok a m') :
    a.shape.length = old.shape.length ∧
    (∀ (i d : Nat) (e : Int), old.shape[i]? = some d → sh[i]? = some e → ∃ s, a.shape[i]? = some s ∧ (s : Int) = d + e) ∧
    IsArray n a.shape m.mtype.vtype a ∧ dget m'.vars n = some a ∧
    (∀ k, k ≠ n → dget m'.vars k = dget m.vars k) ∧ m' = { m with vars := m'.vars } := by
  obtain ⟨h1, h2⟩ := C17_append_exact hold h
  exact ⟨by rw [h1, hr, Nat.min_self], h2⟩

/-- When `append` on a registered array succeeds: the tuple is not empty and no sum is zero or negative. -/
theorem C17_append_iff (hm : VarsOk m) (hold : dget m.vars n = some old) :
    (∃ a m', (appendVars n sh).run m = .ok a m') ↔
      sh ≠ [] ∧ ∀ (i d : Nat) (e : Int), old.shape[i]? = some d → sh[i]? = some e → 0 < d + e := by
  obtain ⟨harr, hne, hpos, hstar⟩ := hm.get hold
  have hz : ∀ (i d : Nat) (e : Int), old.shape[i]? = some d → sh[i]? = some e →
      (elementwiseAdd (old.shape.map Int.ofNat) sh)[i]? = some ((d : Int) + e) := by
    intro i d e hd he
    simp only [elementwiseAdd]
    rw [List.getElem?_zipWith, List.getElem?_map, hd, he]
    rfl
  rw [appendVars_run, hold]
  by_cases h0 : sh = []
  · rw [if_pos h0]
    constructor
    · rintro ⟨a, m', h⟩; cases h
    · rintro ⟨h, _⟩; exact absurd h0 h
  rw [if_neg h0]
  simp only
  constructor
  · rintro ⟨a, m', h⟩
    cases hc : arrayCreate n (elementwiseAdd (old.shape.map Int.ofNat) sh) m.mtype.vtype with
    | error e => rw [hc] at h; cases h
    | ok b =>
      obtain ⟨⟨_, hp, _⟩, _⟩ := arrayCreate_ok hc
      exact ⟨h0, fun i d e hd he => hp _ (List.mem_of_getElem? (hz i d e hd he))⟩
  · rintro ⟨_, hs⟩
    rw [(arrayCreate_spec _ _ _).1 ⟨?_, ?_, hstar⟩]
    · exact ⟨_, _, rfl⟩
    · intro h
      have := congrArg List.length h
      simp only [elementwiseAdd, List.length_zipWith, List.length_map, List.length_nil] at this
      rcases Nat.min_eq_zero_iff.mp this with h | h
      · exact hne (List.length_eq_zero_iff.mp h)
      · exact h0 (List.length_eq_zero_iff.mp h)
    · intro x hx
      obtain ⟨i, hi⟩ := List.mem_iff_getElem?.mp hx
      simp only [elementwiseAdd] at hi
      rw [List.getElem?_zipWith, List.getElem?_map] at hi
      cases h1 : old.shape[i]? with
      | none => rw [h1] at hi; simp at hi
      | some d =>
        cases h2 : sh[i]? with
        | none => rw [h1, h2] at hi; simp at hi
        | some e =>
          rw [h1, h2] at hi
          simp only [Option.map_some, Option.some.injEq] at hi
          rw [← hi]
          exact hs i d e h1 h2

theorem forall₂_of_getElem? {α β : Type} {R : α → β → Prop} {l : List α} {r : List β} (hl : l.length = r.length)
    (h : ∀ (i : Nat) x y, l[i]? = some x → r[i]? = some y → R x y) : List.Forall₂ R l r := by
  induction l generalizing r with
  | nil => cases r with
    | nil => exact .nil
    | cons y r => simp at hl
  | cons x l ih => cases r with
    | nil => simp at hl
    | cons y r =>
      refine .cons (h 0 x y rfl rfl) (ih (by simpa using hl) fun i a b ha hb => h (i + 1) a b ?_ ?_)
      · simpa using ha
      · simpa using hb

/-- `append` with non-negative entries of the same rank succeeds, and every old variable is still
there. -/
theorem C17_append_keeps (hm : VarsOk m) (hold : dget m.vars n = some old) (hr : sh.length = old.shape.length)
    (hd : ∀ d ∈ sh, 0 ≤ d) : ∃ a m', (appendVars n sh).run m = .ok a m' ∧ ∀ v ∈ old.bits, v ∈ a.bits := by
  have hok := hm.get hold
  obtain ⟨harr, hne, hpos, hstar⟩ := hok
  have hsh : sh ≠ [] := by
    intro h0
    rw [h0] at hr
    exact hne (List.length_eq_zero_iff.mp hr.symm)
  have hnew : elementwiseAdd (old.shape.map Int.ofNat) sh ≠ [] ∧
      (∀ d ∈ elementwiseAdd (old.shape.map Int.ofNat) sh, 0 < d) ∧ '*' ∉ n.toList := by
    refine ⟨?_, ?_, hstar⟩
    · intro h0
      have := congrArg List.length h0
      simp [elementwiseAdd, hr] at this
      exact hne this
    · intro d hdm
      simp only [elementwiseAdd] at hdm
      obtain ⟨i, hi⟩ := List.mem_iff_getElem?.mp hdm
      rw [List.getElem?_zipWith] at hi
      cases h1 : (old.shape.map Int.ofNat)[i]? with
      | none => rw [h1] at hi; simp at hi
      | some x =>
        cases h2 : sh[i]? with
        | none => rw [h1, h2] at hi; simp at hi
        | some y =>
          rw [h1, h2] at hi
          simp only [Option.some.injEq] at hi
          have hx := List.mem_of_getElem? h1
          obtain ⟨x', hx', rfl⟩ := List.mem_map.mp hx
          have h3 := hpos x' hx'
          have h4 := hd y (List.mem_of_getElem? h2)
          simp only [Int.ofNat_eq_natCast] at hi
          omega
  have hrun : (appendVars n sh).run m = .ok (stdArray n ((elementwiseAdd (old.shape.map Int.ofNat) sh).map Int.toNat)
      m.mtype.vtype) { m with vars := dset m.vars n (stdArray n ((elementwiseAdd (old.shape.map Int.ofNat) sh).map
        Int.toNat) m.mtype.vtype) } := by
    rw [appendVars_run, hold, if_neg hsh]
    simp only [(arrayCreate_spec _ _ _).1 hnew]
  refine ⟨_, _, hrun, ?_⟩
  obtain ⟨hlen, hsum, hnewarr, _⟩ := C17_append_shape hold hr hrun
  intro v hv
  obtain ⟨idx, hidx, rfl⟩ := (harr.mem v).mp hv
  refine (hnewarr.mem _).mpr ⟨idx, hidx.mono ?_, rfl⟩
  apply forall₂_of_getElem? hlen.symm
  intro i d s hd' hs
  have he : ∃ e, sh[i]? = some e := by
    have : i < sh.length := by
      rw [hr]
      exact (List.getElem?_eq_some_iff.mp hd').1
    exact ⟨_, List.getElem?_eq_getElem this⟩
  obtain ⟨e, he⟩ := he
  obtain ⟨s', hs', hsum⟩ := hsum i d e hd' he
  rw [hs] at hs'
  cases hs'
  have := hd e (List.mem_of_getElem? he)
  omega

/-- A tuple with fewer entries than the array has drops all its variables; a tuple of natural numbers with at least as many
keeps them all. -/
theorem C17_append_rank (hm : VarsOk m) (hold : dget m.vars n = some old) (h : (appendVars n sh).run m = .ok a m') :
    (sh.length < old.shape.length → ∀ v ∈ old.bits, v ∉ a.bits) ∧
    (old.shape.length ≤ sh.length → (∀ d ∈ sh, 0 ≤ d) → ∀ v ∈ old.bits, v ∈ a.bits) := by
  obtain ⟨harr, _, _, _⟩ := hm.get hold
  obtain ⟨hlen, hsum, hnew, _⟩ := C17_append_exact hold h
  constructor
  · intro hlt v hv hv'
    obtain ⟨i, hi, rfl⟩ := (harr.mem v).mp hv
    obtain ⟨j, hj, e⟩ := (hnew.mem _).mp hv'
    simp only [PVar.mk.injEq, true_and] at e
    rw [arrayLabel_eq, arrayLabel_eq] at e
    have := idxSuffix_inj (string_append_left_inj e)
    subst this
    have h1 := hi.length_eq
    have h2 := hj.length_eq
    omega
  · intro hle hd v hv
    obtain ⟨i, hi, rfl⟩ := (harr.mem v).mp hv
    refine (hnew.mem _).mpr ⟨i, hi.mono ?_, rfl⟩
    apply forall₂_of_getElem? (by omega)
    intro k d s hd' hs
    have hk : k < sh.length := lt_of_lt_of_le (List.getElem?_eq_some_iff.mp hd').1 hle
    obtain ⟨s', hs', hsum⟩ := hsum k d _ hd' (List.getElem?_eq_getElem hk)
    rw [hs] at hs'
    cases hs'
    have := hd _ (List.getElem_mem hk)
    omega

/-- `append` with a shorter tuple silently reduces the rank: `append("x", (1,))` on an array of shape
(2, 2) turns it into one of shape (3,), and all its variables are gone. -/
theorem C17_append_rank_refuted :
    let m := Ex.after (LModel.new .ising "1") (createVars "x" [2, 2])
    ((appendVars "x" [1]).run m).isOk = true ∧ m.allLabels = ["x[0][0]", "x[0][1]", "x[1][0]", "x[1][1]"] ∧
      ((appendVars "x" [1]).run m).state.allLabels = ["x[0]", "x[1]", "x[2]"] := by
  decide

/-- With a negative entry the array shrinks. -/
example : ((appendVars "x" [-1]).run Ex.qubo).state.allLabels = ["x[0]", "x[1]"] := by decide

example : ∃ old, dget Ex.qubo.vars "x" = some old ∧ [(2 : Int)].length = old.shape.length ∧
    ((appendVars "x" [2]).run Ex.qubo).isOk = true ∧
    ((appendVars "x" [2]).run Ex.qubo).state.allLabels = ["x[0]", "x[1]", "x[2]", "x[3]", "x[4]"] :=
  ⟨_, rfl, by decide, by decide, by decide⟩

/-! ## C16: get_size -/

theorem length_filter_not_mem {l d : List String} (hl : l.Nodup) (hd : d.Nodup) (hs : ∀ x ∈ d, x ∈ l) :
    (l.filter (· ∉ d)).length + d.length = l.length := by
  have h1 : (l.filter (· ∈ d)).length = d.length := by
    apply List.Perm.length_eq
    rw [List.perm_ext_iff_of_nodup (hl.filter _) hd]
    intro x
    simp only [List.mem_filter, decide_eq_true_eq]
    exact ⟨fun h => h.2, fun h => ⟨hs x h, h⟩⟩
  rw [← h1]
  have := List.length_eq_length_filter_add (l := l) (fun x => decide (x ∉ d))
  rw [this]
  congr 1
  congr 1
  apply List.filter_congr
  intro x _
  simp

/-- `get_size` counts the variables that are neither deleted nor fixed, provided the deleted and the fixed
variables are distinct variables of the model. -/
theorem C16_size_partial (h : VarsOk m) (hb : ∀ n ∈ dkeys m.vars, '[' ∉ n.toList)
    (hd : (m.deleted ++ m.fixed).Nodup) (hs : ∀ l ∈ m.deleted ++ m.fixed, l ∈ m.allLabels) :
    m.size = ((m.allLabels.filter fun l => l ∉ m.deleted ∧ l ∉ m.fixed).length : Int) := by
  have := length_filter_not_mem (allLabels_nodup h hb) hd hs
  have hf : m.allLabels.filter (fun l => l ∉ m.deleted ∧ l ∉ m.fixed) = m.allLabels.filter (· ∉ m.deleted ++ m.fixed) := by
    apply List.filter_congr
    intro x _
    simp
  rw [hf]
  simp only [LModel.size, allSize_eq h]
  rw [List.length_append] at this
  omega

/-- The states in which the count is right. -/
structure SizeOk (m : LModel) : Prop where
  vars : VarsOk m
  names : ∀ n ∈ dkeys m.vars, '[' ∉ n.toList
  distinct : (m.deleted ++ m.fixed).Nodup
  known : ∀ l ∈ m.deleted ++ m.fixed, l ∈ m.allLabels

theorem sizeOk_table : TableFree SizeOk := fun _ _ _ _ _ h => ⟨⟨h.vars.keys, h.vars.arrays⟩, h.names, h.distinct, h.known⟩
theorem sizeOk_offset : OffsetFree SizeOk := fun _ _ h => ⟨⟨h.vars.keys, h.vars.arrays⟩, h.names, h.distinct, h.known⟩

theorem mem_allLabels (h : VarsOk m) {l : String} :
    l ∈ m.allLabels ↔ ∃ n a idx, dget m.vars n = some a ∧ InShape idx a.shape ∧ l = arrayLabel n idx := by
  simp only [LModel.allLabels, List.mem_flatMap, List.mem_map]
  constructor
  · rintro ⟨⟨n, a⟩, hm, v, hv, rfl⟩
    obtain ⟨idx, hi, rfl⟩ := ((h.arrays n a hm).1.mem v).mp hv
    exact ⟨n, a, idx, dget_of_mem h.keys hm, hi, rfl⟩
  · rintro ⟨n, a, idx, ha, hi, rfl⟩
    exact ⟨(n, a), dget_mem ha, ⟨m.mtype.vtype, arrayLabel n idx⟩, ((h.get ha).1.mem _).mpr ⟨idx, hi, rfl⟩, rfl⟩

/-- Growing an array keeps the state right. -/
theorem SizeOk.grow (h : SizeOk m) (hv : VarsOk m') (he : m' = { m with vars := m'.vars }) (hn : '[' ∉ n.toList)
    (ha : dget m'.vars n = some a) (hk : ∀ k, k ≠ n → dget m'.vars k = dget m.vars k)
    (hold : ∀ old, dget m.vars n = some old → ∀ idx, InShape idx old.shape → InShape idx a.shape) : SizeOk m' := by
  have hd : m'.deleted = m.deleted := by rw [he]
  have hf : m'.fixed = m.fixed := by rw [he]
  refine ⟨hv, ?_, by rw [hd, hf]; exact h.distinct, ?_⟩
  · intro k hkm
    by_cases hkn : k = n
    · rw [hkn]; exact hn
    · apply h.names
      rw [← dget_isSome_iff] at hkm ⊢
      rw [← hk k hkn]
      exact hkm
  · intro l hl
    rw [hd, hf] at hl
    obtain ⟨k, b, idx, hb, hi, rfl⟩ := (mem_allLabels h.vars).mp (h.known l hl)
    apply (mem_allLabels hv).mpr
    by_cases hkn : k = n
    · subst hkn
      exact ⟨k, a, idx, ha, hold b hb idx hi, rfl⟩
    · exact ⟨k, b, idx, by rw [hk k hkn]; exact hb, hi, rfl⟩

/-- The calls that keep the count right. Arrays get names without `[`; `variables` does not overwrite an
array; `append` grows; only variables of the model are deleted or fixed, and none both. All other
calls but `merge` are allowed. -/
def SizeSafe (m : LModel) : Op → Prop
  | .variables n _ => '[' ∉ n.toList ∧ dget m.vars n = none
  | .append n sh => '[' ∉ n.toList ∧ ∀ old, dget m.vars n = some old → sh.length = old.shape.length ∧ ∀ d ∈ sh, 0 ≤ d
  | .delete v => v.label ∈ m.allLabels ∧ v.label ∉ m.fixed
  | .fix _ v _ => v.label ∈ m.allLabels ∧ v.label ∉ m.deleted
  | .variablesArray _ => False
  | .merge _ _ => False
  | _ => True

theorem SizeOk.create (h : SizeOk m) (hn : '[' ∉ n.toList) (hno : dget m.vars n = none) :
    SizeOk ((createVars n sh).run m).state := by
  have hv := createVars_ok n sh m h.vars
  cases hr : (createVars n sh).run m with
  | error e m' => rw [C18_variables_failed hr]; exact h
  | ok a m' =>
    rw [hr] at hv
    obtain ⟨_, h2, h3, h4⟩ := C18_variables hr
    exact h.grow hv h4 hn h2 h3 (by rw [hno]; simp)

theorem SizeOk.conv (h : SizeOk m) (env : Env) (mt : MType) (f o f₂ g₂ o₂ : Coef → Coef) (clk : Nat → ℚ) :
    SizeOk ((genConv env mt f o f₂ g₂ o₂ clk).run m).state := by
  apply genConv_frame sizeOk_table sizeOk_offset
  obtain ⟨m', hm', hok, hmt, hk, hget⟩ := retype_varsOk h.vars mt
  rw [hm']
  simp only [Res.state]
  obtain ⟨vs, rfl, _⟩ := retypeLoop_ok _ hm'
  refine ⟨hok, by rw [hk]; exact h.names, h.distinct, ?_⟩
  intro l hl
  obtain ⟨k, b, idx, hb, hi, rfl⟩ := (mem_allLabels h.vars).mp (h.known l hl)
  exact (mem_allLabels hok).mpr ⟨k, _, idx, hget k b hb, hi, rfl⟩

theorem step_sizeOk (env : Env) (op : Op) (h : SizeOk m) (hp : SizeSafe m op) : SizeOk (op.step env m) := by
  have hmap : ∀ {α : Type} {x : Py LModel α}, SizeOk (x.run m).state → SizeOk ((do let _ ← x : Py LModel Unit).run m).state := by
    intro α x hx
    rw [Py.run_bind]
    cases hr : x.run m with
    | ok a t => rw [hr] at hx; exact hx
    | error e t => rw [hr] at hx; exact hx
  unfold Op.step
  cases op with
  | «variables» n sh => exact hmap (h.create hp.1 hp.2)
  | variablesArray a => exact absurd hp id
  | append n sh =>
    apply hmap
    cases ho : dget m.vars n with
    | none => rw [C17_append_unknown ho]; exact h.create hp.1 ho
    | some old =>
      obtain ⟨hl, hd⟩ := hp.2 old ho
      have hv := appendVars_ok n sh m h.vars
      obtain ⟨a, m', hr, hsub⟩ := C17_append_keeps h.vars ho hl hd
      rw [hr] at hv ⊢
      obtain ⟨_, _, harr, h2, h3, h4⟩ := C17_append_shape ho hl hr
      refine h.grow hv h4 hp.1 h2 h3 ?_
      intro old' ho' idx hi
      rw [ho] at ho'
      cases ho'
      have hmem := hsub _ (((h.vars.get ho).1.mem _).mpr ⟨idx, hi, rfl⟩)
      obtain ⟨idx', hi', heq⟩ := (harr.mem _).mp hmem
      have hlab : arrayLabel n idx = arrayLabel n idx' := congrArg PVar.label heq
      rw [arrayLabel_eq, arrayLabel_eq] at hlab
      rw [idxSuffix_inj (string_append_left_inj hlab)]
      exact hi'
  | add now t n c s a ts => exact add_frame sizeOk_table _ _ _ _ _ _ _ m h
  | update now t n c s a ts => exact update_frame sizeOk_table _ _ _ _ _ _ _ _ m h
  | remove t n => exact remove_frame sizeOk_table _ _ m h
  | select v => exact hmap (selectByVariable_inv v m h)
  | delete v =>
    obtain ⟨hp1, hp2⟩ := hp
    refine (delete_frame (I := fun s => SizeOk s ∧ v.label ∈ s.allLabels ∧ v.label ∉ s.fixed)
      (fun _ _ _ _ _ h => ⟨sizeOk_table _ _ _ _ _ h.1, h.2⟩) (fun _ _ h => ⟨⟨⟨h.1.vars.keys, h.1.vars.arrays⟩,
        h.1.names, h.1.distinct, h.1.known⟩, h.2⟩) v ?_ m ⟨h, hp1, hp2⟩).1
    rintro s ⟨hs, h1, h2⟩
    refine ⟨⟨⟨hs.vars.keys, hs.vars.arrays⟩, hs.names, ?_, ?_⟩, h1, h2⟩
    · have := List.nodup_append.mp hs.distinct
      refine List.nodup_append.mpr ⟨nodup_sadd this.1, this.2.1, ?_⟩
      intro x hx y hy
      rcases mem_sadd.mp hx with rfl | hx
      · rintro rfl; exact h2 hy
      · exact this.2.2 x hx y hy
    · intro l hl
      simp only [List.mem_append, mem_sadd] at hl
      rcases hl with (rfl | hl) | hl
      · exact h1
      · exact hs.known l (by simp [hl])
      · exact hs.known l (by simp [hl])
  | fix clk v q =>
    obtain ⟨hp1, hp2⟩ := hp
    refine (fix_frame (I := fun s => SizeOk s ∧ v.label ∈ s.allLabels ∧ v.label ∉ s.deleted)
      (fun _ _ _ _ _ h => ⟨sizeOk_table _ _ _ _ _ h.1, h.2⟩) (fun _ _ h => ⟨sizeOk_offset _ _ h.1, h.2⟩)
      clk v q ?_ m ⟨h, hp1, hp2⟩).1
    rintro s ⟨hs, h1, h2⟩
    refine ⟨⟨⟨hs.vars.keys, hs.vars.arrays⟩, hs.names, ?_, ?_⟩, h1, h2⟩
    · have := List.nodup_append.mp hs.distinct
      refine List.nodup_append.mpr ⟨this.1, nodup_sadd this.2.1, ?_⟩
      intro x hx y hy
      rcases mem_sadd.mp hy with rfl | hy
      · rintro rfl; exact h2 hx
      · exact this.2.2 x hx y hy
    · intro l hl
      simp only [List.mem_append, mem_sadd] at hl
      rcases hl with hl | (rfl | hl)
      · exact hs.known l (by simp [hl])
      · exact h1
      · exact hs.known l (by simp [hl])
  | addConstraint c => exact ⟨⟨h.vars.keys, h.vars.arrays⟩, h.names, h.distinct, h.known⟩
  | removeConstraint l =>
    simp only [Op.call, removeConstraint]
    py_simp
    split
    · exact h
    · exact ⟨⟨h.vars.keys, h.vars.arrays⟩, h.names, h.distinct, h.known⟩
  | setOffset c => exact sizeOk_offset _ _ h
  | fromPyqubo now pm =>
    exact withSnd_inv pm (fromPyqubo_inv (I := SizeOk) (add_frame sizeOk_table) sizeOk_offset now) m h
  | toIsing clk =>
    simp only [Op.call, toIsing_run]
    split
    · exact h
    · exact h.conv _ _ _ _ _ _ _ _
  | toQubo clk =>
    simp only [Op.call, toQubo_run]
    split
    · exact h
    · exact h.conv _ _ _ _ _ _ _ _
  | merge clk o => exact absurd hp id
  | toPhysical a b c => exact hmap (toPhysical_frame sizeOk_table sizeOk_offset env a b c m h)

/-- Along every such history of a new model, `get_size` counts the variables that are neither deleted nor
fixed. -/
theorem C16_size_along_history_partial {env : Env} {mt : MType} {id : String}
    (h : Reach env SizeSafe (LModel.new mt id) m) :
    m.size = ((m.allLabels.filter fun l => l ∉ m.deleted ∧ l ∉ m.fixed).length : Int) := by
  have hs : SizeOk m := by
    induction h with
    | start => exact ⟨new_varsOk _ _, by simp [LModel.new, dkeys], List.nodup_nil, by simp [LModel.new]⟩
    | step m op h hp ih => exact step_sizeOk env op ih hp
  exact C16_size_partial hs.vars hs.names hs.distinct hs.known

/-- Deleting and then fixing a variable counts it twice. -/
theorem C16_delete_fix_refuted :
    let m := Ex.after (LModel.new .ising "1") (do
      let _ ← createVars "x" [2]
      deleteVariable Ex.x0
      fixVariable (fun _ => 0) Ex.x0 (.num 1))
    m.size = 0 ∧ m.allLabels.filter (fun l => l ∉ m.deleted ∧ l ∉ m.fixed) = ["x[1]"] := by
  decide

/-- Deleting a variable that is not in the model makes the size negative. -/
theorem C16_delete_unknown_refuted :
    (Ex.after (LModel.new .ising "1") (deleteVariable Ex.x0)).size = -1 := by
  decide

/-- Registering the array anew with a smaller shape leaves a deleted variable that no longer exists. -/
theorem C16_recreate_refuted :
    let m := Ex.after (LModel.new .ising "1") (do
      let _ ← createVars "x" [2]
      deleteVariable Ex.x1
      let _ ← createVars "x" [1])
    m.size = 0 ∧ m.allLabels.filter (fun l => l ∉ m.deleted ∧ l ∉ m.fixed) = ["x[0]"] := by
  decide

example : ∃ m, Reach ⟨0, fun _ => ""⟩ SizeSafe (LModel.new .qubo "1") m ∧ m.size = 2 ∧ m.deleted = ["x[0]"] ∧
    m.fixed = ["x[1]"] := by
  refine ⟨_, .step _ (.fix (fun _ => 0) Ex.b1 (.num 1)) (.step _ (.delete Ex.b0) (.step _ (.append "x" [1])
    (.step _ (.variables "x" [3]) .start ?_) ?_) ?_) ?_, ?_, ?_, ?_⟩
  · exact ⟨by decide, by decide⟩
  · refine ⟨by decide, ?_⟩
    intro old h
    cases h
    decide
  · exact ⟨by decide, by decide⟩
  · exact ⟨by decide, by decide⟩
  · decide
  · decide
  · decide

end Sawatabi.Props
