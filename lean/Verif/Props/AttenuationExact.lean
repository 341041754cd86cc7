import Mathlib.Tactic.FieldSimp
import Verif.Props.Attenuation

/-!
# C72, C73 for every column: numbers, NaN and strings
-/

namespace Sawatabi.Props

open Stream

variable {env : Env} {clks : Nat → Nat → ℚ} {ids : Nat → String} {key : String} {minScale : ℚ} {m m₁ : LModel} {p : Physical}
  {ref : List PyVal}

/-- The numbers in a column. -/
def numbers (ref : List PyVal) : List ℚ := ref.filterMap fun v => match v with | .num q => some q | _ => none

theorem mem_numbers {q : ℚ} : q ∈ numbers ref ↔ PyVal.num q ∈ ref := by
  unfold numbers
  rw [List.mem_filterMap]
  constructor
  · rintro ⟨v, hv, h⟩
    cases v <;> simp at h
    subst h
    exact hv
  · exact fun h => ⟨_, h, rfl⟩

/-! ## Smallest and greatest value with NaN -/

theorem pyMin_nan (l : List PyVal) (hl : ∀ v ∈ l, Numeric v) : pyMin (.nan :: l) = .ok .nan := by
  unfold pyMin
  simp only
  induction l with
  | nil => rfl
  | cons b l ih =>
    rw [List.foldlM_cons]
    have : pyLt b .nan = .ok false := by
      have := hl b (by simp)
      cases b <;> first | rfl | exact absurd this id
    rw [this, Except.bind_ok]
    exact ih fun v hv => hl v (by simp [hv])

theorem pyMax_nan (l : List PyVal) (hl : ∀ v ∈ l, Numeric v) : pyMax (.nan :: l) = .ok .nan := by
  unfold pyMax
  simp only
  induction l with
  | nil => rfl
  | cons b l ih =>
    rw [List.foldlM_cons]
    have : pyLt .nan b = .ok false := by
      have := hl b (by simp)
      cases b <;> first | rfl | exact absurd this id
    rw [this, Except.bind_ok]
    exact ih fun v hv => hl v (by simp [hv])

/-- If the first value is a number, NaN is passed over. -/
theorem pyMin_mixed (t : ℚ) (l : List PyVal) (hl : ∀ v ∈ l, Numeric v) : pyMin (.num t :: l) = pyMin ((t :: numbers l).map .num) := by
  unfold pyMin
  simp only [List.map_cons]
  induction l generalizing t with
  | nil => rfl
  | cons b l ih =>
    have hl' : ∀ v ∈ l, Numeric v := fun v hv => hl v (by simp [hv])
    cases b with
    | str s => exact absurd (hl (.str s) (by simp)) id
    | nan => exact ih t hl'
    | num q =>
      show (PyVal.num q :: l).foldlM _ _ = ((PyVal.num q) :: (numbers l).map PyVal.num).foldlM _ _
      simp only [List.foldlM_cons, pyLt, Except.bind_ok]
      by_cases h : q < t
      · rw [decide_eq_true h]; exact ih q hl'
      · rw [decide_eq_false h]; exact ih t hl'

theorem pyMax_mixed (t : ℚ) (l : List PyVal) (hl : ∀ v ∈ l, Numeric v) : pyMax (.num t :: l) = pyMax ((t :: numbers l).map .num) := by
  unfold pyMax
  simp only [List.map_cons]
  induction l generalizing t with
  | nil => rfl
  | cons b l ih =>
    have hl' : ∀ v ∈ l, Numeric v := fun v hv => hl v (by simp [hv])
    cases b with
    | str s => exact absurd (hl (.str s) (by simp)) id
    | nan => exact ih t hl'
    | num q =>
      show (PyVal.num q :: l).foldlM _ _ = ((PyVal.num q) :: (numbers l).map PyVal.num).foldlM _ _
      simp only [List.foldlM_cons, pyLt, Except.bind_ok]
      by_cases h : t < q
      · rw [decide_eq_true h]; exact ih q hl'
      · rw [decide_eq_false h]; exact ih t hl'

/-! ## C72 with NaN -/

/-- If the first interaction has no reference timestamp (NaN), the scales stay as they are. -/
theorem C72_nan_first (hm : m.Rect) (hp : (toPhysical env clks ids []).run m = .ok p m₁) {l : List PyVal}
    (hcol : dget m₁.attrCols key = some (.nan :: l)) (hl : ∀ v ∈ l, Numeric v) :
    (attenuate env clks ids key minScale).run m = .ok () m₁ :=
  (attenuate_run hm hp hcol (by
    intro v hv
    rcases List.mem_cons.mp hv with rfl | hv
    · trivial
    · exact hl v hv) (pyMin_nan l hl) (pyMax_nan l hl) trivial trivial).2

/-- If the first interaction has a reference timestamp, those without are passed over: the others are interpolated between
the oldest and the newest, if these differ, and those without get NaN as their scale. -/
theorem C72_nan_later (hm : m.Rect) (hp : (toPhysical env clks ids []).run m = .ok p m₁) {t : ℚ} {l : List PyVal}
    (hcol : dget m₁.attrCols key = some (.num t :: l)) (hl : ∀ v ∈ l, Numeric v) :
    ∃ lo hi, lo ∈ t :: numbers l ∧ hi ∈ t :: numbers l ∧ (∀ q ∈ t :: numbers l, lo ≤ q ∧ q ≤ hi) ∧
      (lo = hi → (attenuate env clks ids key minScale).run m = .ok () m₁) ∧
      (lo < hi → ∃ rows, (attenuate env clks ids key minScale).run m = .ok () { m₁ with rows := rows } ∧
        rows.length = m₁.rows.length ∧ ∀ (i : Nat) (r : Row), m₁.rows[i]? = some r →
          (∃ q c, (PyVal.num t :: l)[i]? = some (.num q) ∧ rows[i]? = some { r with scale := .num c } ∧
            (c - minScale) * (hi - lo) = (1 - minScale) * (q - lo)) ∨
          ((PyVal.num t :: l)[i]? = some .nan ∧ rows[i]? = some { r with scale := nanScale })) := by
  obtain ⟨lo, l1, l2, l3⟩ := pyMin_num t (numbers l)
  obtain ⟨hi, g1, g2, g3⟩ := pyMax_num t (numbers l)
  rw [← pyMin_mixed t l hl] at l1
  rw [← pyMax_mixed t l hl] at g1
  have hnum : ∀ v ∈ PyVal.num t :: l, Numeric v := by
    intro v hv
    rcases List.mem_cons.mp hv with rfl | hv
    · trivial
    · exact hl v hv
  obtain ⟨hlen, hrun⟩ := attenuate_run (minScale := minScale) hm hp hcol hnum l1 g1 trivial trivial
  simp only at hrun
  refine ⟨lo, hi, l2, g2, fun q hq => ⟨l3 q hq, g3 q hq⟩, fun h => ?_, fun h => ?_⟩
  · rw [if_neg (by rw [h]; exact lt_irrefl _)] at hrun
    exact hrun
  · rw [if_pos h] at hrun
    refine ⟨_, hrun, by rw [List.length_zipWith, hlen]; simp, fun i r hr => ?_⟩
    have hi' : i < (PyVal.num t :: l).length := by
      rw [hlen]; exact (List.getElem?_eq_some_iff.mp hr).1
    obtain ⟨v, hv⟩ : ∃ v, (PyVal.num t :: l)[i]? = some v := ⟨_, List.getElem?_eq_getElem hi'⟩
    have hrow : (List.zipWith (fun r v => { r with scale := scaleFor minScale lo hi v }) m₁.rows (PyVal.num t :: l))[i]? =
        some { r with scale := scaleFor minScale lo hi v } := by
      rw [List.getElem?_zipWith, hr, hv]
    have hne : hi - lo ≠ 0 := (sub_pos.mpr h).ne'
    cases v with
    | str s => exact absurd (hnum _ (List.mem_of_getElem? hv)) id
    | nan => exact .inr ⟨hv, hrow⟩
    | num q =>
      refine .inl ⟨q, _, hv, hrow, ?_⟩
      field_simp
      ring

/-! ## C73, exactly -/

/-- A string. -/
def IsString : PyVal → Prop
  | .str _ => True
  | _ => False

instance : DecidablePred IsString := fun v => by cases v <;> unfold IsString <;> infer_instance

theorem numeric_iff (v : PyVal) : Numeric v ↔ ¬ IsString v := by cases v <;> simp [Numeric, IsString]

/-- One class of values stays in its class, two classes cannot be compared. -/
theorem fold_kind (f : PyVal → PyVal → Except Err PyVal)
    (hsame : ∀ a b, (IsString a ↔ IsString b) → ∃ r, f a b = .ok r ∧ (r = a ∨ r = b))
    (hdiff : ∀ a b, ¬ (IsString a ↔ IsString b) → f a b = .error .typeError) (l : List PyVal) (a : PyVal) :
    ((∀ b ∈ l, (IsString a ↔ IsString b)) → ∃ r, l.foldlM f a = .ok r ∧ r ∈ a :: l) ∧
    (¬ (∀ b ∈ l, (IsString a ↔ IsString b)) → l.foldlM f a = .error .typeError) := by
  induction l generalizing a with
  | nil => exact ⟨fun _ => ⟨a, rfl, by simp⟩, fun h => absurd (by simp) h⟩
  | cons b l ih =>
    rw [List.foldlM_cons]
    by_cases hab : IsString a ↔ IsString b
    · obtain ⟨r, hr, hmem⟩ := hsame a b hab
      rw [hr, Except.bind_ok]
      have hk : IsString r ↔ IsString a := by
        rcases hmem with rfl | rfl
        · rfl
        · exact hab.symm
      obtain ⟨h1, h2⟩ := ih r
      constructor
      · intro h
        obtain ⟨x, e1, e2⟩ := h1 fun c hc => hk.trans (h c (by simp [hc]))
        refine ⟨x, e1, ?_⟩
        rcases List.mem_cons.mp e2 with rfl | e2
        · rcases hmem with rfl | rfl <;> simp
        · simp [e2]
      · intro h
        refine h2 fun h' => h fun c hc => ?_
        rcases List.mem_cons.mp hc with rfl | hc
        · exact hab
        · exact hk.symm.trans (h' c hc)
    · rw [hdiff a b hab]
      exact ⟨fun h => absurd (h b (by simp)) hab, fun _ => rfl⟩

theorem pyLt_same {a b : PyVal} (h : IsString a ↔ IsString b) : ∃ r, pyLt a b = .ok r := by
  cases a <;> cases b <;> simp [IsString] at h <;> exact ⟨_, rfl⟩

theorem pyLt_diff {a b : PyVal} (h : ¬ (IsString a ↔ IsString b)) : pyLt a b = .error .typeError := by
  cases a <;> cases b <;> simp [IsString] at h <;> rfl

theorem pyMin_kind (l : List PyVal) (a : PyVal) :
    ((∀ b ∈ l, (IsString a ↔ IsString b)) → ∃ r, pyMin (a :: l) = .ok r ∧ r ∈ a :: l) ∧
    (¬ (∀ b ∈ l, (IsString a ↔ IsString b)) → pyMin (a :: l) = .error .typeError) := by
  refine fold_kind _ (fun a b h => ?_) (fun a b h => ?_) l a
  · obtain ⟨r, hr⟩ := pyLt_same h.symm
    rw [hr, Except.bind_ok]
    exact ⟨_, rfl, by cases r <;> simp⟩
  · rw [pyLt_diff fun h' => h h'.symm]
    rfl

theorem pyMax_kind (l : List PyVal) (a : PyVal) :
    ((∀ b ∈ l, (IsString a ↔ IsString b)) → ∃ r, pyMax (a :: l) = .ok r ∧ r ∈ a :: l) ∧
    (¬ (∀ b ∈ l, (IsString a ↔ IsString b)) → pyMax (a :: l) = .error .typeError) := by
  refine fold_kind _ (fun a b h => ?_) (fun a b h => ?_) l a
  · obtain ⟨r, hr⟩ := pyLt_same h
    rw [hr, Except.bind_ok]
    exact ⟨_, rfl, by cases r <;> simp⟩
  · rw [pyLt_diff h]
    rfl

theorem pyMin_str (l : List String) (a : String) :
    ∃ s, pyMin ((a :: l).map PyVal.str) = .ok (.str s) ∧ s ∈ a :: l ∧ ∀ x ∈ a :: l, ¬ x < s := by
  unfold pyMin
  simp only [List.map_cons]
  induction l generalizing a with
  | nil => exact ⟨a, rfl, by simp, fun x hx => by rw [List.mem_singleton.mp hx]; exact String.lt_irrefl a⟩
  | cons b l ih =>
    simp only [List.map_cons, List.foldlM_cons, pyLt, Except.bind_ok]
    by_cases h : b < a
    · obtain ⟨s, h1, h2, h3⟩ := ih b
      refine ⟨s, by rw [decide_eq_true h]; exact h1, List.mem_cons_of_mem _ h2, ?_⟩
      intro x hx
      rcases List.mem_cons.mp hx with rfl | hx
      · exact fun hlt => h3 b (by simp) (String.lt_trans h hlt)
      · exact h3 x hx
    · obtain ⟨s, h1, h2, h3⟩ := ih a
      refine ⟨s, by rw [decide_eq_false h]; exact h1, ?_, ?_⟩
      · rcases List.mem_cons.mp h2 with rfl | h2
        · simp
        · simp [h2]
      · intro x hx
        rcases List.mem_cons.mp hx with rfl | hx
        · exact h3 x (by simp)
        · rcases List.mem_cons.mp hx with rfl | hx
          · intro hlt
            have := String.not_lt.mp (h3 a (by simp))
            exact h (String.not_le.mp fun hle => absurd hlt (String.not_lt.mpr (String.le_trans this hle)))
          · exact h3 x (by simp [hx])

theorem pyMax_str (l : List String) (a : String) :
    ∃ s, pyMax ((a :: l).map PyVal.str) = .ok (.str s) ∧ s ∈ a :: l ∧ ∀ x ∈ a :: l, ¬ s < x := by
  unfold pyMax
  simp only [List.map_cons]
  induction l generalizing a with
  | nil => exact ⟨a, rfl, by simp, fun x hx => by rw [List.mem_singleton.mp hx]; exact String.lt_irrefl a⟩
  | cons b l ih =>
    simp only [List.map_cons, List.foldlM_cons, pyLt, Except.bind_ok]
    by_cases h : a < b
    · obtain ⟨s, h1, h2, h3⟩ := ih b
      refine ⟨s, by rw [decide_eq_true h]; exact h1, List.mem_cons_of_mem _ h2, ?_⟩
      intro x hx
      rcases List.mem_cons.mp hx with rfl | hx
      · exact fun hlt => h3 b (by simp) (String.lt_trans hlt h)
      · exact h3 x hx
    · obtain ⟨s, h1, h2, h3⟩ := ih a
      refine ⟨s, by rw [decide_eq_false h]; exact h1, ?_, ?_⟩
      · rcases List.mem_cons.mp h2 with rfl | h2
        · simp
        · simp [h2]
      · intro x hx
        rcases List.mem_cons.mp hx with rfl | hx
        · exact h3 x (by simp)
        · rcases List.mem_cons.mp hx with rfl | hx
          · intro hlt
            have := String.not_lt.mp (h3 a (by simp))
            exact h (String.not_le.mp fun hle => absurd hlt (String.not_lt.mpr (String.le_trans hle this)))
          · exact h3 x (by simp [hx])

/-- A column that attenuation accepts: numbers and NaN, or one string throughout; not empty. -/
def Attenuable (ref : List PyVal) : Prop := ref ≠ [] ∧ ((∀ v ∈ ref, Numeric v) ∨ ∃ s, ∀ v ∈ ref, v = .str s)

/-- Strings throughout. -/
theorem strings_of (l : List PyVal) (h : ∀ v ∈ l, IsString v) : ∃ l' : List String, l = l'.map PyVal.str := by
  induction l with
  | nil => exact ⟨[], rfl⟩
  | cons a l ih =>
    obtain ⟨l', rfl⟩ := ih fun v hv => h v (by simp [hv])
    have := h a (by simp)
    cases a with
    | str s => exact ⟨s :: l', rfl⟩
    | nan => exact absurd this id
    | num q => exact absurd this id

/-- **C73** exactly, for rectangular tables: the step raises what `to_physical` raises; then `KeyError` if the attribute is no
column, `ValueError` if the column is empty, `TypeError` if it has strings, unless it has the same string throughout; it
succeeds otherwise. Where it raises after `to_physical`, it leaves the model as that left it. -/
theorem C73_exact (hm : m.Rect) :
    (∀ e m', (toPhysical env clks ids []).run m = .error e m' → (attenuate env clks ids key minScale).run m = .error e m') ∧
    ∀ p m₁, (toPhysical env clks ids []).run m = .ok p m₁ →
      (dget m₁.attrCols key = none → (attenuate env clks ids key minScale).run m = .error .keyError m₁) ∧
      ∀ ref, dget m₁.attrCols key = some ref →
        (ref = [] → (attenuate env clks ids key minScale).run m = .error .valueError m₁) ∧
        (Attenuable ref → ∃ m₂, (attenuate env clks ids key minScale).run m = .ok () m₂) ∧
        (ref ≠ [] → ¬ Attenuable ref → (attenuate env clks ids key minScale).run m = .error .typeError m₁) := by
  refine ⟨fun e m' h => ?_, fun p m₁ hp => ⟨fun h => ?_, fun ref hcol => ⟨?_, fun ⟨hne, h⟩ => ?_, fun hne hno => ?_⟩⟩⟩
  · unfold attenuate
    simp only [Py.run_bind, h]
  · unfold attenuate
    simp only [Py.run_bind, hp, Py.run_get, h]
    rfl
  · rintro rfl
    unfold attenuate
    simp only [Py.run_bind, hp, Py.run_get, hcol]
    rfl
  · rcases h with h | ⟨s, h⟩
    · exact C73_ok_partial hm hp hcol hne h
    · cases ref with
      | nil => exact absurd rfl hne
      | cons a l =>
        have ha := h a (by simp)
        subst ha
        have hk : ∀ b ∈ l, (IsString (.str s) ↔ IsString b) := fun b hb => by rw [h b (by simp [hb])]
        obtain ⟨lo, l1, l2⟩ := (pyMin_kind l (.str s)).1 hk
        obtain ⟨hi, g1, g2⟩ := (pyMax_kind l (.str s)).1 hk
        have e1 := h lo l2
        have e2 := h hi g2
        subst e1 e2
        refine ⟨m₁, ?_⟩
        unfold attenuate
        simp only [Py.run_bind, hp, Py.run_get, hcol, l1, g1, Py.run_liftE_ok, pyLt, decide_eq_false (String.lt_irrefl s)]
        rfl
  · cases ref with
    | nil => exact absurd rfl hne
    | cons a l =>
      by_cases hk : ∀ b ∈ l, (IsString a ↔ IsString b)
      · have ha : IsString a := by
          by_contra ha
          refine hno ⟨hne, .inl fun v hv => ?_⟩
          rw [numeric_iff]
          rcases List.mem_cons.mp hv with rfl | hv
          · exact ha
          · exact fun h => ha ((hk v hv).mpr h)
        obtain ⟨ss, hss⟩ := strings_of (a :: l) (by
          intro v hv
          rcases List.mem_cons.mp hv with rfl | hv
          · exact ha
          · exact (hk v hv).mp ha)
        cases ss with
        | nil => cases hss
        | cons b ss =>
          rw [hss] at hcol hno
          obtain ⟨lo, l1, l2, l3⟩ := pyMin_str ss b
          obtain ⟨hi, g1, g2, g3⟩ := pyMax_str ss b
          have hlt : lo < hi := by
            by_contra hlt
            refine hno ⟨by simp, .inr ⟨lo, fun v hv => ?_⟩⟩
            obtain ⟨x, hx, rfl⟩ := List.mem_map.mp hv
            congr 1
            have h1 := String.not_lt.mp (l3 x hx)
            have h2 := String.not_lt.mp (g3 x hx)
            have h3 := String.not_lt.mp hlt
            exact String.le_antisymm (String.le_trans h2 h3) h1
          rw [List.map_cons] at hcol l1 g1
          unfold attenuate
          simp only [Py.run_bind, hp, Py.run_get, hcol, l1, g1, Py.run_liftE_ok, pyLt, decide_eq_true hlt, if_true,
             List.zipIdx_cons, Py.run_forM_cons]
          rfl
      · unfold attenuate
        simp only [Py.run_bind, hp, Py.run_get, hcol, (pyMin_kind l a).2 hk]
        rfl

/-- **C73**: when the step succeeds. -/
theorem C73_ok_iff (hm : m.Rect) : (∃ m₂, (attenuate env clks ids key minScale).run m = .ok () m₂) ↔
    ∃ p m₁ ref, (toPhysical env clks ids []).run m = .ok p m₁ ∧ dget m₁.attrCols key = some ref ∧ Attenuable ref := by
  obtain ⟨h1, h2⟩ := C73_exact (env := env) (clks := clks) (ids := ids) (key := key) (minScale := minScale) hm
  constructor
  · rintro ⟨m₂, h⟩
    cases hp : (toPhysical env clks ids []).run m with
    | error e m' => rw [h1 e m' hp] at h; cases h
    | ok p m₁ =>
      obtain ⟨h3, h4⟩ := h2 p m₁ hp
      cases hcol : dget m₁.attrCols key with
      | none => rw [h3 hcol] at h; cases h
      | some ref =>
        refine ⟨p, m₁, ref, rfl, hcol, ?_⟩
        by_contra hno
        obtain ⟨e1, -, e3⟩ := h4 ref hcol
        by_cases he : ref = []
        · rw [e1 he] at h; cases h
        · rw [e3 he hno] at h; cases h
  · rintro ⟨p, m₁, ref, hp, hcol, ha⟩
    exact ((h2 p m₁ hp).2 ref hcol).2.1 ha

/-- Columns of each sort: accepted, accepted, empty, not accepted, not accepted. -/
example : Attenuable [.num 1, .nan] ∧ Attenuable [.str "a", .str "a"] ∧ ¬ Attenuable [] ∧
    ¬ Attenuable [.str "a", .str "b"] ∧ ¬ Attenuable [.num 1, .str "b"] := by
  unfold Attenuable
  refine ⟨⟨by simp, .inl (by simp [Numeric])⟩, ⟨by simp, .inr ⟨"a", by simp⟩⟩, by simp, ?_, ?_⟩
  · rintro ⟨-, h | ⟨s, h⟩⟩
    · exact h (.str "a") (by simp)
    · have h1 := h (.str "a") (by simp)
      have h2 := h (.str "b") (by simp)
      rw [← h1] at h2
      revert h2
      decide
  · rintro ⟨-, h | ⟨s, h⟩⟩
    · exact h (.str "b") (by simp)
    · have h1 := h (.num 1) (by simp)
      cases h1

/-- One run of each sort. -/
example : Ex.raised ((Ex.att "attributes.ts").run (Ex.attModel false (.num 1) [.num 10, .nan, .num 15])) = none ∧
    Ex.raised ((Ex.att "attributes.ts").run (Ex.attModel false (.num 1) [.nan, .num 20, .num 15])) = none ∧
    Ex.raised ((Ex.att "attributes.ts").run (Ex.attModel false (.num 1) [.str "a", .str "a", .str "a"])) = none ∧
    Ex.raised ((Ex.att "attributes.ts").run (Ex.attModel false (.num 1) [.num 10, .num 20, .str "c"])) = some .typeError := by
  decide +kernel

end Sawatabi.Props
