import Verif.Props.Stream
import Verif.Lemmas.ToPhysical

/-!
# C72–C73: attenuation
-/

namespace Sawatabi.Props

open Stream

variable {env : Env} {clks : Nat → Nat → ℚ} {ids : Nat → String} {key : String} {minScale : ℚ} {m m₁ : LModel} {p : Physical}

/-! ## Smallest and greatest value -/

theorem pyMin_num (t : ℚ) (ts : List ℚ) :
    ∃ lo, pyMin ((t :: ts).map PyVal.num) = .ok (.num lo) ∧ lo ∈ t :: ts ∧ ∀ x ∈ t :: ts, lo ≤ x := by
  unfold pyMin
  simp only [List.map_cons]
  induction ts generalizing t with
  | nil => exact ⟨t, rfl, by simp, by simp⟩
  | cons a ts ih =>
    simp only [List.map_cons, List.foldlM_cons, pyLt, Except.bind_ok]
    by_cases h : a < t
    · obtain ⟨lo, h1, h2, h3⟩ := ih a
      refine ⟨lo, by rw [decide_eq_true h]; exact h1, List.mem_cons_of_mem _ h2, ?_⟩
      intro x hx
      rcases List.mem_cons.mp hx with rfl | hx
      · exact le_trans (h3 a (by simp)) h.le
      · exact h3 x hx
    · obtain ⟨lo, h1, h2, h3⟩ := ih t
      refine ⟨lo, by rw [decide_eq_false h]; exact h1, ?_, ?_⟩
      · rcases List.mem_cons.mp h2 with rfl | h2
        · simp
        · simp [h2]
      · intro x hx
        rcases List.mem_cons.mp hx with rfl | hx
        · exact h3 x (by simp)
        · rcases List.mem_cons.mp hx with rfl | hx
          · exact le_trans (h3 t (by simp)) (not_lt.mp h)
          · exact h3 x (by simp [hx])

theorem pyMax_num (t : ℚ) (ts : List ℚ) :
    ∃ hi, pyMax ((t :: ts).map PyVal.num) = .ok (.num hi) ∧ hi ∈ t :: ts ∧ ∀ x ∈ t :: ts, x ≤ hi := by
  unfold pyMax
  simp only [List.map_cons]
  induction ts generalizing t with
  | nil => exact ⟨t, rfl, by simp, by simp⟩
  | cons a ts ih =>
    simp only [List.map_cons, List.foldlM_cons, pyLt, Except.bind_ok]
    by_cases h : t < a
    · obtain ⟨hi, h1, h2, h3⟩ := ih a
      refine ⟨hi, by rw [decide_eq_true h]; exact h1, List.mem_cons_of_mem _ h2, ?_⟩
      intro x hx
      rcases List.mem_cons.mp hx with rfl | hx
      · exact le_trans h.le (h3 a (by simp))
      · exact h3 x hx
    · obtain ⟨hi, h1, h2, h3⟩ := ih t
      refine ⟨hi, by rw [decide_eq_false h]; exact h1, ?_, ?_⟩
      · rcases List.mem_cons.mp h2 with rfl | h2
        · simp
        · simp [h2]
      · intro x hx
        rcases List.mem_cons.mp hx with rfl | hx
        · exact h3 x (by simp)
        · rcases List.mem_cons.mp hx with rfl | hx
          · exact le_trans (not_lt.mp h) (h3 t (by simp))
          · exact h3 x (by simp [hx])

/-- A number or NaN. -/
def Numeric : PyVal → Prop
  | .str _ => False
  | _ => True

theorem pyLt_numeric {a b : PyVal} (ha : Numeric a) (hb : Numeric b) : ∃ r, pyLt a b = .ok r := by
  cases a <;> cases b <;> first | exact ⟨_, rfl⟩ | exact absurd ha id | exact absurd hb id

theorem pyFold_numeric {l : List PyVal} (hl : ∀ v ∈ l, Numeric v) (f : PyVal → PyVal → Except Err PyVal)
    (hf : ∀ a b, Numeric a → Numeric b → ∃ r, f a b = .ok r ∧ Numeric r) {a : PyVal} (ha : Numeric a) :
    ∃ r, l.foldlM f a = .ok r ∧ Numeric r := by
  induction l generalizing a with
  | nil => exact ⟨a, rfl, ha⟩
  | cons b l ih =>
    obtain ⟨r, h1, h2⟩ := hf a b ha (hl b (by simp))
    obtain ⟨r2, h3, h4⟩ := ih (fun v hv => hl v (by simp [hv])) h2
    exact ⟨r2, by rw [List.foldlM_cons, h1, Except.bind_ok, h3], h4⟩

theorem pyMin_numeric {l : List PyVal} (hl : ∀ v ∈ l, Numeric v) (hne : l ≠ []) : ∃ r, pyMin l = .ok r ∧ Numeric r := by
  cases l with
  | nil => exact absurd rfl hne
  | cons a l =>
    refine pyFold_numeric (fun v hv => hl v (by simp [hv])) _ (fun m x hm hx => ?_) (hl a (by simp))
    obtain ⟨r, hr⟩ := pyLt_numeric hx hm
    rw [hr, Except.bind_ok]
    exact ⟨_, rfl, by cases r <;> assumption⟩

theorem pyMax_numeric {l : List PyVal} (hl : ∀ v ∈ l, Numeric v) (hne : l ≠ []) : ∃ r, pyMax l = .ok r ∧ Numeric r := by
  cases l with
  | nil => exact absurd rfl hne
  | cons a l =>
    refine pyFold_numeric (fun v hv => hl v (by simp [hv])) _ (fun m x hm hx => ?_) (hl a (by simp))
    obtain ⟨r, hr⟩ := pyLt_numeric hm hx
    rw [hr, Except.bind_ok]
    exact ⟨_, rfl, by cases r <;> assumption⟩

/-! ## The loop -/

/-- The scale for a numeric value. -/
def scaleFor (minScale lo hi : ℚ) : PyVal → Coef
  | .num t => .num ((1 - minScale) / (hi - lo) * (t - lo) + minScale)
  | _ => nanScale

theorem newScale_numeric {lo hi : ℚ} {v : PyVal} (hv : Numeric v) :
    newScale minScale (.num lo) (.num hi) v = .ok (scaleFor minScale lo hi v) := by
  cases v <;> first | rfl | exact absurd hv id

theorem attenuate_loop {lo hi : ℚ} (l : List PyVal) (hl : ∀ v ∈ l, Numeric v) (m : LModel) (pre rest : List Row)
    (hr : m.rows = pre ++ rest) (hlen : rest.length = l.length) :
    ((l.zipIdx pre.length).forM (attenuateOne minScale (.num lo) (.num hi))).run m =
      .ok () { m with rows := pre ++ List.zipWith (fun r v => { r with scale := scaleFor minScale lo hi v }) rest l } := by
  induction l generalizing m pre rest with
  | nil =>
    have : rest = [] := List.eq_nil_of_length_eq_zero hlen
    subst this
    simp only [List.zipIdx_nil, Py.run_forM_nil, List.zipWith_nil_left]
    rw [← hr]
  | cons v l ih =>
    cases rest with
    | nil => cases hlen
    | cons r rest =>
      rw [List.zipIdx_cons, Py.run_forM_cons]
      have h1 : (attenuateOne minScale (.num lo) (.num hi) (v, pre.length)).run m =
          .ok () { m with rows := pre ++ { r with scale := scaleFor minScale lo hi v } :: rest } := by
        unfold attenuateOne
        simp only [Py.run_bind, newScale_numeric (hl v (by simp)), Py.run_liftE_ok, Py.run_get]
        rw [if_pos (by rw [hr]; simp)]
        simp only [Py.run_set, hr]
        congr 2
        clear hr ih
        induction pre with
        | nil => rfl
        | cons a pre ih => simp only [List.cons_append, List.length_cons, List.modify_succ_cons, ih]
      rw [h1]
      simp only
      have := ih (fun v hv => hl v (by simp [hv])) { m with rows := pre ++ { r with scale := scaleFor minScale lo hi v } :: rest }
        (pre ++ [{ r with scale := scaleFor minScale lo hi v }]) rest (by simp) (by simpa using hlen)
      rw [List.length_append, List.length_singleton] at this
      rw [this]
      simp

/-- Attenuation with a numeric column, in terms of the smallest and the greatest value. -/
theorem attenuate_run (hm : m.Rect) (hp : (toPhysical env clks ids []).run m = .ok p m₁) {ref : List PyVal}
    (hcol : dget m₁.attrCols key = some ref) (hnum : ∀ v ∈ ref, Numeric v) {lo hi : PyVal} (hlo : pyMin ref = .ok lo)
    (hhi : pyMax ref = .ok hi) (h1 : Numeric lo) (h2 : Numeric hi) :
    ref.length = m₁.rows.length ∧ (attenuate env clks ids key minScale).run m = .ok () (
      match lo, hi with
      | .num lo, .num hi => if lo < hi then
          { m₁ with rows := List.zipWith (fun r v => { r with scale := scaleFor minScale lo hi v }) m₁.rows ref } else m₁
      | _, _ => m₁) := by
  have hrect : m₁.Rect := by
    have := toPhysical_rect env clks ids [] m hm
    rw [hp] at this
    exact this
  have hlen : ref.length = m₁.rows.length := hrect.cols _ (dget_mem hcol)
  refine ⟨hlen, ?_⟩
  unfold attenuate
  simp only [Py.run_bind, hp, Py.run_get, hcol, hlo, hhi, Py.run_liftE_ok]
  obtain ⟨r, hr⟩ := pyLt_numeric h1 h2
  simp only [hr, Py.run_liftE_ok]
  cases lo with
  | str s => exact absurd h1 id
  | nan =>
    cases hi with
    | str s => exact absurd h2 id
    | nan => cases hr; rfl
    | num b => cases hr; rfl
  | num a =>
    cases hi with
    | str s => exact absurd h2 id
    | nan => cases hr; rfl
    | num b =>
      have hr' : decide (a < b) = r := Except.ok.inj hr
      by_cases hab : a < b
      · rw [decide_eq_true hab] at hr'
        subst hr'
        simp only [if_true, if_pos hab]
        exact attenuate_loop ref hnum m₁ [] m₁.rows rfl hlen.symm
      · rw [decide_eq_false hab] at hr'
        subst hr'
        simp only [if_neg hab]
        rfl

/-! ## C72 -/

/-- **C72**: the model is that after `to_physical`, only the scales differ. They are an affine function of the reference
timestamp: `minScale` at the oldest, 1 at the newest, in range and monotone. -/
theorem C72_interpolates_partial (hm : m.Rect) (hp : (toPhysical env clks ids []).run m = .ok p m₁) {ts : List ℚ}
    (hcol : dget m₁.attrCols key = some (ts.map PyVal.num)) (hts : ∃ x ∈ ts, ∃ y ∈ ts, x < y) :
    ∃ rows lo hi, ∃ sc : ℚ → ℚ, (attenuate env clks ids key minScale).run m = .ok () { m₁ with rows := rows } ∧
      ts.length = m₁.rows.length ∧ rows.length = m₁.rows.length ∧
      (∀ (i : Nat) r t, m₁.rows[i]? = some r → ts[i]? = some t → rows[i]? = some { r with scale := .num (sc t) }) ∧
      lo ∈ ts ∧ hi ∈ ts ∧ (∀ t ∈ ts, lo ≤ t ∧ t ≤ hi) ∧
      (∀ t, (sc t - minScale) * (hi - lo) = (1 - minScale) * (t - lo)) ∧ sc lo = minScale ∧ sc hi = 1 ∧
      (minScale ≤ 1 → (∀ t ∈ ts, minScale ≤ sc t ∧ sc t ≤ 1) ∧ ∀ t t', t ≤ t' → sc t ≤ sc t') := by
  obtain ⟨x, hx, y, hy, hxy⟩ := hts
  cases ts with
  | nil => cases hx
  | cons t0 ts =>
    obtain ⟨lo, l1, l2, l3⟩ := pyMin_num t0 ts
    obtain ⟨hi, g1, g2, g3⟩ := pyMax_num t0 ts
    have hlt : lo < hi := lt_of_le_of_lt (l3 x hx) (lt_of_lt_of_le hxy (g3 y hy))
    have hne : hi - lo ≠ 0 := by linarith [hlt] |> fun h : 0 < hi - lo => h.ne'
    obtain ⟨hlen, hrun⟩ := attenuate_run (minScale := minScale) hm hp hcol (by
      intro v hv
      obtain ⟨q, _, rfl⟩ := List.mem_map.mp hv
      trivial) l1 g1 trivial trivial
    simp only [if_pos hlt] at hrun
    rw [List.length_map] at hlen
    have hmono : minScale ≤ 1 → ∀ t t', t ≤ t' → (1 - minScale) / (hi - lo) * (t - lo) + minScale ≤
        (1 - minScale) / (hi - lo) * (t' - lo) + minScale := by
      intro hms t t' htt
      have h0 : 0 ≤ (1 - minScale) / (hi - lo) := div_nonneg (by linarith) (by linarith)
      have := mul_le_mul_of_nonneg_left (by linarith : t - lo ≤ t' - lo) h0
      linarith
    have hend : (1 - minScale) / (hi - lo) * (hi - lo) + minScale = 1 := by
      rw [div_mul_cancel₀ _ hne]; ring
    refine ⟨_, lo, hi, fun t => (1 - minScale) / (hi - lo) * (t - lo) + minScale, hrun, hlen, ?_, ?_, l2, g2,
      fun t ht => ⟨l3 t ht, g3 t ht⟩, ?_, by simp, hend, ?_⟩
    · simp [List.length_zipWith, ← hlen]
    · intro i r t hr ht
      simp only [List.getElem?_zipWith, hr, List.getElem?_map, ht, Option.map_some]
      rfl
    · intro t
      have : (1 - minScale) / (hi - lo) * (t - lo) + minScale - minScale = (1 - minScale) / (hi - lo) * (t - lo) := by ring
      rw [this, mul_right_comm, div_mul_cancel₀ _ hne]
    · intro hms
      refine ⟨fun t ht => ⟨?_, ?_⟩, hmono hms⟩
      · have := hmono hms lo t (l3 t ht)
        simpa using this
      · have := hmono hms t hi (g3 t ht)
        rw [hend] at this
        exact this

/-- If all reference timestamps are equal, nothing but `to_physical` happens: the scales stay as they are. -/
theorem C72_equal (hm : m.Rect) (hp : (toPhysical env clks ids []).run m = .ok p m₁) {ts : List ℚ} (hne : ts ≠ [])
    (hcol : dget m₁.attrCols key = some (ts.map PyVal.num)) (hts : ∀ x ∈ ts, ∀ y ∈ ts, x = y) :
    (attenuate env clks ids key minScale).run m = .ok () m₁ := by
  cases ts with
  | nil => exact absurd rfl hne
  | cons t0 ts =>
    obtain ⟨lo, l1, l2, l3⟩ := pyMin_num t0 ts
    obtain ⟨hi, g1, g2, g3⟩ := pyMax_num t0 ts
    obtain ⟨_, hrun⟩ := attenuate_run (minScale := minScale) hm hp hcol (by
      intro v hv
      obtain ⟨q, _, rfl⟩ := List.mem_map.mp hv
      trivial) l1 g1 trivial trivial
    have : ¬ lo < hi := by rw [hts lo l2 hi g2]; exact lt_irrefl _
    simp only [if_neg this] at hrun
    exact hrun

/-! ## C73 -/

/-- **C73** in part: for a non-empty column of numbers or NaN on a rectangular model the step succeeds if `to_physical` does. -/
theorem C73_ok_partial (hm : m.Rect) (hp : (toPhysical env clks ids []).run m = .ok p m₁) {ref : List PyVal}
    (hcol : dget m₁.attrCols key = some ref) (hne : ref ≠ []) (hnum : ∀ v ∈ ref, Numeric v) :
    ∃ m₂, (attenuate env clks ids key minScale).run m = .ok () m₂ := by
  obtain ⟨lo, l1, l2⟩ := pyMin_numeric hnum hne
  obtain ⟨hi, g1, g2⟩ := pyMax_numeric hnum hne
  exact ⟨_, (attenuate_run hm hp hcol hnum l1 g1 l2 g2).2⟩

/-- **C73** is false: if `map_fn` succeeds and the step raises, then so does the pipeline. -/
theorem C73_escapes {M S δ β : Type} {f : Fns M S δ β} {initial : M} {st : St M S δ} {w : Win δ} {shared : Bool} {step : Py M Unit}
    (hw : ¬ w.ts < st.ts.getD (-1)) (hne : w.elements ≠ [])
    (hmap : ∀ els inc out, ∃ model m', (f.mapFn st.sampleset els inc out).run (st.model.getD initial) = .ok model m' ∧
      ∃ e m'', step.run model = .error e m'') :
    ∃ e st', (process (.attenuation step) f initial shared w).run st = .error e st' := by
  have hs : ∃ c cs, sorted w.elements = c :: cs := by
    cases h : sorted w.elements with
    | nil =>
      have := (sorted_perm w.elements).length_eq
      rw [h] at this
      exact absurd (List.eq_nil_of_length_eq_zero this.symm) hne
    | cons c cs => exact ⟨c, cs, rfl⟩
  obtain ⟨c, cs, hs⟩ := hs
  rw [process_run, if_neg hw]
  simp only [currentElements, hs, resolveOutgoing_cons]
  unfold afterMap
  simp only
  obtain ⟨model, m', h1, e, m'', h2⟩ := hmap (c :: cs) (resolveIncoming (st.elements.getD []) (c :: cs))
    ((st.elements.getD []).takeWhile fun p => decide (p.ts < c.ts))
  simp only [h1, attenuationStage, h2]
  exact ⟨_, _, rfl⟩

/-! ## Examples -/

/-- A row of the examples. -/
def Ex.row (label : String) (c : Coef) (removed : Bool) : Row :=
  ⟨label, .lin ⟨.spin, label⟩, c, .num 1, some 0, true, removed⟩

/-- A model with three interactions and one attribute. -/
def Ex.attModel (removed : Bool) (c : Coef) (col : List PyVal) : LModel where
  mtype := .ising
  vars := [("x", ⟨[3], [⟨.spin, "x[0]"⟩, ⟨.spin, "x[1]"⟩, ⟨.spin, "x[2]"⟩]⟩)]
  offset := .num 0
  deleted := []
  fixed := []
  constraints := []
  rows := [Ex.row "x[0]" c removed, Ex.row "x[1]" (.num 2) removed, Ex.row "x[2]" (.num 3) removed]
  attrCols := [("attributes.ts", col)]
  attrs := ["attributes.ts"]
  length := 3
  id := "id"

def Ex.att (key : String) : Py LModel Unit := attenuate ⟨0, fun _ => ""⟩ (fun _ _ => 0) (fun _ => "c") key (1 / 10)

example : ∃ u m', (Ex.att "attributes.ts").run (Ex.attModel false (.num 1) [.num 10, .num 20, .num 15]) = .ok u m' ∧
    decide (m'.rows.map (·.scale) = [.num (1 / 10), .num 1, .num (11 / 20)]) = true :=
  Ex.exists_of_okAnd (by decide +kernel)

/-- An interaction without the attribute gets NaN as its scale, or nothing is attenuated: this depends on the order. -/
theorem C72_nan_refuted :
    (∃ u m', (Ex.att "attributes.ts").run (Ex.attModel false (.num 1) [.num 10, .num 20, .nan]) = .ok u m' ∧
      decide (m'.rows.map (·.scale) = [.num (1 / 10), .num 1, nanScale]) = true) ∧
    (∃ u m', (Ex.att "attributes.ts").run (Ex.attModel false (.num 1) [.nan, .num 20, .num 10]) = .ok u m' ∧
      decide (m'.rows.map (·.scale) = [.num 1, .num 1, .num 1]) = true) :=
  ⟨Ex.exists_of_okAnd (by decide +kernel), Ex.exists_of_okAnd (by decide +kernel)⟩

def Ex.raised {σ α : Type} (r : Res σ α) : Option Err :=
  match r with
  | .ok _ _ => none
  | .error e _ => some e

/-- The step raises for a key that is no column, if all interactions have been removed, with placeholders, and for strings. -/
theorem C73_refuted :
    Ex.raised ((Ex.att "attributes.other").run (Ex.attModel false (.num 1) [.num 10, .num 20, .num 15])) = some .keyError ∧
    Ex.raised ((Ex.att "attributes.ts").run (Ex.attModel true (.num 1) [.num 10, .num 20, .num 15])) = some .valueError ∧
    Ex.raised ((Ex.att "attributes.ts").run (Ex.attModel false (.expr (.ph "a")) [.num 10, .num 20, .num 15])) = some .placeholderError ∧
    Ex.raised ((Ex.att "attributes.ts").run (Ex.attModel false (.num 1) [.str "a", .str "b", .str "c"])) = some .typeError := by
  decide +kernel

/-- `map_fn` returns a model without the attribute. -/
def Ex.attFns : Fns LModel Unit Nat Unit where
  mapFn _ _ _ _ := return Ex.attModel false (.num 1) [.num 10, .num 20, .num 15]
  solveFn _ _ _ _ := return ()
  unmapFn _ _ _ _ := .ok ()

example : Ex.raised ((process (.attenuation (Ex.att "attributes.other")) Ex.attFns (Ex.attModel false (.num 1) []) false
    ⟨2, [⟨1, 0, 7⟩]⟩).run St.start) = some .keyError := by
  decide +kernel

example : (∃ o st', (process (.attenuation (Ex.att "attributes.ts")) Ex.attFns (Ex.attModel false (.num 1) []) false
    ⟨2, [⟨1, 0, 7⟩]⟩).run St.start = .ok o st' ∧ decide (o = [.result ()]) = true) :=
  Ex.exists_of_okAnd (by decide +kernel)

end Sawatabi.Props
