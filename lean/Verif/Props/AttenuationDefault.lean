import Verif.Model.Attenuation
import Verif.Props.AttenuationExact
import Verif.Lemmas.Prune

/-!
# C119: attenuation by a default column
-/

namespace Sawatabi.Props

open Stream

variable {env : Env} {clks : Nat → Nat → ℚ} {ids : Nat → String} {col : Row → Option PyVal} {minScale : ℚ} {m m₁ : LModel}
  {p : Physical}

theorem refMin_some (l : List PyVal) : refMin (l.map some) = (pyMin l).map some := by
  cases l with
  | nil => rfl
  | cons a l =>
    unfold refMin pyMin
    simp only [List.map_cons]
    induction l generalizing a with
    | nil => rfl
    | cons b l ih =>
      simp only [List.map_cons, List.foldlM_cons, refLt]
      cases pyLt b a with
      | error e => rfl
      | ok r =>
        cases r
        · exact ih a
        · exact ih b

theorem refMax_some (l : List PyVal) : refMax (l.map some) = (pyMax l).map some := by
  cases l with
  | nil => rfl
  | cons a l =>
    unfold refMax pyMax
    simp only [List.map_cons]
    induction l generalizing a with
    | nil => rfl
    | cons b l ih =>
      simp only [List.map_cons, List.foldlM_cons, refLt]
      cases pyLt a b with
      | error e => rfl
      | ok r =>
        cases r
        · exact ih a
        · exact ih b

theorem pyLt_raises {a b : PyVal} {e : Err} (h : pyLt a b = .error e) : e = .typeError := by
  cases a <;> cases b <;> cases h <;> rfl

/-- A column with an entry that cannot be compared has no smallest entry, unless it is the only one. -/
theorem refMin_none (a : Option PyVal) (l : List (Option PyVal)) (h : none ∈ a :: l) :
    refMin (a :: l) = .error .typeError ∨ refMin (a :: l) = .ok none := by
  unfold refMin
  simp only
  induction l generalizing a with
  | nil =>
    rw [List.mem_singleton] at h
    subst h
    exact .inr rfl
  | cons b l ih =>
    rw [List.foldlM_cons]
    cases hr : refLt b a with
    | error e =>
      left
      have : e = .typeError := by
        cases a <;> cases b <;> simp only [refLt] at hr <;> first | exact pyLt_raises hr | (cases hr; rfl)
      subst this
      rfl
    | ok r =>
      have hab : a ≠ none ∧ b ≠ none := by
        cases a <;> cases b <;> simp only [refLt] at hr <;> first | (cases hr; done) | exact ⟨by simp, by simp⟩
      have hl : none ∈ l := by
        rcases List.mem_cons.mp h with h | h
        · exact absurd h.symm hab.1
        · rcases List.mem_cons.mp h with h | h
          · exact absurd h.symm hab.2
          · exact h
      exact ih _ (List.mem_cons_of_mem _ hl)

/-- The loop: each line gets the scale for its own entry. -/
theorem attenuateRow_loop {lo hi : ℚ} {f : Row → ℚ} (hcol : ∀ r ∈ rest, col r = some (.num (f r))) (m : LModel) (pre : List Row)
    (hr : m.rows = pre ++ rest) :
    ((List.range' pre.length rest.length).forM (attenuateRow col minScale (some (.num lo)) (some (.num hi)))).run m =
      .ok () { m with rows := pre ++ rest.map fun r => { r with scale := scaleFor minScale lo hi (.num (f r)) } } := by
  induction rest generalizing m pre with
  | nil =>
    simp only [List.length_nil, List.range'_zero, Py.run_forM_nil, List.map_nil]
    rw [← hr]
  | cons r rest ih =>
    rw [List.length_cons, List.range'_succ, Py.run_forM_cons]
    have h1 : (attenuateRow col minScale (some (.num lo)) (some (.num hi)) pre.length).run m =
        .ok () { m with rows := pre ++ { r with scale := scaleFor minScale lo hi (.num (f r)) } :: rest } := by
      unfold attenuateRow
      have hget : m.rows[pre.length]? = some r := by rw [hr]; simp
      simp only [Py.run_bind, Py.run_get]
      rw [hget]
      simp only [hcol r (by simp), newScale, Py.run_bind, Py.run_liftE_ok, Py.run_set, scaleFor]
      rw [hr]
      congr 2
      clear hr hget ih
      induction pre with
      | nil => rfl
      | cons a pre ih => simp only [List.cons_append, List.length_cons, List.modify_succ_cons, ih]
    rw [h1]
    simp only
    have := ih (fun r hr => hcol r (by simp [hr]))
      { m with rows := pre ++ { r with scale := scaleFor minScale lo hi (.num (f r)) } :: rest }
      (pre ++ [{ r with scale := scaleFor minScale lo hi (.num (f r)) }]) (by simp)
    rw [List.length_append, List.length_singleton] at this
    rw [this]
    simp

/-- **C119**: if the column holds numbers only, the step succeeds; the model is the one after `to_physical` with new scales. Each is
an affine function of the entry of its own line, `minScale` at the smallest entry and 1 at the greatest; if all entries are equal, the
scales stay as they are. With the key `scale` these are the scales before the loop. -/
theorem C119_interpolates (hp : (toPhysical env clks ids []).run m = .ok p m₁) {f : Row → ℚ}
    (hcol : ∀ r ∈ m₁.rows, col r = some (.num (f r))) (hne : m₁.rows ≠ []) :
    ∃ sc : Row → Coef, (attenuateDefault env clks ids col minScale).run m =
        .ok () { m₁ with rows := m₁.rows.map fun r => { r with scale := sc r } } ∧
      ((∀ r ∈ m₁.rows, ∀ r' ∈ m₁.rows, f r = f r') → ∀ r, sc r = r.scale) ∧
      ((∃ r ∈ m₁.rows, ∃ r' ∈ m₁.rows, f r < f r') → ∃ lo hi, (∃ r ∈ m₁.rows, f r = lo) ∧ (∃ r ∈ m₁.rows, f r = hi) ∧ lo < hi ∧
        (∀ r ∈ m₁.rows, lo ≤ f r ∧ f r ≤ hi) ∧ ∃ q : Row → ℚ, (∀ r, sc r = .num (q r)) ∧
        (∀ r, (q r - minScale) * (hi - lo) = (1 - minScale) * (f r - lo)) ∧ (∀ r, f r = lo → q r = minScale) ∧ ∀ r, f r = hi → q r = 1) := by
  have hmap : m₁.rows.map col = ((m₁.rows.map f).map PyVal.num).map some := by
    rw [List.map_map, List.map_map]
    exact List.map_congr_left fun r hr => hcol r hr
  obtain ⟨t, ts, hts⟩ : ∃ t ts, m₁.rows.map f = t :: ts := by
    cases h : m₁.rows with
    | nil => exact absurd h hne
    | cons r l => exact ⟨_, _, rfl⟩
  obtain ⟨lo, l1, l2, l3⟩ := pyMin_num t ts
  obtain ⟨hi, g1, g2, g3⟩ := pyMax_num t ts
  rw [← hts] at l1 l2 l3 g1 g2 g3
  have hin : ∀ r ∈ m₁.rows, lo ≤ f r ∧ f r ≤ hi := fun r hr =>
    ⟨l3 _ (List.mem_map_of_mem hr), g3 _ (List.mem_map_of_mem hr)⟩
  obtain ⟨rl, hrl, hflo⟩ := List.mem_map.mp l2
  obtain ⟨rh, hrh, hfhi⟩ := List.mem_map.mp g2
  have hrun : (attenuateDefault env clks ids col minScale).run m =
      if lo < hi then ((List.range m₁.rows.length).forM (attenuateRow col minScale (some (.num lo)) (some (.num hi)))).run m₁
      else .ok () m₁ := by
    unfold attenuateDefault
    simp only [Py.run_bind, hp, Py.run_get, hmap, refMin_some, refMax_some, l1, g1, Except.map, Py.run_liftE_ok, refLt, pyLt]
    by_cases h : lo < hi
    · simp [h]
    · simp only [if_neg h, decide_eq_false h]; rfl
  by_cases h : lo < hi
  · have hloop := attenuateRow_loop (minScale := minScale) (lo := lo) (hi := hi) hcol m₁ [] rfl
    rw [if_pos h, List.range_eq_range'] at hrun
    simp only [List.length_nil, List.nil_append] at hloop
    refine ⟨fun r => scaleFor minScale lo hi (.num (f r)), by rw [hrun, hloop], fun hall => ?_, fun _ => ?_⟩
    · exact absurd (hall rl hrl rh hrh) (by rw [hflo, hfhi]; exact ne_of_lt h)
    · have hz : hi - lo ≠ 0 := by have := h; intro h0; linarith
      refine ⟨lo, hi, ⟨rl, hrl, hflo⟩, ⟨rh, hrh, hfhi⟩, h, hin, fun r => (1 - minScale) / (hi - lo) * (f r - lo) + minScale,
        fun _ => rfl, fun r => ?_, fun r hr => ?_, fun r hr => ?_⟩
      · have : (1 - minScale) / (hi - lo) * (f r - lo) + minScale - minScale = (1 - minScale) / (hi - lo) * (f r - lo) := by ring
        simp only
        rw [this, mul_right_comm, div_mul_cancel₀ _ hz]
      · simp only [hr, sub_self, mul_zero, zero_add]
      · simp only [hr]
        rw [div_mul_cancel₀ _ hz]; ring
  · rw [if_neg h] at hrun
    refine ⟨fun r => r.scale, ?_, fun _ _ => rfl, ?_⟩
    · rw [hrun]
      simp
    · rintro ⟨r, hr, r', hr', hlt⟩
      exact absurd (lt_of_le_of_lt (hin r hr).1 (lt_of_lt_of_le hlt (hin r' hr').2)) h

/-- **C119**: the step raises what `to_physical` raises, `ValueError` if no interaction is left, and `TypeError` if some entry cannot
be compared; in the last two cases the model is as `to_physical` left it. -/
theorem C119_raises :
    (∀ e m', (toPhysical env clks ids []).run m = .error e m' → (attenuateDefault env clks ids col minScale).run m = .error e m') ∧
    ∀ p m₁, (toPhysical env clks ids []).run m = .ok p m₁ →
      (m₁.rows = [] → (attenuateDefault env clks ids col minScale).run m = .error .valueError m₁) ∧
      ((∃ r ∈ m₁.rows, col r = none) → (attenuateDefault env clks ids col minScale).run m = .error .typeError m₁) := by
  refine ⟨fun e m' h => ?_, fun p m₁ hp => ⟨fun h => ?_, ?_⟩⟩
  · unfold attenuateDefault
    simp only [Py.run_bind, h]
  · unfold attenuateDefault
    simp only [Py.run_bind, hp, Py.run_get, h]
    rfl
  · rintro ⟨r, hr, hn⟩
    have hmem : none ∈ m₁.rows.map col := List.mem_map.mpr ⟨r, hr, hn⟩
    unfold attenuateDefault
    simp only [Py.run_bind, hp, Py.run_get]
    cases hl : m₁.rows.map col with
    | nil => rw [hl] at hmem; cases hmem
    | cons a l =>
      rw [hl] at hmem
      rcases refMin_none a l hmem with h | h
      · rw [h]; rfl
      · rw [h]
        simp only [Py.run_liftE_ok]
        cases hx : refMax (a :: l) with
        | ok hi => rfl
        | error e =>
          have : e = .typeError := by
            clear h hl hmem
            unfold refMax at hx
            simp only at hx
            induction l generalizing a with
            | nil => cases hx
            | cons b l ih =>
              rw [List.foldlM_cons] at hx
              cases hr : refLt a b with
              | error e' =>
                rw [hr] at hx
                cases hx
                cases a <;> cases b <;> simp only [refLt] at hr <;> first | exact pyLt_raises hr | (cases hr; rfl)
              | ok r =>
                rw [hr] at hx
                cases r
                · exact ih _ hx
                · exact ih _ hx
          rw [this]; rfl

/-- **C119** for the key `timestamp`, exactly: the step succeeds if and only if `to_physical` does, an interaction is left and none has
`None` as its timestamp. -/
theorem C119_timestamp_iff (minScale : ℚ) :
    (∃ m₂, (attenuateKey env clks ids "timestamp" minScale).run m = .ok () m₂) ↔
      ∃ p m₁, (toPhysical env clks ids []).run m = .ok p m₁ ∧ m₁.rows ≠ [] ∧ ∀ r ∈ m₁.rows, r.timestamp ≠ none := by
  change (∃ m₂, (attenuateDefault env clks ids (fun r => r.timestamp.map .num) minScale).run m = .ok () m₂) ↔ _
  cases hp : (toPhysical env clks ids []).run m with
  | error e m' =>
    rw [C119_raises.1 e m' hp]
    constructor
    · rintro ⟨_, h⟩; cases h
    · rintro ⟨_, _, h, _⟩; cases h
  | ok p m₁ =>
    constructor
    · rintro ⟨m₂, h⟩
      refine ⟨p, m₁, rfl, fun h0 => ?_, fun r hr hn => ?_⟩
      · rw [(C119_raises.2 p m₁ hp).1 h0] at h; cases h
      · rw [(C119_raises.2 p m₁ hp).2 ⟨r, hr, by rw [hn]; rfl⟩] at h; cases h
    · rintro ⟨p', m', h, h1, h2⟩
      cases h
      obtain ⟨sc, h, _⟩ := C119_interpolates (col := fun r => r.timestamp.map .num) (minScale := minScale)
        (f := fun r => r.timestamp.getD 0) hp (fun r hr => by
          cases ht : r.timestamp with
          | none => exact absurd ht (h2 r hr)
          | some t => rfl) h1
      exact ⟨_, h⟩

/-- **C119**: with the key `dirty` the step on a rectangular table never changes a scale, as `to_physical` has marked all interactions clean. -/
theorem C119_dirty (hm : m.Rect) (hp : (toPhysical env clks ids []).run m = .ok p m₁) (hne : m₁.rows ≠ []) :
    (attenuateKey env clks ids "dirty" minScale).run m = .ok () m₁ := by
  have hclean : ∀ r ∈ m₁.rows, r.dirty = false := by
    have hrect := toPhysical_rect env clks ids [] m hm
    rw [hp] at hrect
    have hlen := hrect.len
    obtain ⟨bs, m₀, g, off, m₂, h⟩ := toPhysical_ok hp
    simp only [Res.state, h.final, markClean, List.length_append, List.length_map, List.length_take, List.length_drop] at hlen
    rw [h.final]
    intro r hr
    simp only [markClean] at hr
    rw [List.drop_eq_nil_of_le (by omega), List.append_nil, List.mem_map] at hr
    obtain ⟨r', _, rfl⟩ := hr
    rfl
  obtain ⟨sc, h, h1, _⟩ := C119_interpolates (col := fun r => some (.num (if r.dirty then 1 else 0))) (minScale := minScale)
    (f := fun r => if r.dirty then 1 else 0) hp (fun r _ => rfl) hne
  change (attenuateDefault env clks ids (fun r => some (.num (if r.dirty then 1 else 0))) minScale).run m = _
  rw [h]
  have hsc := h1 fun r hr r' hr' => by simp only [hclean r hr, hclean r' hr']
  simp only [hsc]
  simp

/-- What a line has in the column of the key, as a number. -/
def EntryIs (key : String) (r : Row) (q : ℚ) : Prop :=
  (key = "coefficient" ∧ r.coef = .num q) ∨ (key = "scale" ∧ r.scale = .num q) ∨ (key = "timestamp" ∧ r.timestamp = some q) ∨
    (key = "removed" ∧ q = if r.removed then 1 else 0) ∨ (key = "dirty" ∧ q = if r.dirty then 1 else 0)

/-- **C119** for the keys themselves: which column a key means. -/
theorem C119_keys {key : String} (hp : (toPhysical env clks ids []).run m = .ok p m₁) {f : Row → ℚ}
    (hcol : ∀ r ∈ m₁.rows, EntryIs key r (f r)) (hne : m₁.rows ≠ []) :
    ∃ sc : Row → Coef, (attenuateKey env clks ids key minScale).run m =
        .ok () { m₁ with rows := m₁.rows.map fun r => { r with scale := sc r } } ∧
      ((∀ r ∈ m₁.rows, ∀ r' ∈ m₁.rows, f r = f r') → ∀ r, sc r = r.scale) ∧
      ((∃ r ∈ m₁.rows, ∃ r' ∈ m₁.rows, f r < f r') → ∃ lo hi, (∃ r ∈ m₁.rows, f r = lo) ∧ (∃ r ∈ m₁.rows, f r = hi) ∧ lo < hi ∧
        (∀ r ∈ m₁.rows, lo ≤ f r ∧ f r ≤ hi) ∧ ∃ q : Row → ℚ, (∀ r, sc r = .num (q r)) ∧
        (∀ r, (q r - minScale) * (hi - lo) = (1 - minScale) * (f r - lo)) ∧ (∀ r, f r = lo → q r = minScale) ∧ ∀ r, f r = hi → q r = 1) := by
  obtain ⟨r₀, h₀⟩ := List.exists_mem_of_ne_nil _ hne
  have hnum : ∀ q : ℚ, coefVal (.num q) = some (.num q) := fun _ => rfl
  have key' : ∀ col, defaultColumn key = some col → attenuateKey env clks ids key minScale =
      attenuateDefault env clks ids col minScale := fun col h => by unfold attenuateKey; rw [h]
  rcases hcol r₀ h₀ with ⟨rfl, -⟩ | ⟨rfl, -⟩ | ⟨rfl, -⟩ | ⟨rfl, -⟩ | ⟨rfl, -⟩
  · rw [key' (fun r => coefVal r.coef) rfl]
    refine C119_interpolates hp (fun r hr => ?_) hne
    have := hcol r hr
    simp only [EntryIs, true_and, String.reduceEq, false_and, or_false, false_or] at this
    rw [this, hnum]
  · rw [key' (fun r => coefVal r.scale) rfl]
    refine C119_interpolates hp (fun r hr => ?_) hne
    have := hcol r hr
    simp only [EntryIs, true_and, String.reduceEq, false_and, or_false, false_or] at this
    rw [this, hnum]
  · rw [key' (fun r => r.timestamp.map .num) rfl]
    refine C119_interpolates hp (fun r hr => ?_) hne
    have := hcol r hr
    simp only [EntryIs, true_and, String.reduceEq, false_and, or_false, false_or] at this
    rw [this]
    rfl
  · rw [key' (fun r => some (.num (if r.removed then 1 else 0))) rfl]
    refine C119_interpolates hp (fun r hr => ?_) hne
    have := hcol r hr
    simp only [EntryIs, true_and, String.reduceEq, false_and, or_false, false_or] at this
    rw [this]
  · rw [key' (fun r => some (.num (if r.dirty then 1 else 0))) rfl]
    refine C119_interpolates hp (fun r hr => ?_) hne
    have := hcol r hr
    simp only [EntryIs, true_and, String.reduceEq, false_and, or_false, false_or] at this
    rw [this]

/-- **C119**: another key is looked up among the attributes, as in C72 and C73. -/
theorem C119_other {key : String} (h : key ∉ ["coefficient", "scale", "timestamp", "dirty", "removed", "name"]) :
    attenuateKey env clks ids key minScale = attenuate env clks ids key minScale := by
  simp only [List.mem_cons, List.not_mem_nil, or_false, not_or] at h
  obtain ⟨h1, h2, h3, h4, h5, h6⟩ := h
  unfold attenuateKey defaultColumn
  simp only [h1, h2, h3, h4, h5, h6, if_false]

def Ex.attKey (key : String) : Py LModel Unit := attenuateKey ⟨0, fun _ => ""⟩ (fun _ _ => 0) (fun _ => "c") key (1 / 10)

/-- The coefficients 1, 2 and 3 as reference. -/
example : ∃ u m', (Ex.attKey "coefficient").run (Ex.attModel false (.num 1) []) = .ok u m' ∧
    decide (m'.rows.map (·.scale) = [.num (1 / 10), .num (11 / 20), .num 1]) = true :=
  Ex.exists_of_okAnd (by decide +kernel)

/-- The scales 3, 1 and 2 as reference. -/
example : ∃ u m', (Ex.attKey "scale").run { Ex.attModel false (.num 1) [] with
        rows := (Ex.attModel false (.num 1) []).rows.zipWith (fun r s => { r with scale := .num s }) [3, 1, 2] } = .ok u m' ∧
      decide (m'.rows.map (·.scale) = [.num 1, .num (1 / 10), .num (11 / 20)]) = true :=
  Ex.exists_of_okAnd (by decide +kernel)

/-- Equal timestamps leave the scales as they are; expressions cannot be compared. -/
example : (∃ u m', (Ex.attKey "timestamp").run (Ex.attModel false (.num 1) []) = .ok u m' ∧
      decide (m'.rows.map (·.scale) = [.num 1, .num 1, .num 1]) = true) ∧
    Ex.raised ((Ex.attKey "scale").run { Ex.attModel false (.num 1) [] with attrCols := [], attrs := [], length := 2 }) = none ∧
    Ex.raised ((Ex.attKey "name").run (Ex.attModel false (.num 1) [])) = some .typeError :=
  ⟨Ex.exists_of_okAnd (by decide +kernel), by decide +kernel, by decide +kernel⟩

end Sawatabi.Props
