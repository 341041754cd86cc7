import Verif.Props.DeleteLeft
import Verif.Props.History

/-!
# What a call of fix_variable that raises leaves (C15)

With an admissible value the call raises only because the name of a replacement is taken. Then the interactions before that
one are already fixed.
-/

namespace Sawatabi

theorem fixOne_error {now : ℚ} {v : PVar} {q : ℚ} {m m' : LModel} {r : Row} {e : Err} (hm : m.Rect)
    (hu : m.names.Nodup) (hr : r ∈ m.rows) (ht : r.touches v.label = true) (hne : r.name ≠ "")
    (h : (fixOne now v q r.name).run m = .error e m') :
    m' = m ∧ e = .valueError ∧ ∃ n, newName v r = some n ∧ n ∈ m.names := by
  by_cases hnew : ∀ n ∈ newName v r, n ∉ m.names
  · obtain ⟨m₁, hok, _⟩ := fixOne_succeeds (now := now) (q := q) hm hu hr ht hne hnew
    rw [hok] at h
    cases h
  simp only [not_forall, not_not] at hnew
  obtain ⟨n, hn, hmem⟩ := hnew
  obtain ⟨i, hi⟩ := indexOf_mem (m := m) (n := r.name) (List.mem_map.mpr ⟨r, hr, rfl⟩)
  obtain ⟨hlt, hnm⟩ := indexOf_ok hi
  have hri : m.rows[i]? = some r := by
    rw [List.getElem?_eq_getElem hlt]
    congr 1
    exact List.inj_on_of_nodup_map hu (List.getElem_mem hlt) hr hnm
  rw [fixOne_run now v q r.name m hi hri] at h
  cases hin : r.inter with
  | lin w => simp [newName, hin, fixKeep] at hn
  | quad a b =>
    obtain ⟨k, hk⟩ := fixKeep_some hin ht
    have hnn : newName v r = some (fixName k r.name) := by simp [newName, hk]
    rw [hnn] at hn
    cases hn
    rw [hin] at hk h
    simp only [hk] at h
    rw [addLin_taken _ _ (fixName_ne _ _) _ hmem] at h
    cases h
    exact ⟨rfl, rfl, _, hnn, hmem⟩

theorem fixLoop_error {clk : Nat → ℚ} {v : PVar} {q : ℚ} (sel : List Row) (k : Nat) {m m' : LModel} {e : Err}
    (hm : m.Rect) (hu : m.names.Nodup)
    (hsel : ∀ r ∈ sel, r ∈ m.rows ∧ r.touches v.label = true ∧ r.inter.Ordered ∧ r.name ≠ "") (hn : (sel.map (·.name)).Nodup)
    (h : (((sel.map (·.name)).zipIdx k).forM fun p => fixOne (clk p.2) v q p.1).run m = .error e m') :
    e = .valueError ∧ ∃ done bad rest n, sel = done ++ bad :: rest ∧ newName v bad = some n ∧
      n ∈ m.names ++ done.filterMap (newName v) ∧ m'.names = m.names ++ done.filterMap (newName v) ∧ m'.names.Nodup ∧
      (∀ ρ σ, m'.energy ρ σ = m.energy ρ σ + (done.map (Row.term ρ σ)).sum
        - (done.map (Row.full ρ (σ.subst v.label q))).sum) ∧
      (∀ r ∈ m.rows, r ∉ done → r ∈ m'.rows) := by
  induction sel generalizing k m with
  | nil => cases h
  | cons r sel ih =>
    simp only [List.map_cons, List.zipIdx_cons, Py.run_forM_cons] at h
    obtain ⟨hmem, ht, ho, hne⟩ := hsel r (by simp)
    cases hf : (fixOne (clk k) v q r.name).run m with
    | error e' t =>
      rw [hf] at h
      cases h
      obtain ⟨rfl, rfl, n, h1, h2⟩ := fixOne_error hm hu hmem ht hne hf
      exact ⟨rfl, [], r, sel, n, rfl, h1, by simpa using h2, by simp, hu, by simp, fun r hr _ => hr⟩
    | ok u m₁ =>
      rw [hf] at h
      simp only at h
      obtain ⟨i, hi⟩ := indexOf_mem (m := m) (n := r.name) (List.mem_map.mpr ⟨r, hmem, rfl⟩)
      obtain ⟨hlt, hnm⟩ := indexOf_ok hi
      have hr : m.rows[i]? = some r := by
        rw [List.getElem?_eq_getElem hlt]
        congr 1
        exact List.inj_on_of_nodup_map hu (List.getElem_mem hlt) hmem hnm
      obtain ⟨he, hnm₁, hu₁, hkeep⟩ := fixOne_ok hu hi hr ht ho hf
      have hfresh : ∀ n ∈ newName v r, n ∉ m.names := by
        intro n hn' hc
        rw [hnm₁] at hu₁
        exact (List.nodup_append.mp hu₁).2.2 n hc n (by rw [Option.mem_def] at hn'; simp [hn']) rfl
      obtain ⟨m₂, hok₂, hrect, -, -⟩ := fixOne_succeeds (now := clk k) (q := q) hm hu hmem ht hne hfresh
      rw [hf] at hok₂
      cases hok₂
      have hn' := List.nodup_cons.mp hn
      obtain ⟨rfl, done, bad, rest, n, h1, h2, h3, h4, h5, h6, h7⟩ := ih (k + 1) hrect hu₁ (fun r' hr' => by
        obtain ⟨g1, g2⟩ := hsel r' (by simp [hr'])
        refine ⟨hkeep r' g1 ?_, g2⟩
        intro hc
        exact hn'.1 (List.mem_map.mpr ⟨r', hr', hc⟩)) hn'.2 h
      have hcons : (r :: done).filterMap (newName v) = (newName v r).toList ++ done.filterMap (newName v) := by
        cases hnn : newName v r <;> simp [hnn]
      refine ⟨rfl, r :: done, bad, rest, n, by rw [h1]; rfl, h2, ?_, ?_, h5, fun ρ σ => ?_, fun r' hr' hnd => ?_⟩
      · rw [hcons, ← List.append_assoc, ← hnm₁]
        exact h3
      · rw [hcons, ← List.append_assoc, ← hnm₁]
        exact h4
      · rw [h6, he]
        simp only [List.map_cons, List.sum_cons]
        ring
      · rw [List.mem_cons, not_or] at hnd
        refine h7 r' (hkeep r' hr' fun hc => hnd.1 (List.inj_on_of_nodup_map hu hr' hmem hc)) hnd.2

namespace Props

variable {m m' : LModel} {v : PVar} {e : Err}

/-- What `fix_variable(v, a)` leaves when it raises for an admissible value: it raises ValueError because the name of the
replacement of some two-body interaction on `v` is taken. The variable is recorded as fixed. The interactions on `v` before
that one are fixed: they are counted with `v` at `a`, including those that had been removed. The others stay. -/
theorem C15_left (hm : m.Rect) (hu : m.names.Nodup) (hne : "" ∉ m.names) (ho : AllOrdered m.rows) {clk : Nat → ℚ} {a : ℚ}
    (ha : Admissible m.mtype a) (h : (fixVariable clk v (.num a)).run m = .error e m') :
    e = .valueError ∧ a ≠ 0 ∧ m'.fixed = sadd m.fixed v.label ∧ m'.deleted = m.deleted ∧ m'.vars = m.vars ∧
      m'.constraints = m.constraints ∧ m'.mtype = m.mtype ∧
    ∃ done bad rest, (m.rows.filter fun r => r.inter.key0 = v.label || r.inter.key1 = some v.label) = done ++ bad :: rest ∧
      (∃ n ∈ replacementNames { m with rows := [bad] } v, n ∈ m'.names) ∧
      m'.names = m.names ++ replacementNames { m with rows := done } v ∧
      (∀ ρ σ, m'.energy ρ σ = m.energy ρ σ + (done.map (Row.term ρ σ)).sum
        - (done.map (Row.full ρ (σ.subst v.label a))).sum) ∧
      (∀ r ∈ m.rows, r ∉ done → r ∈ m'.rows) := by
  unfold fixVariable at h
  py_simp at h
  rw [checkFixValue_iff.mpr ⟨ha, rfl⟩] at h
  simp only [Py.run_liftE_ok] at h
  rw [selectByVariable_rect v (m := { m with fixed := sadd m.fixed v.label })
    (rect_same (m := m) hm rfl rfl rfl rfl)] at h
  simp only at h
  have hsub : ∀ n ∈ touching v.label m.rows, n ≠ "" := fun n hn he => hne (he ▸ touching_sub n hn)
  split at h
  · cases h
  split at h
  · rw [removeLoop_run _ { m with fixed := sadd m.fixed v.label } hsub (fun n hn => touching_sub n hn) hu] at h
    cases h
  rename_i hz
  have hframe : m'.fixed = sadd m.fixed v.label ∧ m'.deleted = m.deleted ∧ m'.vars = m.vars ∧
      m'.constraints = m.constraints ∧ m'.mtype = m.mtype := by
    have hinv := Py.Preserves.forM (I := fun k : LModel => k.fixed = sadd m.fixed v.label ∧ k.deleted = m.deleted ∧
      k.vars = m.vars ∧ k.constraints = m.constraints ∧ k.mtype = m.mtype) (l := (touching v.label m.rows).zipIdx)
      (f := fun p => fixOne (clk p.2) v a p.1)
      (fun p _ => fixOne_frame (fun _ _ _ _ _ h => h) (fun _ _ h => h) _ _ _ _)
      { m with fixed := sadd m.fixed v.label } ⟨rfl, rfl, rfl, rfl, rfl⟩
    rw [h] at hinv
    exact hinv
  have hsel : ∀ r ∈ m.rows.filter (·.touches v.label), r ∈ m.rows ∧
      r.touches v.label = true ∧ r.inter.Ordered ∧ r.name ≠ "" := by
    intro r hmem
    rw [List.mem_filter] at hmem
    exact ⟨hmem.1, hmem.2, ho r hmem.1, fun hc => hne (hc ▸ List.mem_map.mpr ⟨r, hmem.1, rfl⟩)⟩
  have hrep : ∀ l : List Row, (∀ r ∈ l, r.touches v.label = true) →
      l.filterMap (newName v) = replacementNames { m with rows := l } v := by
    intro l hl
    rw [← replacementNames_eq]
    simp only
    rw [List.filter_eq_self.mpr hl]
  obtain ⟨rfl, done, bad, rest, n, h1, h2, h3, h4, h5, h6, h7⟩ := fixLoop_error (m := { m with fixed := sadd m.fixed v.label })
    (m.rows.filter (·.touches v.label)) 0 (rect_same (m := m) hm rfl rfl rfl rfl) hu hsel
    ((List.filter_sublist.map _).nodup hu) h
  have hd : ∀ r ∈ done, r.touches v.label = true := fun r hr => (hsel r (by rw [h1]; simp [hr])).2.1
  have hb : bad.touches v.label = true := (hsel bad (by rw [h1]; simp)).2.1
  refine ⟨rfl, hz, hframe.1, hframe.2.1, hframe.2.2.1, hframe.2.2.2.1, hframe.2.2.2.2, done, bad, rest, by rw [← h1]; rfl,
    ⟨n, ?_, by rw [h4]; exact h3⟩, ?_, fun ρ σ => ?_, h7⟩
  · rw [← hrep [bad] (by simpa using hb)]
    simp [h2]
  · rw [h4, hrep done hd]
    rfl
  · rw [h6]
    rfl

theorem replacementNames_mem {m k : LModel} {v : PVar} {r : Row} {n : String}
    (h : n ∈ replacementNames { k with rows := [r] } v) (hr : r ∈ m.rows) : n ∈ replacementNames m v := by
  unfold replacementNames at h ⊢
  obtain ⟨x, hx, hf⟩ := List.mem_filterMap.mp h
  rw [List.mem_singleton] at hx
  subst hx
  exact List.mem_filterMap.mpr ⟨x, hr, hf⟩

/-- A call that raised for an admissible value raises again. -/
theorem C15_retry (hm : m.Rect) (hu : m.names.Nodup) (hne : "" ∉ m.names) (ho : AllOrdered m.rows) {clk clk' : Nat → ℚ} {a : ℚ}
    (ha : Admissible m.mtype a) (h : (fixVariable clk v (.num a)).run m = .error e m') :
    ∃ m'', (fixVariable clk' v (.num a)).run m' = .error .valueError m'' := by
  obtain ⟨-, hz, -, -, -, -, hmt, done, bad, rest, h1, ⟨n, h2, h2'⟩, h3, -, h5⟩ := C15_left hm hu hne ho ha h
  have hrect : m'.Rect := by
    have := fix_rect clk v (.num a) m hm
    rw [h] at this
    exact this
  have hord : AllOrdered m'.rows := by
    have := fix_rows ordered_closed clk v (.num a) m ho
    rw [h] at this
    exact this
  have hnd : m'.names.Nodup := by
    have := fix_rows nodup_closed clk v (.num a) m hu
    rw [h] at this
    exact this
  have hne' : "" ∉ m'.names := by
    rw [h3, List.mem_append, not_or]
    refine ⟨hne, fun hc => ?_⟩
    obtain ⟨r, -, hf⟩ := List.mem_filterMap.mp hc
    cases hi : r.inter with
    | lin w => rw [hi] at hf; cases hf
    | quad x y =>
      rw [hi] at hf
      simp only at hf
      split at hf
      · exact fixName_ne y r.name (Option.some.inj hf)
      · split at hf
        · exact fixName_ne x r.name (Option.some.inj hf)
        · cases hf
  have hbad : bad ∈ m.rows ∧ bad ∉ done := by
    have hb : bad ∈ m.rows.filter fun r => r.inter.key0 = v.label || r.inter.key1 = some v.label := by rw [h1]; simp
    refine ⟨(List.mem_filter.mp hb).1, fun hc => ?_⟩
    have hn : ((done ++ bad :: rest).map (·.name)).Nodup := by
      rw [← h1]
      exact (List.filter_sublist.map _).nodup hu
    rw [List.map_append, List.nodup_append] at hn
    exact hn.2.2 bad.name (List.mem_map.mpr ⟨bad, hc, rfl⟩) bad.name (by simp) rfl
  have hfail : ¬ ∃ k, (fixVariable clk' v (.num a)).run m' = .ok ⟨⟩ k := by
    rw [C15_fix_iff hrect hnd hne' hord]
    rintro ⟨-, hc | hc⟩
    · exact hz hc
    · exact (List.nodup_append.mp hc).2.2 n h2' n (replacementNames_mem h2 (h5 bad hbad.1 hbad.2)) rfl
  cases hr : (fixVariable clk' v (.num a)).run m' with
  | ok u k => exact absurd ⟨k, hr⟩ hfail
  | error e' k =>
    obtain ⟨rfl, -⟩ := C15_left hrect hnd hne' hord (by rw [hmt]; exact ha) hr
    exact ⟨k, rfl⟩

/-- A model where the name of a replacement is taken. -/
def fixStopEx : LModel := Ex.after (LModel.new .ising "101") do
  let _ ← createVars "x" [2]
  addInteraction 10 (.var Ex.x0) (.str "") (.num 3) (.num 1) .none .none
  addInteraction 11 (.tuple [some Ex.x0, some Ex.x1]) (.str "J") (.num 8) (.num 1) .none .none
  addInteraction 12 (.var Ex.x1) (.str "x[1] (before fixed: J)") (.num 1) (.num 1) .none .none

/-- The hypotheses hold, and every further call takes the linear interaction into the offset once more. -/
example : fixStopEx.Rect ∧ fixStopEx.names.Nodup ∧ "" ∉ fixStopEx.names ∧ AllOrdered fixStopEx.rows ∧
    Admissible fixStopEx.mtype 1 ∧
    ∃ m', (fixVariable (fun _ => 0) Ex.x0 (.num 1)).run fixStopEx = .error .valueError m' ∧ m'.offset = .num (-3) ∧
      ∃ m'', (fixVariable (fun _ => 0) Ex.x0 (.num 1)).run m' = .error .valueError m'' ∧ m''.offset = .num (-6) := by
  refine ⟨⟨by decide, by decide, by decide, by decide⟩, by decide, by decide, orderedDec _ (by decide +kernel), .inl rfl,
    _, rfl, by decide +kernel, _, rfl, by decide +kernel⟩

end Props
end Sawatabi
