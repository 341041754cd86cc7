import Mathlib.Tactic.Linarith
import Mathlib.Tactic.FieldSimp
import Verif.Spec.Pipeline
import Verif.Props.Stream

/-!
# Lemmas for pipelines
-/

namespace Sawatabi.Pipeline

open Stream

variable {δ : Type} {wi : Windowing}

theorem mem_slidingStarts {size period t s : ℚ} (hp : 0 < period) :
    s ∈ slidingStarts size period t ↔ (∃ k : ℤ, s = k * period) ∧ s ≤ t ∧ t < s + size := by
  have hfl : period * (⌊t / period⌋ : ℚ) ≤ t := by
    have := Int.floor_le (t / period)
    rw [le_div_iff₀ hp] at this
    linarith
  unfold slidingStarts
  simp only [List.mem_map, List.mem_range]
  have key : ∀ j : Nat, j < ⌈(period * (⌊t / period⌋ : ℚ) - (t - size)) / period⌉.toNat ↔
      (j : ℚ) * period < period * (⌊t / period⌋ : ℚ) - (t - size) := by
    intro j
    rw [Int.lt_toNat, Int.lt_ceil, lt_div_iff₀ hp]
    simp
  constructor
  · rintro ⟨j, hj, rfl⟩
    rw [key] at hj
    refine ⟨⟨⌊t / period⌋ - j, by push_cast; ring⟩, ?_, by linarith⟩
    have : 0 ≤ (j : ℚ) * period := by positivity
    linarith
  · rintro ⟨⟨k, rfl⟩, h1, h2⟩
    have hk : k ≤ ⌊t / period⌋ := by
      rw [Int.le_floor, le_div_iff₀ hp]
      exact h1
    obtain ⟨j, hj⟩ := Int.eq_ofNat_of_zero_le (sub_nonneg.mpr hk)
    have hj' : (j : ℚ) = (⌊t / period⌋ : ℚ) - k := by
      have : ((⌊t / period⌋ - k : ℤ) : ℚ) = ((j : ℤ) : ℚ) := by rw [hj]
      push_cast at this
      linarith
    refine ⟨j, ?_, ?_⟩
    · rw [key, hj']
      linarith
    · rw [hj']
      ring

theorem mem_fixedStarts {size t s : ℚ} (hs : 0 < size) :
    s ∈ fixedStarts size t ↔ (∃ k : ℤ, s = k * size) ∧ s ≤ t ∧ t < s + size := by
  unfold fixedStarts
  rw [List.mem_singleton]
  constructor
  · rintro rfl
    refine ⟨⟨⌊t / size⌋, by ring⟩, ?_, ?_⟩
    · have := Int.floor_le (t / size)
      rw [le_div_iff₀ hs] at this
      linarith
    · have := Int.lt_floor_add_one (t / size)
      rw [div_lt_iff₀ hs] at this
      linarith
  · rintro ⟨⟨k, rfl⟩, h1, h2⟩
    have : ⌊t / size⌋ = k := by
      rw [Int.floor_eq_iff, le_div_iff₀ hs, div_lt_iff₀ hs]
      exact ⟨h1, by linarith⟩
    rw [this]
    ring

theorem mem_starts (h : wi.Valid) {t s : ℚ} : s ∈ wi.starts t ↔ (∃ k : ℤ, s = k * wi.step) ∧ s ≤ t ∧ t < s + wi.size := by
  cases wi with
  | sliding size period => exact mem_slidingStarts h.2
  | fixed size => exact mem_fixedStarts h

theorem valid_size (h : wi.Valid) : 0 < wi.size := by
  cases wi with
  | sliding size period => exact h.1
  | fixed size => exact h

theorem valid_step (h : wi.Valid) : 0 < wi.step := by
  cases wi with
  | sliding size period => exact h.2
  | fixed size => exact h

theorem mem_insertStart {a x : ℚ} {l : List ℚ} : x ∈ insertStart a l ↔ x = a ∨ x ∈ l := by
  induction l with
  | nil => simp [insertStart]
  | cons b l ih =>
    unfold insertStart
    by_cases h1 : a < b
    · simp [h1]
    · by_cases h2 : a = b
      · simp [h2]
      · simp only [h1, h2, if_false, List.mem_cons, ih]
        tauto

theorem insertStart_sorted {a : ℚ} {l : List ℚ} (h : l.Pairwise (· < ·)) : (insertStart a l).Pairwise (· < ·) := by
  induction l with
  | nil => simp [insertStart]
  | cons b l ih =>
    obtain ⟨g1, g2⟩ := List.pairwise_cons.mp h
    unfold insertStart
    by_cases h1 : a < b
    · simp only [h1, if_true]
      refine List.pairwise_cons.mpr ⟨fun x hx => ?_, h⟩
      rcases List.mem_cons.mp hx with rfl | hx
      · exact h1
      · exact h1.trans (g1 x hx)
    · by_cases h2 : a = b
      · simp only [h1, h2, if_false, if_true, lt_irrefl]
        exact h
      · simp only [h1, h2, if_false]
        refine List.pairwise_cons.mpr ⟨fun x hx => ?_, ih g2⟩
        rcases mem_insertStart.mp hx with rfl | hx
        · exact lt_of_le_of_ne (not_lt.mp h1) (Ne.symm h2)
        · exact g1 x hx

/-- The starts of the windows of the elements. -/
def startsOf (wi : Windowing) (els : List (El δ)) : List ℚ := (els.flatMap fun e => wi.starts e.ts).foldr insertStart []

theorem startsOf_sorted (wi : Windowing) (els : List (El δ)) : (startsOf wi els).Pairwise (· < ·) := by
  unfold startsOf
  generalize (els.flatMap fun e => wi.starts e.ts) = l
  induction l with
  | nil => exact .nil
  | cons a l ih => exact insertStart_sorted ih

theorem mem_startsOf {els : List (El δ)} {s : ℚ} : s ∈ startsOf wi els ↔ ∃ e ∈ els, s ∈ wi.starts e.ts := by
  unfold startsOf
  rw [← List.mem_flatMap]
  generalize (els.flatMap fun e => wi.starts e.ts) = l
  induction l with
  | nil => simp
  | cons a l ih => rw [List.foldr_cons, mem_insertStart, ih, List.mem_cons]

theorem windows_eq (h : wi.Valid) (els : List (El δ)) :
    windows wi els = (startsOf wi els).map fun s => ⟨s + wi.size - tick, between els s (s + wi.size)⟩ := by
  unfold windows
  apply List.map_congr_left
  intro s hs
  obtain ⟨e, he, hse⟩ := mem_startsOf.mp hs
  obtain ⟨hk, _⟩ := (mem_starts h).mp hse
  congr 1
  apply List.filter_congr
  intro x _
  rw [← Bool.decide_and]
  refine decide_eq_decide.mpr ?_
  rw [mem_starts h]
  exact ⟨fun h => h.2, fun h => ⟨hk, h⟩⟩

theorem mem_between {els : List (El δ)} {a b : ℚ} {e : El δ} : e ∈ between els a b ↔ e ∈ els ∧ a ≤ e.ts ∧ e.ts < b := by
  simp [between]

/-- The starts are those of the windows with elements. -/
theorem startsOf_iff (h : wi.Valid) {els : List (El δ)} {s : ℚ} :
    s ∈ startsOf wi els ↔ (∃ k : ℤ, s = k * wi.step) ∧ between els s (s + wi.size) ≠ [] := by
  rw [mem_startsOf]
  constructor
  · rintro ⟨e, he, hs⟩
    obtain ⟨h1, h2⟩ := (mem_starts h).mp hs
    exact ⟨h1, List.ne_nil_of_mem (mem_between.mpr ⟨he, h2⟩)⟩
  · rintro ⟨h1, h2⟩
    obtain ⟨e, l, hl⟩ := List.exists_cons_of_ne_nil h2
    have : e ∈ between els s (s + wi.size) := by rw [hl]; simp
    obtain ⟨he, h3⟩ := mem_between.mp this
    exact ⟨e, he, (mem_starts h).mpr ⟨h1, h3⟩⟩

theorem delivers_map {ss : List ℚ} {f : ℚ → Win δ} {ds : List (Bool × Win δ)} (h : Delivers (ss.map f) ds) :
    List.Forall₂ (fun s d => d.2.ts = (f s).ts ∧ d.2.elements.Perm (f s).elements) ss ds := by
  unfold Delivers at h
  rwa [List.forall₂_map_left_iff] at h

theorem delivered_order (h : wi.Valid) {els : List (El δ)} {ds : List (Bool × Win δ)} (h0 : ∀ e ∈ els, 0 ≤ e.ts)
    (hd : Delivers (windows wi els) ds) : InOrder (-1) (ds.map (·.2)) ∧ ∀ d ∈ ds, d.2.elements ≠ [] := by
  rw [windows_eq h] at hd
  replace hd := delivers_map hd
  have hs := startsOf_sorted wi els
  have hmem : ∀ s ∈ startsOf wi els, between els s (s + wi.size) ≠ [] := fun s hs => ((startsOf_iff h).mp hs).2
  have hlow : ∀ s ∈ startsOf wi els, -1 ≤ s + wi.size - tick := by
    intro s hs
    obtain ⟨e, he, hse⟩ := mem_startsOf.mp hs
    have h1 := ((mem_starts h).mp hse).2.2
    have h2 := h0 e he
    have : tick < 1 := by unfold tick; norm_num
    linarith
  generalize startsOf wi els = ss at hd hs hmem hlow
  generalize (-1 : ℚ) = t at hlow
  induction hd generalizing t with
  | nil => exact ⟨trivial, fun d hd => by cases hd⟩
  | @cons s d ss ds hsd _ ih =>
    obtain ⟨g1, g2⟩ := List.pairwise_cons.mp hs
    obtain ⟨i1, i2⟩ := ih g2 (fun s hs => hmem s (by simp [hs])) (s + wi.size - tick) (fun x hx => by
      have := g1 x hx
      linarith)
    refine ⟨⟨by rw [hsd.1]; exact hlow s (by simp), by rw [hsd.1]; exact i1⟩, fun x hx => ?_⟩
    rcases List.mem_cons.mp hx with rfl | hx
    · intro hc
      have := hsd.2
      rw [hc] at this
      exact hmem s (by simp) this.nil_eq.symm
    · exact i2 x hx

theorem delivered_sliding (h : wi.Valid) {els : List (El δ)} {ds : List (Bool × Win δ)}
    (hd : Delivers (windows wi els) ds) : ∃ a b, Sliding els a b (ds.map (·.2)) := by
  rw [windows_eq h] at hd
  replace hd := delivers_map hd
  have hs := startsOf_sorted wi els
  have hmem : ∀ s ∈ startsOf wi els, between els s (s + wi.size) ≠ [] := fun s hs => ((startsOf_iff h).mp hs).2
  generalize startsOf wi els = ss at hd hs hmem
  have key : ∀ a, (∀ s ∈ ss, a ≤ s) → Sliding els a (a + wi.size) (ds.map (·.2)) := by
    induction hd with
    | nil => intro _ _; exact trivial
    | @cons s d ss ds hsd _ ih =>
      intro a ha
      obtain ⟨g1, g2⟩ := List.pairwise_cons.mp hs
      have hle := ha s (by simp)
      refine ⟨s, s + wi.size, hle, by linarith, ⟨hsd.2, fun hc => ?_⟩, ih g2 (fun s hs => hmem s (by simp [hs])) s
        fun x hx => (g1 x hx).le⟩
      have := hsd.2
      rw [hc] at this
      exact hmem s (by simp) this.nil_eq.symm
  cases ss with
  | nil => exact ⟨0, _, key 0 (fun s hs => by cases hs)⟩
  | cons s ss =>
    refine ⟨s, _, key s fun x hx => ?_⟩
    rcases List.mem_cons.mp hx with rfl | hx
    · exact le_rfl
    · exact ((List.pairwise_cons.mp hs).1 x hx).le

/-! ## Input -/

theorem indexed_eq (vs : List δ) : indexed vs = .ok (timed vs) := by
  obtain ⟨out, h1, h2, h3⟩ := Props.C74_indices vs 0
  unfold indexed timed
  rw [h1]
  simp only
  congr 1
  have : out = vs.zipIdx.map fun p => (p.2, p.1) := by
    apply List.ext_getElem
    · have := congrArg List.length h2
      simpa using this
    · intro i i1 i2
      have e1 : (out.map (·.2))[i]? = vs[i]? := by rw [h2]
      have e2 : (out.map (·.1))[i]? = (List.range' 0 vs.length)[i]? := by rw [h3]
      have hv : i < vs.length := by simpa using i2
      simp [List.getElem?_eq_getElem, i1, hv] at e1 e2
      simp only [List.getElem_map, List.getElem_zipIdx]
      ext <;> simp [e1, e2]
  rw [this, List.map_map]
  rfl

theorem timed_mem {vs : List δ} {e : El δ} : e ∈ timed vs ↔ vs[e.idx]? = some e.data ∧ e.ts = e.idx := by
  unfold timed
  rw [List.mem_map]
  constructor
  · rintro ⟨p, hp, rfl⟩
    exact ⟨by simpa using List.mem_zipIdx_iff_getElem?.mp hp, rfl⟩
  · rintro ⟨h1, h2⟩
    refine ⟨(e.data, e.idx), List.mem_zipIdx_iff_getElem?.mpr (by simpa using h1), ?_⟩
    cases e
    simp_all

end Sawatabi.Pipeline
