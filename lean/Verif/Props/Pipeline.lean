import Verif.Lemmas.Pipeline
import Verif.Props.NppAttn
import Verif.Props.Tsp
import Verif.Props.Utils

/-!
# C96, C97, C98: whole pipelines
-/

namespace Sawatabi.Props

open Stream NppStream Pipeline
open Utils (decimal IsDecimal)

variable {now : ℚ} {render : El ℚ → String} {env env' : Env} {clks clks' : Nat → Nat → ℚ} {ids ids' : Nat → String} {ms : ℚ} {id : String}
  {wi : Windowing} {δ : Type}

/-! ## The windows -/

/-- The windows are those of the documentation: every interval `[s, s + size)` that starts at a multiple of the step and has
elements, once, in the order of time, with its elements in their order. -/
theorem C96_windows (h : wi.Valid) (els : List (El δ)) :
    (windows wi els).Pairwise (fun v w => v.ts < w.ts) ∧
    ∀ w, w ∈ windows wi els ↔ ∃ k : ℤ, w = ⟨k * wi.step + wi.size - tick, between els (k * wi.step) (k * wi.step + wi.size)⟩ ∧
      w.elements ≠ [] := by
  rw [windows_eq h]
  constructor
  · rw [List.pairwise_map]
    exact (startsOf_sorted wi els).imp fun hab => by simpa using hab
  · intro w
    rw [List.mem_map]
    constructor
    · rintro ⟨s, hs, rfl⟩
      obtain ⟨⟨k, rfl⟩, h2⟩ := (startsOf_iff h).mp hs
      exact ⟨k, rfl, h2⟩
    · rintro ⟨k, rfl, h2⟩
      exact ⟨k * wi.step, (startsOf_iff h).mpr ⟨⟨k, rfl⟩, h2⟩, rfl⟩

theorem zipIdx_piece (vs : List δ) (a b : ℤ) (k : Nat) :
    (((vs.zipIdx k).map fun p => (⟨(p.2 : ℚ), p.2, p.1⟩ : El δ)).filter fun e => decide ((a : ℚ) ≤ e.ts) && decide (e.ts < (b : ℚ))).map
      (·.data) = (vs.drop (a.toNat - k)).take (b.toNat - max a.toNat k) := by
  induction vs generalizing k with
  | nil => simp
  | cons v vs ih =>
    rw [List.zipIdx_cons, List.map_cons, List.filter_cons]
    have ha : ((a : ℚ) ≤ (k : ℚ)) ↔ a.toNat ≤ k := by
      rw [show ((k : ℚ)) = ((k : ℤ) : ℚ) from rfl, Int.cast_le]
      omega
    have hb : ((k : ℚ) < (b : ℚ)) ↔ k < b.toNat := by
      rw [show ((k : ℚ)) = ((k : ℤ) : ℚ) from rfl, Int.cast_lt]
      omega
    by_cases h1 : a.toNat ≤ k
    · by_cases h2 : k < b.toNat
      · simp only [ha, hb, h1, h2, decide_true, Bool.and_self, if_true, List.map_cons, ih]
        rw [show a.toNat - k = 0 by omega, show a.toNat - (k + 1) = 0 by omega,
          show b.toNat - max a.toNat k = (b.toNat - max a.toNat (k + 1)) + 1 by omega]
        rfl
      · simp only [ha, hb, h1, h2, decide_true, decide_false, Bool.and_false, Bool.false_eq_true, if_false, ih]
        rw [show b.toNat - max a.toNat k = 0 by omega, show b.toNat - max a.toNat (k + 1) = 0 by omega]
        simp
    · simp only [ha, h1, decide_false, Bool.false_and, Bool.false_eq_true, if_false, ih]
      rw [show a.toNat - k = (a.toNat - (k + 1)) + 1 by omega, show max a.toNat k = max a.toNat (k + 1) by omega]
      rfl

/-- With whole numbers as bounds, the numbers of a window are a piece of the input. -/
theorem C96_piece (vs : List δ) (a b : ℤ) : (between (timed vs) a b).map (·.data) = piece vs a b := by
  have := zipIdx_piece vs a b 0
  unfold between timed piece
  rw [this, Nat.sub_zero, Nat.max_eq_left (Nat.zero_le _)]

theorem timed_increasing (ns : List ℚ) : Increasing (timed ns) := by
  unfold Increasing timed
  rw [List.pairwise_map]
  have : (ns.zipIdx.map (·.2)).Pairwise (· < ·) := by
    rw [List.zipIdx_map_snd]
    exact List.pairwise_lt_range'
  rw [List.pairwise_map] at this
  exact this.imp fun h => ⟨Nat.cast_lt.mpr h, h⟩

theorem timed_nonneg (vs : List δ) : ∀ e ∈ timed vs, 0 ≤ e.ts := by
  intro e he
  rw [(timed_mem.mp he).2]
  exact Nat.cast_nonneg _

/-- The numbers of a text: its decimal lines. -/
def textNumbers (lines : List (List Char)) : List ℚ := (lines.filter fun s => decide (IsDecimal s)).map fun s => (decimal s : ℚ)

/-- The input of a text (whose lines have no newline at the end) is its decimal lines, at times 0, 1, 2 and so on. -/
theorem C96_input {lines : List (List Char)} (h : ∀ s ∈ lines, s.getLast? ≠ some '\n') :
    numbersOf lines = .ok (timed (textNumbers lines)) := by
  unfold numbersOf
  rw [C75_numbers_partial h]
  simp only [Except.bind_ok, indexed_eq, textNumbers, List.map_map]
  rfl

theorem sorted_between {els : List (El ℚ)} (hE : Increasing els) {a b : ℚ} {w : Win ℚ}
    (hw : w.elements.Perm (between els a b)) (hne : w.elements ≠ []) : sorted w.elements = between els a b :=
  cut_slice hE.ordered (w := w) (a := a) (b := b) ⟨hw, hne⟩

theorem delivered_sorted (h : wi.Valid) {els : List (El ℚ)} (hE : Increasing els) {ds : List (Bool × Win ℚ)}
    (hd : Delivers (windows wi els) ds) : List.Forall₂ (fun w d => sorted d.2.elements = w.elements) (windows wi els) ds := by
  have hmem := (C96_windows h els).2
  unfold Delivers at hd
  generalize windows wi els = ws at hd hmem
  replace hmem : ∀ w ∈ ws, ∃ a b, w.elements = between els a b ∧ w.elements ≠ [] := by
    intro w hw
    obtain ⟨k, hk, hne⟩ := (hmem w).mp hw
    exact ⟨_, _, by rw [hk], hne⟩
  induction hd with
  | nil => exact .nil
  | @cons w d ws ds hwd _ ih =>
    refine .cons ?_ (ih fun w hw => hmem w (by simp [hw]))
    obtain ⟨a, b, hab, hne⟩ := hmem w (by simp)
    have hp := hwd.2
    rw [hab] at hp ⊢
    refine sorted_between hE hp fun hc => hne ?_
    have := hwd.2
    rw [hc] at this
    exact this.nil_eq.symm

theorem forall₂_trans {α β γ : Type} {R : α → β → Prop} {S : β → γ → Prop} {T : α → γ → Prop} {la : List α} {lb : List β} {lc : List γ}
    (h1 : List.Forall₂ R la lb) (h2 : List.Forall₂ S lb lc) (h : ∀ a b c, R a b → S b c → T a c) : List.Forall₂ T la lc := by
  induction h1 generalizing lc with
  | nil => cases h2; exact .nil
  | cons hr _ ih =>
    cases h2 with
    | cons hs ht => exact .cons (h _ _ _ hr hs) (ih ht)

/-- The number partitioning pipeline over a text: whatever order the runner gives to the elements of a window, every window is
answered once, in the order of time, by an optimal partition of its numbers if there are at least two and none is zero. -/
theorem C96_window {alg : Algorithm LModel ℚ} (halg : alg = .window ∨ alg = .delta) (hv : wi.Valid) {lines : List (List Char)}
    (hl : ∀ s ∈ lines, s.getLast? ≠ some '\n') :
    ∃ els, numbersOf lines = .ok els ∧ els = timed (textNumbers lines) ∧ ∀ ds, Delivers (windows wi els) ds →
      ∃ os st', (processAll alg (fns now render env clks ids exactSolver) (LModel.new .ising id) ds).run St.start = .ok os st' ∧
        List.Forall₂ (fun w o => Yields w.elements o) (windows wi els) os := by
  refine ⟨_, C96_input hl, rfl, fun ds hd => ?_⟩
  have hE := timed_increasing (textNumbers lines)
  obtain ⟨a, b, hs⟩ := delivered_sliding hv hd
  obtain ⟨ho, _⟩ := delivered_order hv (timed_nonneg _) hd
  obtain ⟨os, st', h1, h2⟩ := C81_window (now := now) (render := render) (env := env) (clks := clks) (ids := ids) (id := id)
    hE halg hs ho
  refine ⟨os, st', h1, forall₂_trans (delivered_sorted hv hE hd) h2 fun w d o hwd hdo => ?_⟩
  rw [← hwd]
  exact hdo

/-! ## Batches -/

theorem increasing_idx {els : List (El ℚ)} (h : Increasing els) {a b : El ℚ} (ha : a ∈ els) (hb : b ∈ els) (hlt : a.ts < b.ts) :
    a.idx < b.idx := by
  induction els with
  | nil => cases ha
  | cons e els ih =>
    obtain ⟨h1, h2⟩ := List.pairwise_cons.mp h
    rcases List.mem_cons.mp ha with ha' | ha' <;> rcases List.mem_cons.mp hb with hb' | hb'
    · rw [ha', hb'] at hlt
      exact absurd hlt (lt_irrefl _)
    · rw [ha']
      exact (h1 b hb').2
    · rw [hb'] at hlt
      exact absurd ((h1 a ha').1.trans hlt) (lt_irrefl _)
    · exact ih h2 ha' hb'

theorem increasing_ext {l l' : List (El ℚ)} (h : Increasing l) (h' : Increasing l') (hm : ∀ e, e ∈ l ↔ e ∈ l') : l = l' := by
  have hn : ∀ {l : List (El ℚ)}, Increasing l → l.Nodup := fun h => h.imp fun hab hc => by
    rw [hc] at hab
    exact lt_irrefl _ hab.1
  refine List.Perm.eq_of_pairwise (fun a b _ _ hab hba => absurd (hab.1.trans hba.1) (lt_irrefl _)) h h'
    ((List.perm_ext_iff_of_nodup (hn h) (hn h')).mpr hm)

theorem fixed_starts {size : ℚ} (hs : 0 < size) {els : List (El δ)} {s t : ℚ} (h1 : s ∈ startsOf (.fixed size) els)
    (h2 : t ∈ startsOf (.fixed size) els) (h : s < t + size) : s ≤ t := by
  obtain ⟨⟨k, rfl⟩, _⟩ := (startsOf_iff (wi := .fixed size) hs).mp h1
  obtain ⟨⟨l, rfl⟩, _⟩ := (startsOf_iff (wi := .fixed size) hs).mp h2
  have : (k : ℚ) < (l : ℚ) + 1 := by
    simp only [Windowing.step] at h
    by_contra hc
    have := mul_le_mul_of_nonneg_right (not_lt.mp hc) hs.le
    linarith
  have : k < l + 1 := by exact_mod_cast this
  have : (k : ℚ) ≤ (l : ℚ) := by exact_mod_cast (by omega : k ≤ l)
  exact mul_le_mul_of_nonneg_right this hs.le

theorem batches_increasing {size : ℚ} (hs : 0 < size) {els : List (El ℚ)} (hE : Increasing els) {ss : List ℚ}
    (hss : ss.Pairwise (· < ·)) (hsub : ∀ s ∈ ss, s ∈ startsOf (.fixed size) els) :
    Increasing (ss.map fun s => between els s (s + size)).flatten := by
  induction ss with
  | nil => exact .nil
  | cons s ss ih =>
    obtain ⟨g1, g2⟩ := List.pairwise_cons.mp hss
    rw [List.map_cons, List.flatten_cons]
    refine List.pairwise_append.mpr ⟨hE.sublist List.filter_sublist, ih g2 fun x hx => hsub x (by simp [hx]), ?_⟩
    intro a ha b hb
    obtain ⟨l, hl, hbl⟩ := List.mem_flatten.mp hb
    obtain ⟨t, ht, rfl⟩ := List.mem_map.mp hl
    obtain ⟨a1, a2, a3⟩ := mem_between.mp ha
    obtain ⟨b1, b2, b3⟩ := mem_between.mp hbl
    have hlt : a.ts < b.ts := by
      by_contra hc
      have h1 := fixed_starts hs (hsub t (by simp [ht])) (hsub s (by simp)) (by linarith [not_lt.mp hc])
      have h2 := g1 t ht
      linarith
    exact ⟨hlt, increasing_idx hE a1 b1 hlt⟩

theorem batches_flatten {size : ℚ} (hs : 0 < size) {els : List (El ℚ)} (hE : Increasing els) {i : Nat} {w : Win ℚ}
    (hw : (windows (.fixed size) els)[i]? = some w) :
    (((windows (.fixed size) els).map (·.elements)).take (i + 1)).flatten = els.filter fun e => decide (e.ts < w.ts + tick) := by
  rw [windows_eq (wi := .fixed size) hs] at hw ⊢
  rw [List.getElem?_map] at hw
  obtain ⟨s, hsi, rfl⟩ := Option.map_eq_some_iff.mp hw
  rw [List.map_map, ← List.map_take]
  have hsorted := startsOf_sorted (.fixed size) els
  have hsub : ∀ t ∈ (startsOf (.fixed size) els).take (i + 1), t ∈ startsOf (.fixed size) els := fun t ht => List.mem_of_mem_take ht
  refine increasing_ext (batches_increasing hs hE (hsorted.sublist (List.take_sublist _ _)) hsub) (hE.sublist List.filter_sublist) ?_
  have hsz : (Windowing.fixed size).size = size := rfl
  have hsm : s ∈ startsOf (.fixed size) els := List.mem_of_getElem? hsi
  intro e
  rw [List.mem_filter, List.mem_flatten]
  simp only [decide_eq_true_eq, hsz, sub_add_cancel]
  constructor
  · rintro ⟨l, hl, he⟩
    obtain ⟨t, ht, rfl⟩ := List.mem_map.mp hl
    obtain ⟨e1, e2, e3⟩ := mem_between.mp he
    refine ⟨e1, lt_of_lt_of_le e3 ?_⟩
    obtain ⟨j, hj, hjt⟩ := List.mem_take_iff_getElem.mp ht
    obtain ⟨hi, hie⟩ := List.getElem?_eq_some_iff.mp hsi
    have : t ≤ s := by
      rw [← hjt, ← hie]
      rcases Nat.lt_or_ge j i with h | h
      · exact (List.pairwise_iff_getElem.mp hsorted j i _ _ h).le
      · have : j = i := by omega
        subst this
        exact le_rfl
    linarith
  · rintro ⟨e1, e2⟩
    obtain ⟨t, ht⟩ : ∃ t, t ∈ (Windowing.fixed size).starts e.ts := ⟨_, List.mem_singleton.mpr rfl⟩
    have htm : t ∈ startsOf (.fixed size) els := mem_startsOf.mpr ⟨e, e1, ht⟩
    obtain ⟨_, h2, h3⟩ := (mem_starts (wi := .fixed size) hs).mp ht
    have hle : t ≤ s := fixed_starts hs htm hsm (by linarith)
    refine ⟨_, List.mem_map.mpr ⟨t, ?_, rfl⟩, mem_between.mpr ⟨e1, h2, h3⟩⟩
    obtain ⟨j, hj, hjt⟩ := List.getElem_of_mem htm
    obtain ⟨hi, hie⟩ := List.getElem?_eq_some_iff.mp hsi
    refine List.mem_take_iff_getElem.mpr ⟨j, ?_, hjt⟩
    have : j ≤ i := by
      by_contra hc
      have := List.pairwise_iff_getElem.mp hsorted i j hi hj (by omega)
      rw [hjt, hie] at this
      linarith
    omega

/-- The pipeline with the incremental algorithm: after every batch an optimal partition of all numbers up to its end. -/
theorem C96_incremental {size : ℚ} (hs : 0 < size) {lines : List (List Char)} (hl : ∀ s ∈ lines, s.getLast? ≠ some '\n') :
    ∃ els, numbersOf lines = .ok els ∧ els = timed (textNumbers lines) ∧ ∀ ds, Delivers (windows (.fixed size) els) ds →
      ∃ os st', (processAll .incremental (fns now render env clks ids exactSolver) (LModel.new .ising id) ds).run St.start = .ok os st' ∧
        List.Forall₂ (fun w o => Yields (els.filter fun e => decide (e.ts < w.ts + tick)) o) (windows (.fixed size) els) os := by
  refine ⟨_, C96_input hl, rfl, fun ds hd => ?_⟩
  have hE := timed_increasing (textNumbers lines)
  obtain ⟨ho, hne⟩ := delivered_order (wi := .fixed size) hs (timed_nonneg _) hd
  generalize hels : timed (textNumbers lines) = els at hd hE
  have hparts : List.Forall₂ (fun (d : Bool × Win ℚ) part => d.2.elements.Perm part ∧ part ≠ []) ds
      ((windows (.fixed size) els).map (·.elements)) := by
    rw [List.forall₂_map_right_iff]
    have hd' : List.Forall₂ (fun (d : Bool × Win ℚ) (w : Win ℚ) => d.2.elements.Perm w.elements) ds (windows (.fixed size) els) :=
      List.Forall₂.flip (hd.imp fun w d h => h.2)
    refine (List.forall₂_and_left (p := fun d => d.2.elements ≠ []) ds _).mpr ⟨hne, hd'⟩ |>.imp fun d w h => ⟨h.2, fun hc => h.1 ?_⟩
    have := h.2
    rw [hc] at this
    exact this.eq_nil
  have hI : Increasing ((windows (.fixed size) els).map (·.elements)).flatten := by
    rw [windows_eq (wi := .fixed size) hs, List.map_map]
    exact batches_increasing hs hE (startsOf_sorted _ _) fun _ h => h
  obtain ⟨os, st', h1, h2, h3⟩ := C81_incremental (now := now) (render := render) (env := env) (clks := clks) (ids := ids) (id := id)
    hparts hI ho
  refine ⟨os, st', h1, ?_⟩
  have hlen : (windows (.fixed size) els).length = os.length := by rw [h2, hd.length_eq]
  rw [List.forall₂_iff_get]
  refine ⟨hlen, fun i i1 i2 => ?_⟩
  have := h3 i _ (List.getElem?_eq_getElem i2)
  rw [batches_flatten hs hE (List.getElem?_eq_getElem i1)] at this
  exact this

/-! ## C97: attenuation -/

theorem between_length (vs : List δ) (a b : ℤ) : (between (timed vs) a b).length = min (b.toNat - a.toNat) (vs.length - a.toNat) := by
  have := congrArg List.length (C96_piece vs a b)
  rw [List.length_map] at this
  rw [this, piece, List.length_take, List.length_drop]

theorem window_counts {n size p : Nat} (hs : 0 < size) (hp : 0 < p) :
    (∀ k : ℤ, min ((k * p + size).toNat - (k * p).toNat) (n - (k * p).toNat) ≠ 0 →
      2 ≤ min ((k * p + size).toNat - (k * p).toNat) (n - (k * p).toNat)) ↔
    n = 0 ∨ ((n - 1) % p ≠ 0 ∧ (size - 1) % p ≠ 0) := by
  constructor
  · intro h
    rcases Nat.eq_zero_or_pos n with hn | hn
    · exact .inl hn
    · refine .inr ⟨?_, ?_⟩
      · have hk := h (((n - 1) / p : Nat) : ℤ)
        have hd := Nat.div_add_mod (n - 1) p
        rw [Nat.mul_comm] at hd
        have hc : ((((n - 1) / p : Nat) : ℤ) * (p : ℤ)) = (((n - 1) / p * p : Nat) : ℤ) := by push_cast; ring
        rw [hc] at hk
        generalize (n - 1) / p * p = q at hk hd
        omega
      · have hk := h (-(((size - 1) / p : Nat) : ℤ))
        have hd := Nat.div_add_mod (size - 1) p
        rw [Nat.mul_comm] at hd
        have hc : (-(((size - 1) / p : Nat) : ℤ) * (p : ℤ)) = -(((size - 1) / p * p : Nat) : ℤ) := by push_cast; ring
        rw [hc] at hk
        generalize (size - 1) / p * p = q at hk hd
        omega
  · rintro h k hne
    rcases h with h | ⟨h1, h2⟩
    · omega
    · have hn2 : n ≠ 1 := by
        rintro rfl
        exact h1 (Nat.zero_mod p)
      have hs2 : size ≠ 1 := by
        rintro rfl
        exact h2 (Nat.zero_mod p)
      have d1 : (n : ℤ) - 1 ≠ k * p := by
        intro hc
        apply h1
        have hdv : (p : ℤ) ∣ ((n - 1 : Nat) : ℤ) := ⟨k, by
          rw [Nat.cast_sub (by omega)]
          push_cast
          linarith⟩
        exact Nat.mod_eq_zero_of_dvd (Int.natCast_dvd_natCast.mp hdv)
      have d2 : (size : ℤ) - 1 ≠ -(k * p) := by
        intro hc
        apply h2
        have hdv : (p : ℤ) ∣ ((size - 1 : Nat) : ℤ) := ⟨-k, by
          rw [Nat.cast_sub (by omega)]
          push_cast
          linarith⟩
        exact Nat.mod_eq_zero_of_dvd (Int.natCast_dvd_natCast.mp hdv)
      generalize k * (p : ℤ) = q at *
      omega

/-- The pipeline with attenuation over a text, for windows of whole seconds: it gets through exactly if there are no numbers,
or neither their count nor the window size is one more than a multiple of the period. Otherwise some window has a single
number, and an exception ends the pipeline. -/
theorem C97_succeeds_iff {solver : Physical → Except Err (List (Sample × ℚ))} {size period : Nat} (hs : 0 < size) (hp : 0 < period)
    {lines : List (List Char)} (hl : ∀ s ∈ lines, s.getLast? ≠ some '\n') :
    ∃ els, numbersOf lines = .ok els ∧ els = timed (textNumbers lines) ∧ ∀ ds, Delivers (windows (.sliding size period) els) ds →
      (((processAll (NppStream.attenuation env' clks' ids' ms) (fns now render env clks ids solver) (LModel.new .ising id) ds).run
          St.start).isOk = true ↔
        (textNumbers lines).length = 0 ∨ ((((textNumbers lines).length - 1) % period ≠ 0) ∧ (size - 1) % period ≠ 0)) := by
  refine ⟨_, C96_input hl, rfl, fun ds hd => ?_⟩
  have hv : (Windowing.sliding (size : ℚ) (period : ℚ)).Valid := ⟨Nat.cast_pos.mpr hs, Nat.cast_pos.mpr hp⟩
  have hE := timed_increasing (textNumbers lines)
  obtain ⟨a, b, hsl⟩ := delivered_sliding hv hd
  obtain ⟨ho, -⟩ := delivered_order hv (timed_nonneg _) hd
  rw [(C95_succeeds_iff hE hsl ho).1, ← window_counts hs hp]
  have hmem := (C96_windows hv (timed (textNumbers lines))).2
  have hlen : ∀ k : ℤ, (between (timed (textNumbers lines)) (k * (Windowing.sliding (size : ℚ) (period : ℚ)).step)
      (k * (Windowing.sliding (size : ℚ) (period : ℚ)).step + (Windowing.sliding (size : ℚ) (period : ℚ)).size)).length =
      min ((k * period + size).toNat - (k * period).toNat) ((textNumbers lines).length - (k * period).toNat) := by
    intro k
    rw [← between_length]
    push_cast
    rfl
  have hall : (∀ d ∈ ds, 2 ≤ d.2.elements.length) ↔ ∀ w ∈ windows (.sliding (size : ℚ) (period : ℚ)) (timed (textNumbers lines)),
      2 ≤ w.elements.length := by
    clear hsl ho hmem
    unfold Delivers at hd
    generalize windows (.sliding (size : ℚ) (period : ℚ)) (timed (textNumbers lines)) = ws at hd
    induction hd with
    | nil => simp
    | @cons w d ws ds hwd _ ih =>
      rw [List.forall_mem_cons, List.forall_mem_cons, ih, hwd.2.length_eq]
  rw [hall]
  constructor
  · intro h k hk
    rw [← hlen] at hk ⊢
    exact h _ ((hmem _).mpr ⟨k, rfl, fun hc => hk (congrArg List.length hc)⟩)
  · intro h w hw
    obtain ⟨k, rfl, hne⟩ := (hmem w).mp hw
    have := h k
    rw [← hlen] at this
    exact this fun hc => hne (List.length_eq_zero_iff.mp hc)

/-- A text of the numbers 1 to 6, as in the sample. -/
def Ex.six : List (List Char) := ["1", "2", "3", "4", "5", "6"].map String.toList

/-- With the options of the sample (size 20, period 5), six numbers are too many: the last window has a single one. -/
theorem C97_sample_refuted : ∃ els, numbersOf Ex.six = .ok els ∧
    ∀ ds, Delivers (windows (.sliding 20 5) els) ds →
      ((processAll (Ex.nppAttenuation (1 / 10)) Ex.nppFns (LModel.new .ising "0") ds).run St.start).isOk = false := by
  obtain ⟨els, h1, -, h2⟩ := C97_succeeds_iff (env' := ⟨0, fun _ => ""⟩) (clks' := fun _ _ => 0) (ids' := fun _ => "1") (ms := 1 / 10)
    (now := 0) (render := fun _ => "") (env := ⟨0, fun _ => ""⟩) (clks := fun _ _ => 0) (ids := fun _ => "1") (id := "0")
    (solver := exactSolver) (size := 20) (period := 5) (by decide) (by decide) (lines := Ex.six) (by decide +kernel)
  refine ⟨els, h1, fun ds hd => ?_⟩
  have := (h2 ds hd).not.mpr (by decide +kernel)
  simpa [Ex.nppAttenuation, Ex.nppFns] using this

/-- If it gets through, every window is answered as in C95. -/
theorem C97_answers (hms : 0 < ms) (hv : wi.Valid) {lines : List (List Char)} (hl : ∀ s ∈ lines, s.getLast? ≠ some '\n') :
    ∃ els, numbersOf lines = .ok els ∧ els = timed (textNumbers lines) ∧ ∀ ds os st', Delivers (windows wi els) ds →
      (processAll (NppStream.attenuation env' clks' ids' ms) (fns now render env clks ids exactSolver) (LModel.new .ising id) ds).run
        St.start = .ok os st' →
      List.Forall₂ (fun w o => YieldsWeighted (weight ms w.elements) w.elements o) (windows wi els) os := by
  refine ⟨_, C96_input hl, rfl, fun ds os st' hd hr => ?_⟩
  have hE := timed_increasing (textNumbers lines)
  obtain ⟨a, b, hs⟩ := delivered_sliding hv hd
  obtain ⟨ho, _⟩ := delivered_order hv (timed_nonneg _) hd
  have h2 := (C95_succeeds_iff (env' := env') (clks' := clks') (ids' := ids') (ms := ms) (now := now) (render := render) (env := env)
    (clks := clks) (ids := ids) (solver := exactSolver) (id := id) hE hs ho).1.mp (by rw [hr]; rfl)
  obtain ⟨os', st'', h3, h4⟩ := C95_yields (env' := env') (clks' := clks') (ids' := ids') (ms := ms) (now := now) (render := render)
    (env := env) (clks := clks) (ids := ids) (id := id) hE hms hs ho h2
  rw [hr] at h3
  cases h3
  refine forall₂_trans (delivered_sorted hv hE hd) h4 fun w d o hwd hdo => ?_
  rw [← hwd]
  exact hdo

/-! ## C98: travelling salesperson -/

/-- The travelling salesperson pipeline over a list of cities: every window is answered once, in the order of time, and if some
tour of its cities is short enough, the answer names the cities in the order of a shortest one. -/
theorem C98_shortest_partial {κ : Type} {dist : κ → κ → ℚ} {compile : Tsp.HExpr → PModel} {newId : String} {now : ℚ}
    {alg : Algorithm LModel (Tsp.City κ)} (halg : alg = .window ∨ alg = .delta) (hc : CompilesAll compile)
    (hd : ∀ a b, 0 ≤ dist a b) (hself : ∀ a, dist a a = 0) (hv : wi.Valid) (cities : List (Tsp.City κ)) :
    ∃ els, Pipeline.indexed cities = .ok els ∧ els = timed cities ∧ ∀ ds, Delivers (windows wi els) ds →
      ∃ os st', (processAll alg (Tsp.fns dist compile newId now env clks ids exactSolver) (LModel.new .qubo id) ds).run St.start =
          .ok os st' ∧
        List.Forall₂ (fun w o => ∃ els r, els.Perm w.elements ∧ o = [.result r] ∧ r.length ≤ els.length ∧
          (ShortTour dist els → ∃ t, Tsp.Shortest els.length (Tsp.distances dist els) t ∧ Tsp.Names els t r)) (windows wi els) os := by
  refine ⟨_, indexed_eq cities, rfl, fun ds hdel => ?_⟩
  obtain ⟨ho, hne⟩ := delivered_order hv (timed_nonneg _) hdel
  obtain ⟨os, st', h1, h2⟩ := C89_shortest_partial (newId := newId) (now := now) (env := env) (clks := clks) (ids := ids) halg hc hd
    hself id ho hne
  refine ⟨os, st', h1, forall₂_trans hdel h2 ?_⟩
  rintro w d o ⟨_, hp⟩ ⟨els, r, h3, h4⟩
  exact ⟨els, r, h3.trans hp, h4⟩

/-- Whatever the distances are, every window is answered once, in the order of time, by what bits select that minimise the
Hamiltonian of the cities of the window with the weights of the application. -/
theorem C98_answers {κ : Type} {dist : κ → κ → ℚ} {compile : Tsp.HExpr → PModel} {newId : String} {now : ℚ}
    {alg : Algorithm LModel (Tsp.City κ)} (halg : alg = .window ∨ alg = .delta) (hc : CompilesAll compile)
    (hself : ∀ a, dist a a = 0) (hv : wi.Valid) (cities : List (Tsp.City κ)) :
    ∃ els, Pipeline.indexed cities = .ok els ∧ els = timed cities ∧ ∀ ds, Delivers (windows wi els) ds →
      ∃ os st', (processAll alg (Tsp.fns dist compile newId now env clks ids exactSolver) (LModel.new .qubo id) ds).run St.start =
          .ok os st' ∧
        List.Forall₂ (fun w o => ∃ els X, els.Perm w.elements ∧
          Tsp.Minimises els.length (Tsp.distances dist els) (35 / 2) 15 X ∧ o = [.result (Tsp.selected els X)]) (windows wi els) os := by
  refine ⟨_, indexed_eq cities, rfl, fun ds hdel => ?_⟩
  obtain ⟨ho, hne⟩ := delivered_order hv (timed_nonneg _) hdel
  obtain ⟨os, st', h1, h2⟩ := C89_answers (newId := newId) (now := now) (env := env) (clks := clks) (ids := ids) halg hc
    hself id ho hne
  refine ⟨os, st', h1, forall₂_trans hdel h2 ?_⟩
  rintro w d o ⟨_, hp⟩ ⟨els, X, h3, h4⟩
  exact ⟨els, X, h3.trans hp, h4⟩

/-- So over two cities whose round trip is longer than 30, every window with both names one of them twice, and not the other. -/
theorem C98_far_refuted {κ : Type} {dist : κ → κ → ℚ} {compile : Tsp.HExpr → PModel} {newId : String} {now : ℚ}
    {alg : Algorithm LModel (Tsp.City κ)} (halg : alg = .window ∨ alg = .delta) (hc : CompilesAll compile)
    (hd : ∀ a b, 0 ≤ dist a b) (hself : ∀ a, dist a a = 0) (hv : wi.Valid) {a b : Tsp.City κ}
    (hfar : 30 < dist a.place b.place + dist b.place a.place) :
    ∃ els, Pipeline.indexed [a, b] = .ok els ∧ ∀ ds, Delivers (windows wi els) ds →
      ∃ os st', (processAll alg (Tsp.fns dist compile newId now env clks ids exactSolver) (LModel.new .qubo id) ds).run St.start =
          .ok os st' ∧
        List.Forall₂ (fun w o => w.elements.length = 2 → o = [.result [a.name, a.name]] ∨ o = [.result [b.name, b.name]])
          (windows wi els) os := by
  obtain ⟨els, h1, h2, h3⟩ := C98_answers (newId := newId) (now := now) (env := env) (clks := clks) (ids := ids) (id := id) halg hc
    hself hv [a, b]
  refine ⟨els, h1, fun ds hdel => ?_⟩
  obtain ⟨os, st', h4, h5⟩ := h3 ds hdel
  refine ⟨os, st', h4, ?_⟩
  have hall : ∀ w ∈ windows wi els, w.elements.Sublist els := by
    intro w hw
    obtain ⟨s, -, rfl⟩ := List.mem_map.mp hw
    exact List.filter_sublist
  clear h4
  generalize windows wi els = ws at h5 hall
  induction h5 with
  | nil => exact .nil
  | @cons w o ws os hwo _ ih =>
    refine .cons (fun hlen => ?_) (ih fun w hw => hall w (.tail _ hw))
    obtain ⟨l, X, hp, hm, rfl⟩ := hwo
    have he : w.elements = els := (hall w (.head _)).eq_of_length (by rw [hlen, h2]; rfl)
    rw [he, h2] at hp
    have hn : l.length = 2 := hp.length_eq
    obtain ⟨x, y, rfl⟩ := List.length_eq_two.mp hn
    have : ∀ (u v : El (Tsp.City κ)), [x, y].Perm [u, v] → [x, y] = [u, v] ∨ [x, y] = [v, u] := by
      intro u v h
      have hx : x = u ∨ x = v := by simpa using h.subset (.head _)
      rcases hx with rfl | rfl
      · have := List.perm_singleton.mp ((List.perm_cons _).mp h)
        exact .inl (by rw [this])
      · have := List.perm_singleton.mp ((List.perm_cons _).mp (h.trans (.swap _ _ _)))
        exact .inr (by rw [this])
    rcases this _ _ hp with h | h <;> rw [h] at hm ⊢
    · rcases C89_far_refuted hself (by exact hfar) hd hm with h | h <;> rw [h]
      · exact .inl rfl
      · exact .inr rfl
    · rcases C89_far_refuted hself (by rw [add_comm]; exact hfar) hd hm with h | h <;> rw [h]
      · exact .inr rfl
      · exact .inl rfl

/-! ## Examples -/

/-- A text with lines that are not numbers. -/
def Ex.text : List (List Char) := ["8", "", "3", "x", "5", "4"].map String.toList

/-- Windows of length 3 and period 2 over the text, with the elements of the first in another order. -/
def Ex.textWins : List (Bool × Win ℚ) :=
  [(false, ⟨1 - tick, [⟨0, 0, 8⟩]⟩), (false, ⟨3 - tick, [⟨2, 2, 5⟩, ⟨0, 0, 8⟩, ⟨1, 1, 3⟩]⟩), (true, ⟨5 - tick, [⟨2, 2, 5⟩, ⟨3, 3, 4⟩]⟩)]

/-- The hypotheses of C96 and C97 are met. -/
example : (Windowing.sliding 3 2).Valid ∧ (∀ s ∈ Ex.text, s.getLast? ≠ some '\n') ∧ textNumbers Ex.text = [8, 3, 5, 4] ∧
    Delivers (windows (.sliding 3 2) (timed (textNumbers Ex.text))) Ex.textWins := by
  have h : windows (.sliding 3 2) (timed (textNumbers Ex.text)) =
      [⟨1 - tick, [⟨0, 0, 8⟩]⟩, ⟨3 - tick, [⟨0, 0, 8⟩, ⟨1, 1, 3⟩, ⟨2, 2, 5⟩]⟩, ⟨5 - tick, [⟨2, 2, 5⟩, ⟨3, 3, 4⟩]⟩] := by
    decide +kernel
  refine ⟨by norm_num [Windowing.Valid], by decide +kernel, by decide +kernel, ?_⟩
  rw [h]
  exact .cons ⟨rfl, .refl _⟩ (.cons ⟨rfl, by decide +kernel⟩ (.cons ⟨rfl, .refl _⟩ .nil))

/-- Every list of windows can be delivered. -/
example (ws : List (Win δ)) : Delivers ws (ws.map fun w => (false, w)) := by
  unfold Delivers
  rw [List.forall₂_map_right_iff]
  exact List.forall₂_same.mpr fun w _ => ⟨rfl, .refl _⟩

/-- The batches of size 2. -/
example : windows (.fixed 2) (timed (textNumbers Ex.text)) =
    [⟨2 - tick, [⟨0, 0, 8⟩, ⟨1, 1, 3⟩]⟩, ⟨4 - tick, [⟨2, 2, 5⟩, ⟨3, 3, 4⟩]⟩] := by decide +kernel

/-- Four numbers with windows of length 4 and period 2: every window has two numbers or more. -/
example : 0 < 4 ∧ 0 < 2 ∧ (((textNumbers Ex.text).length - 1) % 2 ≠ 0 ∧ (4 - 1) % 2 ≠ 0) := by decide +kernel

/-- Two cities 16 apart meet the hypotheses of `C98_far_refuted`, and a window of size 2 has both. -/
example : (∀ a b : ℚ, 0 ≤ |a - b|) ∧ (∀ a : ℚ, |a - a| = 0) ∧ (30 : ℚ) < |0 - 16| + |16 - 0| ∧ (Windowing.fixed 2).Valid ∧
    (windows (.fixed 2) (timed [(⟨"A", 0⟩ : Tsp.City ℚ), ⟨"B", 16⟩])).map (fun w => w.elements.length) = [2] :=
  ⟨fun a b => abs_nonneg _, by simp, by norm_num, by norm_num [Windowing.Valid], by decide +kernel⟩

/-- A piece of the input. -/
example : piece ([8, 3, 5, 4] : List ℚ) (-2) 1 = [8] ∧ piece ([8, 3, 5, 4] : List ℚ) 2 5 = [5, 4] := by decide +kernel

end Sawatabi.Props
