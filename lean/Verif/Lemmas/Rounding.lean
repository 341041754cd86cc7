import Verif.Model.Rounding
import Verif.Spec.Rounding
import Verif.Lemmas.Run
import Mathlib.Algebra.Order.Group.Abs
import Mathlib.Algebra.Order.BigOperators.Group.List
import Mathlib.Tactic.LinearCombination

/-!
# Lemmas: rounding in the annealing
-/

namespace Sawatabi

variable {ls : List String} {s : Problem} {γ : Type} {ar : Arith} {rng : Rng γ} {exp : ℚ → Except Err ℚ} {o : Options}
  {rands : List ℚ} {u w top : ℚ} {D : Nat}

/-! ## Without rounding -/

theorem annealingR_exact (init : Option Sample) (g : γ) :
    annealingR .exact rng exp s o init g = annealing rng exp s o init g := rfl

/-! ## Sums -/

theorem roundedSum_error {round : ℚ → ℚ} (hu : 0 ≤ u) (hr : Relative u round) (l : List ℚ) :
    ∀ (k : Nat) (d d' S : ℚ), |d| ≤ S → |d' - d| ≤ ((1 + u) ^ k - 1) * S →
      |roundedSum round d' l - (d + l.sum)| ≤ ((1 + u) ^ (k + l.length) - 1) * (S + (l.map abs).sum) := by
  induction l with
  | nil => intro k d d' S _ h; simpa [roundedSum] using h
  | cons t l ih =>
    intro k d d' S hd h
    have hg : (1 : ℚ) ≤ (1 + u) ^ k := one_le_pow₀ (by linarith)
    have hS : 0 ≤ S := le_trans (abs_nonneg d) hd
    have hdt : |d + t| ≤ S + |t| := le_trans (abs_add_le d t) (by linarith)
    have hy : |d' + t - (d + t)| ≤ ((1 + u) ^ k - 1) * S := by rwa [add_sub_add_right_eq_sub]
    have hyy : |d' + t| ≤ (1 + u) ^ k * (S + |t|) := by
      have h1 : |d' + t| ≤ |d' + t - (d + t)| + |d + t| := by
        have := abs_add_le (d' + t - (d + t)) (d + t)
        rwa [sub_add_cancel] at this
      have h2 : |t| ≤ (1 + u) ^ k * |t| := le_mul_of_one_le_left (abs_nonneg t) hg
      nlinarith
    have hrd := hr (d' + t)
    have hlast : |round (d' + t) - (d + t)| ≤ ((1 + u) ^ (k + 1) - 1) * (S + |t|) := by
      have h1 : |round (d' + t) - (d + t)| ≤ |round (d' + t) - (d' + t)| + |d' + t - (d + t)| := by
        have := abs_add_le (round (d' + t) - (d' + t)) (d' + t - (d + t))
        rwa [sub_add_sub_cancel] at this
      have h2 : u * |d' + t| ≤ u * ((1 + u) ^ k * (S + |t|)) := mul_le_mul_of_nonneg_left hyy hu
      have h3 : ((1 + u) ^ k - 1) * S ≤ ((1 + u) ^ k - 1) * (S + |t|) :=
        mul_le_mul_of_nonneg_left (by linarith [abs_nonneg t]) (by linarith)
      rw [pow_succ]
      nlinarith
    have := ih (k + 1) (d + t) (round (d' + t)) (S + |t|) hdt hlast
    simp only [roundedSum, List.foldl_cons, List.sum_cons, List.map_cons, List.length_cons] at this ⊢
    rw [show k + (l.length + 1) = k + 1 + l.length by omega, ← add_assoc, ← add_assoc]
    exact this

theorem roundedSum_keeps {round : ℚ → ℚ} (hr : Keeps w top round) (l : List ℚ) :
    ∀ (d : ℚ), (∃ z : ℤ, d = z * w) → (∀ t ∈ l, ∃ z : ℤ, t = z * w) → |d| + (l.map abs).sum ≤ top →
      roundedSum round d l = d + l.sum := by
  induction l with
  | nil => intro d _ _ _; simp [roundedSum]
  | cons t l ih =>
    rintro d ⟨z, hz⟩ hl hs
    obtain ⟨z', hz'⟩ := hl t List.mem_cons_self
    simp only [List.map_cons, List.sum_cons] at hs
    have hnn : 0 ≤ (l.map abs).sum := List.sum_nonneg fun a ha => by
      obtain ⟨b, _, rfl⟩ := List.mem_map.mp ha
      exact abs_nonneg b
    have hdt := abs_add_le d t
    have e : d + t = ((z + z' : ℤ) : ℚ) * w := by rw [hz, hz']; push_cast; ring
    have : round (d + t) = d + t := by
      rw [e]
      apply hr
      rw [← e]
      linarith
    simp only [roundedSum, List.foldl_cons, List.sum_cons]
    rw [this]
    have := ih (d + t) ⟨_, e⟩ (fun t ht => hl t (List.mem_cons_of_mem _ ht)) (by linarith)
    simp only [roundedSum] at this
    rw [this]
    ring

/-! ## Coefficients -/

theorem abs_sum_nonneg {α : Type} (l : List α) (f : α → ℚ) : 0 ≤ (l.map fun a => |f a|).sum :=
  List.sum_nonneg fun a ha => by
    obtain ⟨b, _, rfl⟩ := List.mem_map.mp ha
    exact abs_nonneg _

theorem abs_sum_le {α : Type} (l : List α) (f g : α → ℚ) (h : ∀ a ∈ l, |f a| ≤ g a) :
    |(l.map f).sum| ≤ (l.map g).sum := by
  induction l with
  | nil => simp
  | cons a l ih =>
    simp only [List.map_cons, List.sum_cons]
    have h1 := h a List.mem_cons_self
    have h2 := ih fun a ha => h a (List.mem_cons_of_mem _ ha)
    exact le_trans (abs_add_le _ _) (by linarith)

theorem Bqm.energy_abs (b : Bqm) {σ : Assign} (hσ : ∀ l, |σ l| ≤ 1) : |b.energy σ| ≤ b.mass := by
  unfold Bqm.energy Bqm.mass
  have h1 : |(b.linear.map fun kv => kv.2 * σ kv.1).sum| ≤ (b.linear.map fun kv => |kv.2|).sum := by
    apply abs_sum_le
    intro kv _
    rw [abs_mul]
    exact mul_le_of_le_one_right (abs_nonneg _) (hσ _)
  have h2 : |(b.quad.map fun kv => kv.2 * (σ kv.1.1 * σ kv.1.2)).sum| ≤ (b.quad.map fun kv => |kv.2|).sum := by
    apply abs_sum_le
    intro kv _
    rw [abs_mul, abs_mul]
    exact mul_le_of_le_one_right (abs_nonneg _) (mul_le_one₀ (hσ _) (abs_nonneg _) (hσ _))
  have h3 := abs_add_le (b.offset + (b.linear.map fun kv => kv.2 * σ kv.1).sum)
    (b.quad.map fun kv => kv.2 * (σ kv.1.1 * σ kv.1.2)).sum
  have h4 := abs_add_le b.offset (b.linear.map fun kv => kv.2 * σ kv.1).sum
  linarith

theorem Bqm.local_mass (b : Bqm) (v : String) :
    |b.bias v| + ((b.neighbours v).map fun e => |e.2|).sum ≤ b.mass := by
  unfold Bqm.mass
  have h1 : |b.bias v| ≤ (b.linear.map fun kv => |kv.2|).sum := by
    unfold Bqm.bias
    generalize b.linear = l
    induction l with
    | nil => simp [dget]
    | cons kv l ih =>
      obtain ⟨k, c⟩ := kv
      simp only [dget, List.map_cons, List.sum_cons]
      have := abs_sum_nonneg l (fun kv => kv.2)
      split
      · simp only [Option.getD_some]; linarith
      · linarith [abs_nonneg c]
  have h2 : ((b.neighbours v).map fun e => |e.2|).sum ≤ (b.quad.map fun kv => |kv.2|).sum := by
    unfold Bqm.neighbours
    generalize b.quad = l
    induction l with
    | nil => simp
    | cons kv l ih =>
      simp only [List.filterMap_cons, List.map_cons, List.sum_cons]
      split
      · rename_i he
        linarith [abs_nonneg kv.2]
      · rename_i e he
        have : e.2 = kv.2 := by
          split at he
          · cases he; rfl
          · split at he <;> cases he
            rfl
        simp only [List.map_cons, List.sum_cons, this]
        linarith
  linarith [abs_nonneg b.offset]

theorem Bqm.local_multiples {b : Bqm} (h : b.Multiples w) (v : String) :
    (∃ z : ℤ, b.bias v = z * w) ∧ ∀ e ∈ b.neighbours v, ∃ z : ℤ, e.2 = z * w := by
  obtain ⟨_, h2, h3⟩ := h
  constructor
  · unfold Bqm.bias
    cases hd : dget b.linear v with
    | none => exact ⟨0, by simp⟩
    | some c => exact h2 (v, c) (dget_mem hd)
  · rintro ⟨x, c⟩ he
    rcases neighbours_mem he with h | h
    · exact h3 _ h
    · exact h3 _ h

theorem multiples_sum {α : Type} (l : List α) (f : α → ℚ) (h : ∀ a ∈ l, ∃ z : ℤ, f a = z * w) :
    ∃ z : ℤ, (l.map f).sum = z * w := by
  induction l with
  | nil => exact ⟨0, by simp⟩
  | cons a l ih =>
    obtain ⟨z, hz⟩ := h a List.mem_cons_self
    obtain ⟨z', hz'⟩ := ih fun a ha => h a (List.mem_cons_of_mem _ ha)
    exact ⟨z + z', by simp only [List.map_cons, List.sum_cons, hz, hz']; push_cast; ring⟩

theorem Bqm.energy_multiple {b : Bqm} (h : b.Multiples w) {x : List ℤ} :
    ∃ z : ℤ, b.energy (spinAssign ls x) = z * w := by
  obtain ⟨⟨z1, h1⟩, h2, h3⟩ := h
  obtain ⟨z2, e2⟩ := multiples_sum b.linear (fun kv => kv.2 * spinAssign ls x kv.1) (w := w) fun kv hkv => by
    obtain ⟨z, hz⟩ := h2 kv hkv
    exact ⟨z * (x[ls.idxOf kv.1]?).getD 0, by rw [hz]; unfold spinAssign; push_cast; ring⟩
  obtain ⟨z3, e3⟩ := multiples_sum b.quad (fun kv => kv.2 * (spinAssign ls x kv.1.1 * spinAssign ls x kv.1.2)) (w := w)
    fun kv hkv => by
      obtain ⟨z, hz⟩ := h3 kv hkv
      exact ⟨z * ((x[ls.idxOf kv.1.1]?).getD 0 * (x[ls.idxOf kv.1.2]?).getD 0), by
        rw [hz]; unfold spinAssign; push_cast; ring⟩
  exact ⟨z1 + z2 + z3, by unfold Bqm.energy; rw [h1, e2, e3]; push_cast; ring⟩

theorem spinAssign_abs {x : List ℤ} (hx : IsSpins x) (l : String) : |spinAssign ls x l| ≤ 1 := by
  unfold spinAssign
  cases h : x[ls.idxOf l]? with
  | none => simp
  | some a =>
    rcases hx a (List.mem_of_getElem? h) with rfl | rfl <;> simp

/-! ## One difference -/

/-- The terms of a difference, without the factor 2. -/
def Problem.terms (s : Problem) (ls : List String) (x : List ℤ) (v : String) : List ℚ :=
  (s.bqm.neighbours v).map fun e => spinAssign ls x v * spinAssign ls x e.1 * e.2

theorem calcDiffR_ok (h : s.Arrays ls) {x : List ℤ} (hx : x.length = ls.length) {i : Nat} {v : String}
    (hi : ls[i]? = some v) : calcDiffR ar s i x =
      .ok (2 * roundedSum ar.round (spinAssign ls x v * s.bqm.bias v) (s.terms ls x v)) := by
  have hlt : i < x.length := by rw [hx]; exact (List.getElem?_eq_some_iff.mp hi).1
  have hxi : x[i]? = some x[i] := List.getElem?_eq_getElem hlt
  have hv := spinAssign_of_mem h.ready.nodup hi hxi
  unfold calcDiffR
  rw [listGet_ok.mpr hxi, Except.bind_ok, listGet_ok.mpr (h.linear i v hi), Except.bind_ok,
    listGet_ok.mpr (h.adj i v hi), Except.bind_ok]
  have key : ∀ (l : List (String × ℚ)) (d : ℚ), (∀ e ∈ l, e.1 ∈ ls) →
      (l.map fun e => (ls.idxOf e.1, e.2)).foldlM (fun d kv => do
        let xj ← listGet x kv.1
        return ar.round (d + (x[i] : ℚ) * (xj : ℚ) * kv.2)) d =
      Except.ok (ε := Err) (roundedSum ar.round d (l.map fun e => spinAssign ls x v * spinAssign ls x e.1 * e.2)) := by
    intro l
    induction l with
    | nil => intro d _; rfl
    | cons e l ih =>
      intro d hl
      have he := hl e List.mem_cons_self
      have hj : ls.idxOf e.1 < x.length := by rw [hx]; exact List.idxOf_lt_length_of_mem he
      rw [List.map_cons, List.foldlM_cons, listGet_ok.mpr (List.getElem?_eq_getElem hj), Except.bind_ok, Except.pure_ok,
        Except.bind_ok, ih _ fun e he => hl e (List.mem_cons_of_mem _ he), List.map_cons, hv,
        spinAssign_of_mem h.ready.nodup (getElem?_idxOf' he) (List.getElem?_eq_getElem hj)]
      rfl
  rw [key _ _ (neighbours_on h.on), Except.bind_ok, Except.pure_ok]
  unfold Problem.terms
  rw [hv]

theorem delta_terms (h : s.Arrays ls) {x : List ℤ} {v : String} :
    s.delta ls x v = 2 * (spinAssign ls x v * s.bqm.bias v + (s.terms ls x v).sum) := by
  have e : (s.terms ls x v).sum = ((s.bqm.neighbours v).map fun e => e.2 * spinAssign ls x e.1).sum * spinAssign ls x v := by
    unfold Problem.terms
    generalize s.bqm.neighbours v = l
    induction l with
    | nil => simp
    | cons a l ih =>
      simp only [List.map_cons, List.sum_cons, ih]
      ring
  unfold Problem.delta
  rw [Bqm.flip_energy h.wf, e]
  ring

theorem terms_abs {x : List ℤ} (hx : IsSpins x) (v : String) :
    |spinAssign ls x v * s.bqm.bias v| + ((s.terms ls x v).map abs).sum ≤ s.bqm.mass := by
  have h := s.bqm.local_mass v
  have h1 : |spinAssign ls x v * s.bqm.bias v| ≤ |s.bqm.bias v| := by
    rw [abs_mul]
    exact mul_le_of_le_one_left (abs_nonneg _) (spinAssign_abs hx v)
  have h2 : ((s.terms ls x v).map abs).sum ≤ ((s.bqm.neighbours v).map fun e => |e.2|).sum := by
    unfold Problem.terms
    rw [List.map_map]
    apply List.sum_le_sum
    intro e _
    simp only [Function.comp_apply, abs_mul]
    exact mul_le_of_le_one_left (abs_nonneg _)
      (mul_le_one₀ (spinAssign_abs hx v) (abs_nonneg _) (spinAssign_abs hx e.1))
  linarith

/-- The error of a difference. -/
theorem calcDiffR_error (h : s.Arrays ls) {x : List ℤ} (hx : x.length = ls.length) (hs : IsSpins x) (hu : 0 ≤ u)
    (hr : Relative u ar.round) (hD : ∀ v, (s.bqm.neighbours v).length ≤ D) {i : Nat} {v : String}
    (hi : ls[i]? = some v) : ∃ d, calcDiffR ar s i x = .ok d ∧
      |d - s.delta ls x v| ≤ 2 * ((1 + u) ^ D - 1) * s.bqm.mass := by
  refine ⟨_, calcDiffR_ok h hx hi, ?_⟩
  rw [delta_terms h, ← mul_sub, abs_mul, abs_two, mul_assoc]
  refine mul_le_mul_of_nonneg_left ?_ (by norm_num)
  have hsum := terms_abs (s := s) (ls := ls) hs v
  have := roundedSum_error hu hr (s.terms ls x v) 0 (spinAssign ls x v * s.bqm.bias v)
    (spinAssign ls x v * s.bqm.bias v) _ le_rfl (by simp)
  rw [Nat.zero_add] at this
  refine le_trans this ?_
  have hlen : (s.terms ls x v).length ≤ D := by
    unfold Problem.terms
    rw [List.length_map]
    exact hD v
  have hp : (1 + u) ^ (s.terms ls x v).length ≤ (1 + u) ^ D := pow_le_pow_right₀ (by linarith) hlen
  have h1 : (1 : ℚ) ≤ (1 + u) ^ D := one_le_pow₀ (by linarith)
  exact mul_le_mul (by linarith) hsum
    (add_nonneg (abs_nonneg _) (by simpa using abs_sum_nonneg (s.terms ls x v) id)) (by linarith)

/-- Differences of multiples have no error. -/
theorem calcDiffR_keeps (h : s.Arrays ls) {x : List ℤ} (hx : x.length = ls.length) (hs : IsSpins x)
    (hr : Keeps w top ar.round) (hm : s.bqm.Multiples w) (ht : s.bqm.mass ≤ top) {i : Nat} {v : String}
    (hi : ls[i]? = some v) : calcDiffR ar s i x = .ok (s.delta ls x v) := by
  obtain ⟨⟨z, hz⟩, h2⟩ := Bqm.local_multiples hm v
  rw [calcDiffR_ok h hx hi, delta_terms h, roundedSum_keeps hr]
  · exact ⟨(x[ls.idxOf v]?).getD 0 * z, by rw [hz]; unfold spinAssign; push_cast; ring⟩
  · intro t hmem
    obtain ⟨e, he, rfl⟩ := List.mem_map.mp hmem
    obtain ⟨z', hz'⟩ := h2 e he
    exact ⟨(x[ls.idxOf v]?).getD 0 * (x[ls.idxOf e.1]?).getD 0 * z', by
      rw [hz']; unfold spinAssign; push_cast; ring⟩
  · exact le_trans (terms_abs hs v) ht

/-! ## Steps and sweeps -/

/-- Spins whose energy is known up to an error that depends on the number of flips. -/
structure Near (s : Problem) (ls : List String) (K : Nat → ℚ) (x : List ℤ) (energy : ℚ) (flips : Nat) : Prop where
  length : x.length = ls.length
  spins : IsSpins x
  error : |energy - - s.bqm.energy (spinAssign ls x)| ≤ K flips

/-- A flip of a near state is near. -/
def FlipNear (ar : Arith) (s : Problem) (ls : List String) (K : Nat → ℚ) : Prop :=
  ∀ (x : List ℤ) (e : ℚ) (n i : Nat) (v : String) (d : ℚ), Near s ls K x e n → ls[i]? = some v →
    calcDiffR ar s i x = .ok d →
      |ar.round (e + d) - - s.bqm.energy ((spinAssign ls x).subst v (- spinAssign ls x v))| ≤ K (n + 1)

theorem innerStepR_near {K : Nat → ℚ} (h : s.Arrays ls) (hK : FlipNear ar s ls K) {T : ℚ} {t t' : Inner} {i base : Nat}
    (hi : i < ls.length) (hn : Near s ls K t.x t.energy (base + t.acceptances))
    (hr : innerStepR ar exp s rands T t i = .ok t') : Near s ls K t'.x t'.energy (base + t'.acceptances) := by
  have hlt : i < t.x.length := by rw [hn.length]; exact hi
  have hxi := List.getElem?_eq_getElem hlt
  have hli := List.getElem?_eq_getElem hi
  unfold innerStepR at hr
  rw [bind_eq_ok] at hr
  obtain ⟨d, hd, hr⟩ := hr
  rw [bind_eq_ok] at hr
  obtain ⟨⟨ok, used⟩, _, hr⟩ := hr
  simp only at hr
  cases ok with
  | false =>
    simp only [Bool.false_eq_true, if_false, Except.pure_ok] at hr
    cases hr
    exact hn
  | true =>
    simp only [if_true] at hr
    rw [listGet_ok.mpr hxi, Except.bind_ok, listSet_ok.mpr ⟨hlt, rfl⟩, Except.bind_ok, Except.pure_ok] at hr
    cases hr
    refine ⟨by simp [hn.length], ?_, ?_⟩
    · intro a ha
      rcases List.mem_or_eq_of_mem_set ha with h' | rfl
      · exact hn.spins a h'
      · rcases hn.spins _ (List.mem_of_getElem? hxi) with e | e <;> rw [e] <;> simp
    · simp only
      rw [spinAssign_flip h.ready.nodup hn.length hli hxi]
      exact hK t.x t.energy _ i _ d hn hli hd

theorem innerR_near {K : Nat → ℚ} (h : s.Arrays ls) (hK : FlipNear ar s ls K) {T : ℚ} {base : Nat} (ps : List Nat)
    {t t' : Inner} (hps : ∀ i ∈ ps, i < ls.length) (hn : Near s ls K t.x t.energy (base + t.acceptances))
    (hr : ps.foldlM (innerStepR ar exp s rands T) t = .ok t') :
    Near s ls K t'.x t'.energy (base + t'.acceptances) := by
  induction ps generalizing t with
  | nil => cases hr; exact hn
  | cons i ps ih =>
    rw [List.foldlM_cons, bind_eq_ok] at hr
    obtain ⟨t1, h1, h2⟩ := hr
    exact ih (fun i hi => hps i (List.mem_cons_of_mem _ hi))
      (innerStepR_near h hK (hps i List.mem_cons_self) hn h1) h2

theorem sweepStepR_ok {t t' : Outer γ} {k : Nat} (h : sweepStepR ar rng exp s o rands t k = .ok t') :
    ∃ ps g r, pickups rng o.pickup s.size t.rng = .ok (ps, g) ∧
      ps.foldlM (innerStepR ar exp s rands t.temperature) ⟨t.x, t.energy, t.used, 0⟩ = .ok r ∧
      t'.x = r.x ∧ t'.energy = r.energy ∧ t'.energyHist = t.energyHist ++ [t.energy] ∧
      t'.acceptanceHist = t.acceptanceHist ++ [r.acceptances] := by
  have tail : ∀ rev, ((do
      let (ps, g) ← pickups rng o.pickup s.size t.rng
      let r ← ps.foldlM (innerStepR ar exp s rands t.temperature) ⟨t.x, t.energy, t.used, 0⟩
      let (temperature, target) ← if rev then do
          let target := ar.round (t.target * o.coolingRate)
          let top ← o.reverse.get "reverse_temperature"
          pure (ar.round (top - target), target)
        else pure (ar.round (t.temperature * o.coolingRate), t.target)
      return ({ x := r.x, energy := r.energy, used := r.used, temperature, target, reversing := rev,
                energyHist := t.energyHist ++ [t.energy], temperatureHist := t.temperatureHist ++ [t.temperature],
                acceptanceHist := t.acceptanceHist ++ [r.acceptances], rng := g } : Outer γ)) : Except Err (Outer γ)) = .ok t' →
      ∃ ps g r, pickups rng o.pickup s.size t.rng = .ok (ps, g) ∧
        ps.foldlM (innerStepR ar exp s rands t.temperature) ⟨t.x, t.energy, t.used, 0⟩ = .ok r ∧
        t'.x = r.x ∧ t'.energy = r.energy ∧ t'.energyHist = t.energyHist ++ [t.energy] ∧
        t'.acceptanceHist = t.acceptanceHist ++ [r.acceptances] := by
    intro rev h
    rw [bind_eq_ok] at h
    obtain ⟨⟨ps, g⟩, h1, h⟩ := h
    simp only at h
    rw [bind_eq_ok] at h
    obtain ⟨r, h2, h⟩ := h
    refine ⟨ps, g, r, h1, h2, ?_⟩
    cases rev with
    | false =>
      simp only [Bool.false_eq_true, if_false, Except.pure_ok, Except.bind_ok] at h
      cases h
      exact ⟨rfl, rfl, rfl, rfl⟩
    | true =>
      simp only [if_true, Except.pure_ok] at h
      rw [bind_eq_ok] at h
      obtain ⟨top, -, h⟩ := h
      cases h
      exact ⟨rfl, rfl, rfl, rfl⟩
  unfold sweepStepR at h
  by_cases hrev : t.reversing = true
  · simp only [hrev, if_true] at h
    rw [bind_eq_ok] at h
    obtain ⟨period, -, h⟩ := h
    exact tail _ h
  · simp only [Bool.not_eq_true] at hrev
    simp only [hrev, Bool.false_eq_true, if_false] at h
    exact tail false h

theorem sweepsR_near {K : Nat → ℚ} (h : s.Arrays ls) (hK : FlipNear ar s ls K) (hr : rng.Ok) (n : Nat) {t t' : Outer γ}
    (hn : Near s ls K t.x t.energy 0) (ha : t.acceptanceHist = []) (he : t.energyHist = [])
    (hs : (List.range n).foldlM (sweepStepR ar rng exp s o rands) t = .ok t') :
    Near s ls K t'.x t'.energy t'.acceptanceHist.sum ∧ t'.energyHist.length = n ∧ t'.acceptanceHist.length = n ∧
    ∀ k < n, ∃ tk, (List.range k).foldlM (sweepStepR ar rng exp s o rands) t = .ok tk ∧
      t'.energyHist[k]? = some tk.energy ∧ Near s ls K tk.x tk.energy (t'.acceptanceHist.take k).sum := by
  induction n generalizing t' with
  | zero => cases hs; rw [ha, he]; exact ⟨hn, rfl, rfl, by simp⟩
  | succ n ih =>
    rw [foldlM_range_succ, bind_eq_ok] at hs
    obtain ⟨t1, h1, h2⟩ := hs
    obtain ⟨ih1, ih2, ih3, ih4⟩ := ih h1
    obtain ⟨ps, g, r, e1, e2, e3, e4, e5, e6⟩ := sweepStepR_ok h2
    have hperm := pickups_ok hr e1
    have hlt : ∀ i ∈ ps, i < ls.length := by
      intro i hi
      have := hperm.subset hi
      rw [h.size] at this
      exact List.mem_range.mp this
    have hnear := innerR_near (base := t1.acceptanceHist.sum) h hK ps hlt (t := ⟨t1.x, t1.energy, t1.used, 0⟩) ih1 e2
    refine ⟨?_, by rw [e5]; simp [ih2], by rw [e6]; simp [ih3], ?_⟩
    · rw [e3, e4, e6, List.sum_append, List.sum_singleton]
      exact hnear
    · intro k hk
      rcases Nat.lt_succ_iff_lt_or_eq.mp hk with hk | rfl
      · obtain ⟨tk, a1, a2, a3⟩ := ih4 k hk
        refine ⟨tk, a1, ?_, ?_⟩
        · rw [e5, List.getElem?_append_left (by omega), a2]
        · rw [e6, List.take_append_of_le_length (by omega)]
          exact a3
      · refine ⟨t1, h1, ?_, ?_⟩
        · rw [e5, List.getElem?_append_right (by omega), ih2]
          simp
        · rw [e6, ← ih3, List.take_left']
          · exact ih1
          · rfl

/-- A run in floats: its start, its sweeps, its result. -/
theorem annealingR_ok {init : Option Sample} {g g' : γ} {a : Annealed}
    (h : annealingR ar rng exp s o init g = .ok (a, g')) :
    ∃ x gi ts rands t, initialSpins rng s init g = .ok (x, gi) ∧ startStateR ar s o x gi = .ok ts ∧
      (List.range o.numSweeps.toNat).foldlM (sweepStepR ar rng exp s o rands)
        { ts with rng := (rng.random (o.numSweeps.toNat * s.size) ts.rng).2 } = .ok t ∧
      a = ⟨decode s.model t.x, ar.round (t.energy + s.original.offset * 2), t.energyHist, t.temperatureHist,
        t.acceptanceHist⟩ := by
  unfold annealingR at h
  rw [bind_eq_ok] at h
  obtain ⟨⟨x, gi⟩, h1, h⟩ := h
  simp only at h
  rw [bind_eq_ok] at h
  obtain ⟨ts, h3, h⟩ := h
  by_cases hn : o.numSweeps < 0
  · rw [if_pos hn] at h; cases h
  · rw [if_neg hn] at h
    simp only [bind_eq_ok, Except.pure_ok] at h
    obtain ⟨t, h4, h5⟩ := h
    cases h5
    exact ⟨x, gi, ts, _, t, h1, h3, h4, rfl⟩

theorem startStateR_ok {x : List ℤ} {g : γ} {t : Outer γ} (h : startStateR ar s o x g = .ok t) :
    t.x = x ∧ (∃ e, ar.energy s.bqm (decode s.model x) = .ok e ∧ t.energy = - e) ∧ t.energyHist = [] ∧
      t.acceptanceHist = [] := by
  unfold startStateR at h
  rw [bind_eq_ok] at h
  obtain ⟨e, he, h⟩ := h
  cases hrev : o.reverse.isTruthy with
  | false =>
    rw [hrev] at h
    simp only [Bool.false_eq_true, if_false, Except.pure_ok, Except.bind_ok] at h
    cases h
    exact ⟨rfl, ⟨e, he, by simp⟩, rfl, rfl⟩
  | true =>
    rw [hrev] at h
    simp only [if_true, Except.pure_ok] at h
    rw [bind_eq_ok] at h
    obtain ⟨top, -, h⟩ := h
    cases h
    exact ⟨rfl, ⟨e, he, by simp⟩, rfl, rfl⟩

/-- The energies that dimod computes for spins on the labels `ls` are within `e` of the true ones. -/
def Arith.EnergyWithin (ar : Arith) (b : Bqm) (ls : List String) (e : ℚ) : Prop :=
  ∀ x : List ℤ, x.length = ls.length → IsSpins x → ∀ q, ar.energy b (ls.zip x) = .ok q →
    |q - b.energy (spinAssign ls x)| ≤ e

theorem run_near {K : Nat → ℚ} (h : s.Arrays ls) (hK : FlipNear ar s ls K) (hr : rng.Ok)
    (he : ar.EnergyWithin s.bqm ls (K 0)) {init : Option Sample} (hi : InitOk ls init) {g g' : γ} {a : Annealed}
    (hrun : annealingR ar rng exp s o init g = .ok (a, g')) :
    ∃ (x : List ℤ) (e : ℚ), a.sample = ls.zip x ∧ a.energy = ar.round (e + s.original.offset * 2) ∧
      Near s ls K x e a.acceptanceHist.sum ∧
      a.energyHist.length = o.numSweeps.toNat ∧ a.acceptanceHist.length = o.numSweeps.toNat ∧
      ∀ k < o.numSweeps.toNat, ∃ xk ek, a.energyHist[k]? = some ek ∧
        Near s ls K xk ek (a.acceptanceHist.take k).sum := by
  obtain ⟨x, gi, ts, rands, t, h1, h2, h3, rfl⟩ := annealingR_ok hrun
  obtain ⟨x', gi', i1, i2, i3, _⟩ := initialSpins_ok h hr hi g
  rw [h1] at i1
  cases i1
  obtain ⟨s1, ⟨e, s2, s3⟩, s4, s5⟩ := startStateR_ok h2
  rw [decode_eq h.ready i2] at s2
  have h0 : Near s ls K ts.x ts.energy 0 := by
    refine ⟨by rw [s1]; exact i2, by rw [s1]; exact i3, ?_⟩
    rw [s1, s3, neg_sub_neg, abs_sub_comm]
    exact he x i2 i3 e s2
  obtain ⟨r1, r2, r3, r4⟩ := sweepsR_near (t := { ts with rng := (rng.random (o.numSweeps.toNat * s.size) ts.rng).2 })
    h hK hr _ h0 s5 s4 h3
  refine ⟨t.x, t.energy, decode_eq h.ready r1.length, rfl, r1, r2, r3, fun k hk => ?_⟩
  obtain ⟨tk, _, b2, b3⟩ := r4 k hk
  exact ⟨tk.x, tk.energy, b2, b3⟩

/-! ## The two bounds -/

theorem driftBound_succ (u : ℚ) (D : Nat) (A e : ℚ) (k : Nat) :
    driftBound u D A e (k + 1) = (1 + u) * (driftBound u D A e k + 2 * ((1 + u) ^ D - 1) * A) + u * A := by
  have key : ∀ k, ((List.range (k + 1)).map fun i => (1 + u) ^ i).sum = 1 + (1 + u) * ((List.range k).map fun i => (1 + u) ^ i).sum := by
    intro k
    induction k with
    | zero => simp
    | succ k ih =>
      have e1 : ((List.range (k + 1)).map fun i => (1 + u) ^ i).sum = ((List.range k).map fun i => (1 + u) ^ i).sum + (1 + u) ^ k := by
        rw [List.range_succ, List.map_append, List.sum_append]
        simp
      rw [List.range_succ, List.map_append, List.sum_append, ih]
      simp only [List.map_cons, List.map_nil, List.sum_singleton]
      linear_combination (1 + u) * (ih - e1)
  unfold driftBound
  rw [key]
  ring

theorem flipNear_drift (h : s.Arrays ls) (hu : 0 ≤ u) (hr : Relative u ar.round)
    (hD : ∀ v, (s.bqm.neighbours v).length ≤ D) (e0 : ℚ) :
    FlipNear ar s ls (driftBound u D s.bqm.mass e0) := by
  intro x e n i v d hn hi hd
  obtain ⟨d', hd', herr⟩ := calcDiffR_error h hn.length hn.spins hu hr hD hi
  obtain rfl : d' = d := Except.ok.inj (hd'.symm.trans hd)
  rw [driftBound_succ]
  have herr0 := hn.error
  generalize driftBound u D s.bqm.mass e0 n = K at herr0 ⊢
  unfold Problem.delta at herr
  have hlt : i < x.length := by rw [hn.length]; exact (List.getElem?_eq_some_iff.mp hi).1
  have habs : |s.bqm.energy ((spinAssign ls x).subst v (- spinAssign ls x v))| ≤ s.bqm.mass := by
    apply Bqm.energy_abs
    intro l
    unfold Assign.subst
    split
    · rw [abs_neg]; exact spinAssign_abs hn.spins v
    · exact spinAssign_abs hn.spins l
  revert herr herr0 habs
  generalize s.bqm.energy ((spinAssign ls x).subst v (- spinAssign ls x v)) = E'
  generalize s.bqm.energy (spinAssign ls x) = E
  generalize 2 * ((1 + u) ^ D - 1) * s.bqm.mass = R
  generalize s.bqm.mass = A
  intro herr herr0 habs
  have hy : |e + d' - - E'| ≤ K + R := by
    have := abs_add_le (e - -E) (d' - (-E' - -E))
    rw [show e - -E + (d' - (-E' - -E)) = e + d' - -E' by ring] at this
    linarith
  have hyy : |e + d'| ≤ K + R + A := by
    have := abs_add_le (e + d' - - E') (-E')
    rw [sub_add_cancel, abs_neg] at this
    linarith
  have hrd := hr (e + d')
  have h1 := abs_add_le (ar.round (e + d') - (e + d')) (e + d' - - E')
  rw [sub_add_sub_cancel] at h1
  have h2 := mul_le_mul_of_nonneg_left hyy hu
  linarith

theorem flipNear_exact (h : s.Arrays ls) (hr : Keeps w top ar.round) (hm : s.bqm.Multiples w) (ht : s.bqm.mass ≤ top) :
    FlipNear ar s ls (fun _ => 0) := by
  intro x e n i v d hn hi hd
  rw [calcDiffR_keeps h hn.length hn.spins hr hm ht hi] at hd
  cases hd
  have herr0 := hn.error
  simp only [abs_nonpos_iff, sub_eq_zero] at herr0 ⊢
  have hlt : i < x.length := by rw [hn.length]; exact (List.getElem?_eq_some_iff.mp hi).1
  have hxi := List.getElem?_eq_getElem hlt
  have e1 : e + s.delta ls x v = - s.bqm.energy ((spinAssign ls x).subst v (- spinAssign ls x v)) := by
    unfold Problem.delta
    rw [herr0]
    ring
  rw [e1]
  have hsp : IsSpins (x.set i (x[i] * -1)) := by
    intro a ha
    rcases List.mem_or_eq_of_mem_set ha with h' | rfl
    · exact hn.spins a h'
    · rcases hn.spins _ (List.mem_of_getElem? hxi) with e | e <;> rw [e] <;> simp
  rw [← spinAssign_flip h.ready.nodup hn.length hi hxi]
  have habs := s.bqm.energy_abs (σ := spinAssign ls (x.set i (x[i] * -1))) (spinAssign_abs hsp)
  obtain ⟨z, hz⟩ := Bqm.energy_multiple (ls := ls) (x := x.set i (x[i] * -1)) hm
  have hz' : - s.bqm.energy (spinAssign ls (x.set i (x[i] * -1))) = ((-z : ℤ) : ℚ) * w := by rw [hz]; push_cast; ring
  rw [hz']
  apply hr
  rw [← hz', abs_neg]
  exact le_trans habs ht

/-! ## The energy at the start -/

theorem summands_sum (b : Bqm) (σ : Assign) : (b.summands σ).sum = b.energy σ := by
  unfold Bqm.summands Bqm.energy
  rw [List.sum_cons, List.sum_append]
  ring

theorem summands_abs (b : Bqm) {σ : Assign} (hσ : ∀ l, |σ l| ≤ 1) : ((b.summands σ).map abs).sum ≤ b.mass := by
  unfold Bqm.summands Bqm.mass
  rw [List.map_cons, List.sum_cons, List.map_append, List.sum_append, List.map_map, List.map_map, add_assoc]
  refine add_le_add le_rfl (add_le_add ?_ ?_)
  · apply List.sum_le_sum
    intro kv _
    simp only [Function.comp_apply, abs_mul]
    exact mul_le_of_le_one_right (abs_nonneg _) (hσ _)
  · apply List.sum_le_sum
    intro kv _
    simp only [Function.comp_apply, abs_mul]
    exact mul_le_of_le_one_right (abs_nonneg _) (mul_le_one₀ (hσ _) (abs_nonneg _) (hσ _))

theorem summands_length (b : Bqm) (σ : Assign) : (b.summands σ).length = 1 + b.linear.length + b.quad.length := by
  unfold Bqm.summands
  simp only [List.length_cons, List.length_append, List.length_map]
  omega

theorem energyWithin_relative {b : Bqm} (hu : 0 ≤ u) (hr : Relative u ar.round) (hs : SumsUp ar.round ar.energy b ls) :
    ar.EnergyWithin b ls (((1 + u) ^ (1 + b.linear.length + b.quad.length) - 1) * b.mass) := by
  intro x hx hsp q hq
  obtain ⟨l, hl, rfl⟩ := hs x hx hsp q hq
  have := roundedSum_error hu hr l 0 0 0 0 (by simp) (by simp)
  rw [zero_add, zero_add, zero_add, hl.sum_eq, summands_sum, hl.length_eq, summands_length, (hl.map abs).sum_eq] at this
  refine le_trans this ?_
  have h1 : (1 : ℚ) ≤ (1 + u) ^ (1 + b.linear.length + b.quad.length) := one_le_pow₀ (by linarith)
  exact mul_le_mul_of_nonneg_left (summands_abs b (spinAssign_abs hsp)) (by linarith)

theorem energyWithin_exact {b : Bqm} (hr : Keeps w top ar.round) (hm : b.Multiples w) (ht : b.mass ≤ top)
    (hs : SumsUp ar.round ar.energy b ls) : ar.EnergyWithin b ls 0 := by
  intro x hx hsp q hq
  obtain ⟨l, hl, rfl⟩ := hs x hx hsp q hq
  rw [roundedSum_keeps hr l 0 ⟨0, by simp⟩]
  · rw [zero_add, hl.sum_eq, summands_sum]; simp
  · intro t hmem
    have := hl.subset hmem
    unfold Bqm.summands at this
    obtain ⟨h1, h2, h3⟩ := hm
    rcases List.mem_cons.mp this with rfl | h
    · exact h1
    · rcases List.mem_append.mp h with h | h
      · obtain ⟨kv, hkv, rfl⟩ := List.mem_map.mp h
        obtain ⟨z, hz⟩ := h2 kv hkv
        exact ⟨z * (x[ls.idxOf kv.1]?).getD 0, by rw [hz]; unfold spinAssign; push_cast; ring⟩
      · obtain ⟨kv, hkv, rfl⟩ := List.mem_map.mp h
        obtain ⟨z, hz⟩ := h3 kv hkv
        exact ⟨z * ((x[ls.idxOf kv.1.1]?).getD 0 * (x[ls.idxOf kv.1.2]?).getD 0), by
          rw [hz]; unfold spinAssign; push_cast; ring⟩
  · rw [abs_zero, zero_add, (hl.map abs).sum_eq]
    exact le_trans (summands_abs b (spinAssign_abs hsp)) ht

/-! ## The conversion to spins -/

theorem Bqm.abs_neighbours {b : Bqm} (hb : b.Wf) :
    (b.variables.map fun v => ((b.neighbours v).map fun e => |e.2|).sum).sum = 2 * (b.quad.map fun kv => |kv.2|).sum := by
  have := sum_neighbours { b with quad := b.quad.map fun kv => (kv.1, |kv.2|) }
    (by simpa [dkeys, Function.comp_def] using hb.ordered) (vs := b.variables) b.variables_nodup
    (by
      intro k hk
      have hk' : k ∈ dkeys b.quad := by simpa [dkeys, Function.comp_def] using hk
      rw [b.mem_variables, b.mem_variables]
      exact ⟨.inr ⟨k, hk', .inl rfl⟩, .inr ⟨k, hk', .inr rfl⟩⟩) (fun _ => 1) (fun _ => 1)
  have e : ∀ v, (Bqm.neighbours { b with quad := b.quad.map fun kv => (kv.1, |kv.2|) } v) =
      (b.neighbours v).map fun e => (e.1, |e.2|) := by
    intro v
    unfold Bqm.neighbours
    simp only [List.filterMap_map, List.map_filterMap]
    apply List.filterMap_congr
    intro kv _
    simp only [Function.comp_apply]
    split
    · rfl
    · split <;> rfl
  simp only [e, List.map_map, Function.comp_def, mul_one] at this
  rw [this]
  generalize b.quad = l
  induction l with
  | nil => simp
  | cons kv l ih => simp only [List.map_cons, List.sum_cons, ih]; ring

theorem Bqm.abs_bias {b : Bqm} (hb : b.Wf) :
    (b.variables.map fun v => |b.bias v|).sum = (b.linear.map fun kv => |kv.2|).sum := by
  have hk : dkeys (b.linear.map fun kv => (kv.1, |kv.2|)) = dkeys b.linear := by simp [dkeys, Function.comp_def]
  have := sum_bias (lin := b.linear.map fun kv => (kv.1, |kv.2|)) (by rw [hk]; exact hb.linear) b.variables_nodup
    (by rw [hk]; exact b.vars_linear) fun _ => 1
  simp only [mul_one, List.map_map, Function.comp_def] at this
  rw [← this]
  congr 1
  apply List.map_congr_left
  intro v _
  unfold Bqm.bias
  generalize b.linear = l
  induction l with
  | nil => simp [dget]
  | cons kv l ih =>
    obtain ⟨k, c⟩ := kv
    simp only [dget, List.map_cons]
    split
    · rfl
    · exact ih

theorem Bqm.toSpin_mass {b : Bqm} (hb : b.Wf) : b.toSpin.mass ≤ b.mass := by
  have hq := Bqm.abs_neighbours hb
  have hl := Bqm.abs_bias hb
  have half : ∀ v, |b.bias v / 2 + ((b.neighbours v).map (·.2)).sum / 4| ≤
      |b.bias v| / 2 + ((b.neighbours v).map fun e => |e.2|).sum / 4 := by
    intro v
    have h1 := abs_add_le (b.bias v / 2) (((b.neighbours v).map (·.2)).sum / 4)
    have h2 := abs_sum_le (b.neighbours v) (·.2) (fun e => |e.2|) fun _ _ => le_rfl
    rw [abs_div, abs_div, abs_of_pos (show (0 : ℚ) < 2 by norm_num), abs_of_pos (show (0 : ℚ) < 4 by norm_num)] at h1
    linarith
  have e1 : (b.toSpin.linear.map fun kv => |kv.2|).sum ≤ (b.linear.map fun kv => |kv.2|).sum / 2 +
      (b.quad.map fun kv => |kv.2|).sum / 2 := by
    simp only [Bqm.toSpin, List.map_map, Function.comp_def]
    refine le_trans (List.sum_le_sum fun v _ => half v) (le_of_eq ?_)
    rw [← hl, show (b.quad.map fun kv => |kv.2|).sum / 2 = 2 * (b.quad.map fun kv => |kv.2|).sum / 4 by ring, ← hq]
    generalize b.variables = vs
    induction vs with
    | nil => simp
    | cons v vs ih => simp only [List.map_cons, List.sum_cons, ih]; ring
  have e2 : (b.toSpin.quad.map fun kv => |kv.2|).sum = (b.quad.map fun kv => |kv.2|).sum / 4 := by
    simp only [Bqm.toSpin, List.map_map, Function.comp_def]
    generalize b.quad = l
    induction l with
    | nil => simp
    | cons kv l ih =>
      rw [List.map_cons, List.sum_cons, ih, List.map_cons, List.sum_cons, abs_div,
        abs_of_pos (show (0 : ℚ) < 4 by norm_num)]
      ring
  have e3 : |b.toSpin.offset| ≤ |b.offset| + (b.linear.map fun kv => |kv.2|).sum / 2 + (b.quad.map fun kv => |kv.2|).sum / 4 := by
    simp only [Bqm.toSpin]
    have h1 := abs_add_le (b.offset + (b.variables.map b.bias).sum / 2) ((b.quad.map (·.2)).sum / 4)
    have h2 := abs_add_le b.offset ((b.variables.map b.bias).sum / 2)
    have h3 := abs_sum_le b.variables b.bias (fun v => |b.bias v|) fun _ _ => le_rfl
    have h4 := abs_sum_le b.quad (·.2) (fun e => |e.2|) fun _ _ => le_rfl
    rw [abs_div _ (4 : ℚ), abs_of_pos (show (0 : ℚ) < 4 by norm_num)] at h1
    rw [abs_div _ (2 : ℚ), abs_of_pos (show (0 : ℚ) < 2 by norm_num)] at h2
    rw [hl] at h3
    linarith
  unfold Bqm.mass
  linarith

theorem Bqm.toSpin_multiples {b : Bqm} (h : b.Multiples w) : b.toSpin.Multiples (w / 4) := by
  have hn : ∀ v, ∃ z : ℤ, ((b.neighbours v).map (·.2)).sum = z * w := fun v =>
    multiples_sum _ _ (Bqm.local_multiples h v).2
  have hv : ∃ z : ℤ, (b.variables.map b.bias).sum = z * w := multiples_sum _ _ fun v _ => (Bqm.local_multiples h v).1
  have hq : ∃ z : ℤ, (b.quad.map (·.2)).sum = z * w := multiples_sum _ _ h.2.2
  refine ⟨?_, ?_, ?_⟩
  · obtain ⟨z1, h1⟩ := h.1
    obtain ⟨z2, h2⟩ := hv
    obtain ⟨z3, h3⟩ := hq
    exact ⟨4 * z1 + 2 * z2 + z3, by simp only [Bqm.toSpin, h1, h2, h3]; push_cast; ring⟩
  · intro kv hkv
    simp only [Bqm.toSpin, List.mem_map] at hkv
    obtain ⟨v, _, rfl⟩ := hkv
    obtain ⟨z1, h1⟩ := (Bqm.local_multiples h v).1
    obtain ⟨z2, h2⟩ := hn v
    exact ⟨2 * z1 + z2, by simp only [h1, h2]; push_cast; ring⟩
  · intro kv hkv
    simp only [Bqm.toSpin, List.mem_map] at hkv
    obtain ⟨e, he, rfl⟩ := hkv
    obtain ⟨z, hz⟩ := h.2.2 e he
    exact ⟨z, by simp only [hz]; ring⟩

theorem Bqm.Multiples.quarter {b : Bqm} (h : b.Multiples w) : b.Multiples (w / 4) := by
  obtain ⟨⟨z, hz⟩, h2, h3⟩ := h
  have key : ∀ q : ℚ, (∃ z : ℤ, q = z * w) → ∃ z : ℤ, q = z * (w / 4) := by
    rintro q ⟨z, rfl⟩
    exact ⟨4 * z, by push_cast; ring⟩
  exact ⟨key _ ⟨z, hz⟩, fun kv hkv => key _ (h2 kv hkv), fun kv hkv => key _ (h3 kv hkv)⟩

/-! ## Rounding to the nearest -/

theorem nearest_relative (p : Nat) : Relative (1 / 2 ^ p) (nearest p) := by
  intro q
  by_cases hq : q = 0
  · simp [nearest, hq]
  · unfold nearest
    rw [if_neg hq]
    simp only
    have hpos : (0 : ℚ) < |q| := abs_pos.mpr hq
    have hlog := Int.zpow_log_le_self (b := 2) one_lt_two hpos
    have hulp : (0 : ℚ) < 2 ^ (Int.log 2 |q| - (p : ℤ) + 1) := zpow_pos (by norm_num) _
    have e : (2 : ℚ) ^ (Int.log 2 |q| - (p : ℤ) + 1) = 2 * (1 / 2 ^ p * 2 ^ Int.log 2 |q|) := by
      rw [zpow_add₀ (by norm_num), zpow_sub₀ (by norm_num), zpow_one, zpow_natCast]
      ring
    have hb : 2 ^ (Int.log 2 |q| - (p : ℤ) + 1) ≤ 2 * (1 / 2 ^ p * |q|) := by
      rw [e]
      have : (0 : ℚ) < 1 / 2 ^ p := by positivity
      exact mul_le_mul_of_nonneg_left (mul_le_mul_of_nonneg_left (by exact_mod_cast hlog) this.le) (by norm_num)
    generalize (2 : ℚ) ^ (Int.log 2 |q| - (p : ℤ) + 1) = r at hulp hb ⊢
    have h1 := Int.floor_le (q / r + 1 / 2)
    have h2 := Int.lt_floor_add_one (q / r + 1 / 2)
    have hq' : q = q / r * r := by field_simp
    generalize q / r = y at *
    generalize (⌊y + 1 / 2⌋ : ℚ) = f at *
    have h3 : |f * r - q| = |f - y| * r := by rw [hq', ← sub_mul, abs_mul, abs_of_pos hulp]
    have h4 : |f - y| ≤ 1 / 2 := by rw [abs_le]; constructor <;> linarith
    rw [h3]
    have h5 := mul_le_mul_of_nonneg_right h4 hulp.le
    linarith

theorem nearest_keeps {p : Nat} (hp : 1 ≤ p) (k : ℤ) : Keeps (2 ^ k) (2 ^ p * 2 ^ k) (nearest p) := by
  intro z hz
  by_cases h0 : (z : ℚ) * 2 ^ k = 0
  · simp [nearest, h0]
  · unfold nearest
    rw [if_neg h0]
    simp only
    have hk : (0 : ℚ) < 2 ^ k := zpow_pos (by norm_num) _
    have hpos : (0 : ℚ) < |(z : ℚ) * 2 ^ k| := abs_pos.mpr h0
    have hle := Int.zpow_log_le_self (b := 2) one_lt_two hpos
    have hint : ∃ n : ℤ, (z : ℚ) * 2 ^ k / 2 ^ (Int.log 2 |(z : ℚ) * 2 ^ k| - (p : ℤ) + 1) = n := by
      have hL : Int.log 2 |(z : ℚ) * 2 ^ k| ≤ p + k := by
        have h1 : (2 : ℚ) ^ Int.log 2 |(z : ℚ) * 2 ^ k| ≤ 2 ^ ((p : ℤ) + k) := by
          rw [zpow_add₀ (by norm_num), zpow_natCast]
          exact le_trans (by exact_mod_cast hle) hz
        exact (zpow_le_zpow_iff_right₀ (by norm_num)).mp h1
      rcases Int.lt_or_eq_of_le hL with hL | hL
      · generalize Int.log 2 |(z : ℚ) * 2 ^ k| = L at hL ⊢
        refine ⟨z * 2 ^ (k - (L - p + 1)).toNat, ?_⟩
        push_cast
        rw [mul_div_assoc, ← zpow_sub₀ (by norm_num), ← zpow_natCast, Int.toNat_of_nonneg (by omega)]
      · have hz' : |(z : ℚ)| = 2 ^ p := by
          rw [hL] at hle
          apply le_antisymm
          · rw [abs_mul, abs_of_pos hk] at hz
            exact le_of_mul_le_mul_right hz hk
          · have h2 : (2 : ℚ) ^ p * 2 ^ k ≤ |(z : ℚ) * 2 ^ k| := by
              rw [zpow_add₀ (by norm_num), zpow_natCast] at hle
              exact_mod_cast hle
            rw [abs_mul, abs_of_pos hk] at h2
            exact le_of_mul_le_mul_right h2 hk
        rw [hL]
        have e : (z : ℚ) * 2 ^ k / 2 ^ ((p : ℤ) + k - p + 1) = z / 2 := by
          rw [show (p : ℤ) + k - p + 1 = k + 1 by ring, zpow_add₀ (by norm_num), zpow_one]
          field_simp
        rw [e]
        obtain ⟨m, rfl⟩ : ∃ m, p = m + 1 := ⟨p - 1, by omega⟩
        rcases abs_eq (by positivity : (0 : ℚ) ≤ 2 ^ (m + 1)) |>.mp hz' with h | h
        · exact ⟨2 ^ m, by rw [h]; push_cast; ring⟩
        · exact ⟨-2 ^ m, by rw [h]; push_cast; ring⟩
    obtain ⟨n, hn⟩ := hint
    have hulp : (2 : ℚ) ^ (Int.log 2 |(z : ℚ) * 2 ^ k| - (p : ℤ) + 1) ≠ 0 := (zpow_pos (by norm_num) _).ne'
    rw [hn]
    have hfl : ⌊(n : ℚ) + 1 / 2⌋ = n := by
      rw [Int.floor_intCast_add]
      norm_num
    rw [hfl, ← hn, div_mul_cancel₀ _ hulp]

end Sawatabi
