import Verif.Lemmas.Samples
import Verif.Props.IsingSolve
import Verif.Props.PhysicalSuccess
import Verif.Props.Examples

/-!
# C92, C93, C94: the sample models have the optima they claim
-/

namespace Sawatabi.Samples

open Props

variable {env : Env} {p : Physical} {mt : MType} {vt : VType}

/-! ## Counting -/

/-- The value that is not 1. -/
def low : VType → ℤ
  | .spin => -1
  | .binary => 0

theorem domain_low (vt : VType) : vt.Domain (low vt) := by
  cases vt
  · exact .inr rfl
  · exact .inl rfl

theorem domain_one (vt : VType) : vt.Domain 1 := by
  cases vt
  · exact .inl rfl
  · exact .inr rfl

theorem low_ne (vt : VType) : low vt ≠ 1 := by cases vt <;> decide

theorem row_nodup (name : String) (s : Nat) : (row name s).Nodup :=
  List.Nodup.map_on (fun i _ j _ h => by simpa using label_inj h) List.nodup_range

theorem row_length (name : String) (s : Nat) : (row name s).length = s := by simp [row]

theorem hot_le (labels : List String) (f : String → ℤ) : hot labels f ≤ labels.length := List.length_filter_le _ _

theorem hot_congr {labels : List String} {f g : String → ℤ} (h : ∀ v ∈ labels, f v = g v) : hot labels f = hot labels g := by
  unfold hot
  rw [List.filter_congr fun v hv => by rw [h v hv]]

/-- Ones on the first `k` labels. -/
theorem hot_take {labels : List String} (hn : labels.Nodup) {k : Nat} (hk : k ≤ labels.length) (vt : VType) :
    hot labels (fun v => if v ∈ labels.take k then 1 else low vt) = k := by
  unfold hot
  have : ∀ v, decide ((if v ∈ labels.take k then (1 : ℤ) else low vt) = 1) = decide (v ∈ labels.take k) := by
    intro v
    by_cases hv : v ∈ labels.take k <;> simp [hv, low_ne]
  simp only [this]
  rw [← List.take_append_drop k labels, List.filter_append]
  have hd := List.disjoint_take_drop hn (le_refl k)
  have htake : (labels.take k ++ labels.drop k).take k = labels.take k := by rw [List.take_append_drop]
  rw [htake, List.filter_eq_self.mpr (fun v hv => by simpa using hv), List.filter_eq_nil_iff.mpr (fun v hv => by
    simpa using fun hc => hd hc hv)]
  simp [hk]

theorem hot_flip {labels : List String} (hn : labels.Nodup) {v : String} (hv : v ∈ labels) {f : String → ℤ} (h1 : f v ≠ 1) :
    hot labels (fun w => if w = v then 1 else f w) = hot labels f + 1 := by
  induction labels with
  | nil => cases hv
  | cons x l ih =>
    obtain ⟨hx, hl⟩ := List.nodup_cons.mp hn
    unfold hot at ih ⊢
    rcases List.mem_cons.mp hv with rfl | hv
    · rw [List.filter_cons_of_pos (by simp), List.filter_cons_of_neg (by simpa using h1), List.length_cons]
      rw [List.filter_congr (q := fun w => decide (f w = 1)) fun w hw => by
        have : w ≠ v := fun hc => hx (hc ▸ hw)
        simp only [this, if_false]]
    · have hxv : x ≠ v := fun hc => hx (hc ▸ hv)
      have := ih hl hv
      by_cases hfx : f x = 1
      · rw [List.filter_cons_of_pos (by simp [hxv, hfx]), List.filter_cons_of_pos (by simp [hfx]), List.length_cons,
          List.length_cons, this]
      · rw [List.filter_cons_of_neg (by simp [hxv, hfx]), List.filter_cons_of_neg (by simp [hfx]), this]

theorem sum_binary (labels : List String) {f : String → ℤ} (hf : ∀ v, VType.binary.Domain (f v)) :
    (labels.map fun v => (f v : ℚ)).sum = hot labels f := by
  unfold hot
  induction labels with
  | nil => simp
  | cons x l ih =>
    rw [List.map_cons, List.sum_cons, ih]
    rcases hf x with h | h
    · rw [List.filter_cons_of_neg (by simp [h]), h]; simp
    · rw [List.filter_cons_of_pos (by simp [h]), h, List.length_cons]; push_cast; ring

theorem sum_spin (labels : List String) {f : String → ℤ} (hf : ∀ v, VType.spin.Domain (f v)) :
    (labels.map fun v => (f v : ℚ)).sum = 2 * hot labels f - labels.length := by
  unfold hot
  induction labels with
  | nil => simp
  | cons x l ih =>
    rw [List.map_cons, List.sum_cons, ih]
    rcases hf x with h | h
    · rw [List.filter_cons_of_pos (by simp [h]), h, List.length_cons, List.length_cons]; push_cast; ring
    · rw [List.filter_cons_of_neg (by simp [h]), h, List.length_cons]; push_cast; ring

/-- The distance of a count `k ≤ s` to `n` is least at `min n s`. -/
theorem count_bound {k n s : Nat} (hk : k ≤ s) :
    ((min n s : Nat) - (n : ℚ)) ^ 2 ≤ ((k : ℚ) - n) ^ 2 ∧ (((k : ℚ) - n) ^ 2 = ((min n s : Nat) - (n : ℚ)) ^ 2 ↔ k = min n s) := by
  rcases le_total n s with h | h
  · rw [min_eq_left h]
    refine ⟨by rw [sub_self]; positivity, ?_⟩
    rw [sub_self, zero_pow two_ne_zero, pow_eq_zero_iff two_ne_zero, sub_eq_zero]
    exact Nat.cast_inj
  · rw [min_eq_right h]
    have h1 : (k : ℚ) ≤ s := by exact_mod_cast hk
    have h2 : (s : ℚ) ≤ n := by exact_mod_cast h
    refine ⟨by nlinarith, ?_, fun h => by rw [h]⟩
    intro he
    rcases lt_or_eq_of_le hk with hlt | heq
    · have h3 : (k : ℚ) + 1 ≤ s := by exact_mod_cast hlt
      nlinarith
    · exact heq

theorem counting {labels : List String} (hnd : labels.Nodup) (hne : labels ≠ []) (hp : p.FromCalls) (hvt : p.mtype.vtype = vt)
    {n : Nat} {A B : ℚ} (hA : 0 < A)
    (he : ∀ f : String → ℤ, (∀ v, vt.Domain (f v)) → p.energy (fun v => (f v : ℚ)) = A * ((hot labels f : ℚ) - n) ^ 2 + B) :
    Problem labels vt (A * (((min n labels.length : Nat) : ℚ) - n) ^ 2 + B) (fun f => hot labels f = min n labels.length) p where
  vtype := hvt
  fromCalls := hp
  nonempty := hne
  same := fun f g hf hg h => by rw [he f hf, he g hg, hot_congr h]
  needed := by
    intro v hv
    have hd : ∀ w, vt.Domain (if w = v then 1 else low vt) := by
      intro w
      by_cases hw : w = v
      · simpa [hw] using domain_one vt
      · simpa [hw] using domain_low vt
    refine ⟨fun _ => low vt, fun w => if w = v then 1 else low vt, fun _ => domain_low vt, hd, fun w hw => by simp [hw], ?_⟩
    rw [he _ (fun _ => domain_low vt), he _ hd, hot_flip hnd hv (low_ne vt)]
    intro hc
    have h1 : A * (2 * ((hot labels fun _ => low vt : ℕ) : ℚ) + 1 - 2 * n) = 0 := by push_cast at hc; linear_combination -hc
    have h2 := (mul_eq_zero.mp h1).resolve_left hA.ne'
    have h3 : 2 * (hot labels fun _ => low vt) + 1 = 2 * n := by
      have : (2 * ((hot labels fun _ => low vt : ℕ) : ℚ) + 1) = 2 * n := by linear_combination h2
      exact_mod_cast this
    omega
  bound := by
    intro f hf
    rw [he f hf]
    have := (count_bound (n := n) (hot_le labels f)).1
    nlinarith
  optimal := by
    intro f hf
    rw [he f hf, ← (count_bound (n := n) (hot_le labels f)).2, add_left_inj, mul_right_inj' hA.ne']
  exists_good := by
    refine ⟨_, fun v => ?_, hot_take hnd (min_le_right n _) vt⟩
    split
    · exact domain_one vt
    · exact domain_low vt
  local_ := fun f g h => by rw [hot_congr h]

/-! ## C92: n-hot from scratch -/

theorem mem_pairs {l : List Nat} {i j : Nat} (h : (i, j) ∈ pairs l) : i ∈ l ∧ j ∈ l := by
  induction l with
  | nil => cases h
  | cons a l ih =>
    simp only [pairs, List.mem_append, List.mem_map, Prod.mk.injEq] at h
    rcases h with ⟨b, hb, rfl, rfl⟩ | h
    · exact ⟨by simp, by simp [hb]⟩
    · exact ⟨by simp [(ih h).1], by simp [(ih h).2]⟩

theorem pairs_lt {l : List Nat} (hl : l.Pairwise (· < ·)) {i j : Nat} (h : (i, j) ∈ pairs l) : i < j := by
  induction l with
  | nil => cases h
  | cons a l ih =>
    obtain ⟨h1, h2⟩ := List.pairwise_cons.mp hl
    simp only [pairs, List.mem_append, List.mem_map, Prod.mk.injEq] at h
    rcases h with ⟨b, hb, rfl, rfl⟩ | h
    · exact h1 _ hb
    · exact ih h2 h

theorem pairs_nodup {l : List Nat} (hl : l.Nodup) : (pairs l).Nodup := by
  induction l with
  | nil => exact List.nodup_nil
  | cons a l ih =>
    obtain ⟨h1, h2⟩ := List.nodup_cons.mp hl
    simp only [pairs]
    rw [List.nodup_append]
    refine ⟨h2.map fun x y h => by simpa using h, ih h2, ?_⟩
    rintro ⟨x, y⟩ hx ⟨x', y'⟩ hy hc
    obtain ⟨b, _, hb⟩ := List.mem_map.mp hx
    rw [← hc] at hy
    have := (mem_pairs hy).1
    simp only [Prod.mk.injEq] at hb
    exact h1 (hb.1 ▸ this)

theorem pairs_sum (X : Nat → ℚ) (l : List Nat) :
    2 * ((pairs l).map fun ij => X ij.1 * X ij.2).sum = (l.map X).sum ^ 2 - (l.map fun i => X i ^ 2).sum := by
  induction l with
  | nil => simp [pairs]
  | cons a l ih =>
    have h : ((l.map fun j => (a, j)).map fun ij => X ij.1 * X ij.2).sum = X a * (l.map X).sum := by
      rw [List.map_map]
      clear ih
      induction l with
      | nil => simp
      | cons b l ih => simp only [List.map_cons, List.sum_cons, ih, Function.comp]; ring
    simp only [pairs, List.map_append, List.sum_append, List.map_cons, List.sum_cons, h]
    linear_combination ih

theorem star_label (name : String) (h : '*' ∉ name.toList) (i : Nat) : '*' ∉ (arrayLabel name [i]).toList := by
  have : '*' ∉ (Nat.repr i).toList := by
    intro h
    have := Nat.isDigit_of_mem_toDigits (b := 10) (by decide) (by decide) (c := '*') (n := i) (by simpa [Nat.repr] using h)
    revert this; decide
  simpa [arrayLabel_eq, idxSuffix, Nat.repr, h] using this

theorem tname_two_inj {name : String} (hstar : '*' ∉ name.toList) {i j i' j' : Nat} (hij : i < j) (hij' : i' < j')
    (h : tname name (.two [i] [j]) = tname name (.two [i'] [j'])) : i = i' ∧ j = j' := by
  have hs := star_label name hstar
  simp only [tname] at h
  split at h <;> split at h <;>
  · obtain ⟨h1, h2⟩ := NppStream.star_split (hs _) (hs _) h
    have := label_inj h1
    have := label_inj h2
    simp only [List.cons.injEq, and_true] at *
    omega

theorem tname_two_star {name : String} {i j : Nat} : '*' ∈ (tname name (.two [i] [j])).toList := by
  simp only [tname]
  split <;> simp

theorem pairwise_range (s : Nat) : (List.range s).Pairwise (· < ·) := List.pairwise_lt_range

theorem scratch_names (mt : MType) (s n : Nat) : ((scratchCalls mt s n).map fun c => tname "x" c.1).Nodup := by
  unfold scratchCalls
  rw [List.map_append, List.nodup_append]
  refine ⟨?_, ?_, ?_⟩
  · rw [List.map_map]
    refine List.Nodup.map_on ?_ (pairs_nodup List.nodup_range)
    rintro ⟨i, j⟩ h ⟨i', j'⟩ h' he
    obtain ⟨rfl, rfl⟩ := tname_two_inj (by decide) (pairs_lt (pairwise_range s) h) (pairs_lt (pairwise_range s) h') he
    rfl
  · rw [List.map_map]
    exact row_nodup "x" s
  · intro a ha b hb hab
    rw [List.map_map] at ha hb
    obtain ⟨ij, _, rfl⟩ := List.mem_map.mp ha
    obtain ⟨i, _, rfl⟩ := List.mem_map.mp hb
    have h1 : '*' ∈ (tname "x" (.two [ij.1] [ij.2])).toList := tname_two_star
    have h2 := star_label "x" (by decide) i
    exact h2 ((congrArg String.toList hab) ▸ h1)

theorem scratch_ok (mt : MType) (s n : Nat) : ∀ c ∈ scratchCalls mt s n, c.1.Ok [s] := by
  intro c hc
  unfold scratchCalls at hc
  rcases List.mem_append.mp hc with hc | hc
  · obtain ⟨⟨i, j⟩, hij, rfl⟩ := List.mem_map.mp hc
    obtain ⟨hi, hj⟩ := mem_pairs hij
    have hlt := pairs_lt (pairwise_range s) hij
    refine ⟨.cons (List.mem_range.mp hi) .nil, .cons (List.mem_range.mp hj) .nil, ?_⟩
    simp only [ne_eq, List.cons.injEq, and_true]
    omega
  · obtain ⟨i, hi, rfl⟩ := List.mem_map.mp hc
    exact .cons (List.mem_range.mp hi) .nil

/-- The factor of the square of the difference to `n`. -/
def scratchA : MType → ℚ
  | .qubo => 1
  | .ising => 4

/-- The constant. -/
def scratchB (mt : MType) (s n : Nat) : ℚ :=
  match mt with
  | .qubo => -n ^ 2
  | .ising => -(s - 2 * n) ^ 2 - s

theorem scratch_energy (mt : MType) (s n : Nat) {f : String → ℤ} (hf : ∀ v, mt.vtype.Domain (f v)) :
    (0 : ℚ) - ((scratchCalls mt s n).map fun c => c.2 * tvalue "x" (fun v => (f v : ℚ)) c.1).sum =
      scratchA mt * ((hot (row "x" s) f : ℚ) - n) ^ 2 + scratchB mt s n := by
  have h1 := pairs_sum (fun i => (f (arrayLabel "x" [i]) : ℚ)) (List.range s)
  have h2 : ((scratchCalls mt s n).map fun c => c.2 * tvalue "x" (fun v => (f v : ℚ)) c.1).sum =
      -2 * ((pairs (List.range s)).map fun ij => (f (arrayLabel "x" [ij.1]) : ℚ) * (f (arrayLabel "x" [ij.2]) : ℚ)).sum +
      -scratchCoeff mt s n * ((List.range s).map fun i => (f (arrayLabel "x" [i]) : ℚ)).sum := by
    unfold scratchCalls
    rw [List.map_append, List.sum_append, List.map_map, List.map_map, ← List.sum_map_mul_left, ← List.sum_map_mul_left]
    rfl
  have h3 : ((List.range s).map fun i => (f (arrayLabel "x" [i]) : ℚ)) = (row "x" s).map fun v => (f v : ℚ) := by
    unfold row
    rw [List.map_map]
    rfl
  rw [h2]
  rw [h3] at h1 ⊢
  cases mt with
  | qubo =>
    have h4 : ((List.range s).map fun i => (f (arrayLabel "x" [i]) : ℚ) ^ 2) = (row "x" s).map fun v => (f v : ℚ) := by
      rw [← h3]
      apply List.map_congr_left
      intro i _
      rcases hf (arrayLabel "x" [i]) with h | h <;> rw [h] <;> norm_num
    rw [h4, sum_binary _ hf] at h1
    rw [sum_binary _ hf]
    simp only [scratchCoeff, scratchA, scratchB]
    linear_combination h1
  | ising =>
    have h4 : ((List.range s).map fun i => (f (arrayLabel "x" [i]) : ℚ) ^ 2) = (List.range s).map fun _ => (1 : ℚ) := by
      apply List.map_congr_left
      intro i _
      rcases hf (arrayLabel "x" [i]) with h | h <;> rw [h] <;> norm_num
    rw [h4, sum_spin _ hf, row_length] at h1
    rw [sum_spin _ hf, row_length]
    simp only [List.map_const', List.sum_replicate, List.length_range, nsmul_eq_mul, mul_one] at h1
    simp only [scratchCoeff, scratchA, scratchB]
    linear_combination h1

theorem scratch_problem (env : Env) (clk : Nat → ℚ) (clks : Nat → Nat → ℚ) (ids : Nat → String) (id : String) (mt : MType) {s : Nat}
    (hs : 0 < s) (n : Nat) : ∃ p m', (nHotFromScratch env clk clks ids mt s n).run (LModel.new mt id) = .ok p m' ∧
      Problem (row "x" s) mt.vtype (scratchA mt * (((min n s : Nat) : ℚ) - n) ^ 2 + scratchB mt s n)
        (fun f => hot (row "x" s) f = min n s) p := by
  obtain ⟨m1, r1, o1, h1⟩ := (Plain.new env mt id).create (name := "x") (sh := [(s : Int)]) (by simp) (by simpa using hs) (by decide)
  obtain ⟨m2, r2, _, h2⟩ := h1.addEach clk (name := "x") (sh := [s]) (vt := mt.vtype) (scratch_ok mt s n) (scratch_names mt s n)
  obtain ⟨p, m3, r3, g1, g2, g3⟩ := h2.physical clks ids
  refine ⟨p, m3, ?_, ?_⟩
  · unfold nHotFromScratch
    simp only [Py.run_bind, r1]
    simp only [List.map_cons, List.map_nil, Int.toNat_natCast, r2, r3]
  · have := counting (row_nodup "x" s) (by intro hc; have := congrArg List.length hc; rw [row_length] at this; simp at this; omega)
      g2 (by rw [g1]) (n := n) (A := scratchA mt) (B := scratchB mt s n) (by cases mt <;> norm_num [scratchA])
      (fun f hf => by rw [g3]; exact scratch_energy mt s n hf)
    rwa [row_length] at this

/-- **C92**: for every number of variables and every `n`, the function builds a model, and the exact local solver finds as
optima exactly the assignments in which `n` of the variables are 1 (all of them, if there are fewer than `n`). -/
theorem C92_finds (env : Env) (clk : Nat → ℚ) (clks : Nat → Nat → ℚ) (ids : Nat → String) (id : String) (mt : MType) {s : Nat}
    (hs : 0 < s) (n : Nat) (log : List Bqm) : ∃ p m' res log',
      (nHotFromScratch env clk clks ids mt s n).run (LModel.new mt id) = .ok p m' ∧ (localSolve none p).run log = .ok res log' ∧
      Finds (row "x" s) mt.vtype (scratchA mt * (((min n s : Nat) : ℚ) - n) ^ 2 + scratchB mt s n)
        (fun f => hot (row "x" s) f = min n s) res := by
  obtain ⟨p, m', h, hp⟩ := scratch_problem env clk clks ids id mt hs n
  obtain ⟨res, log', hr, hf⟩ := hp.finds log
  exact ⟨p, m', res, log', h, hr, hf⟩

/-- What `Finds` says about the samples of least energy. -/
theorem Finds.least {labels : List String} {E : ℚ} {good : (String → ℤ) → Prop} {res : List (Sample × ℚ)}
    (h : Finds labels vt E good res) {r : Sample × ℚ} (hr : r ∈ res) : (∀ r' ∈ res, r.2 ≤ r'.2) ↔ good (value r.1) := by
  rw [← h.optimal r hr]
  constructor
  · intro hmin
    obtain ⟨b, hb, he⟩ := h.reached
    exact le_antisymm (he ▸ hmin b hb) (h.bound r hr)
  · intro he r' hr'
    rw [he]
    exact h.bound r' hr'

/-- In particular, if `n` is at most the number of variables, the samples of least energy are the `n`-hot ones. -/
theorem C92_n_hot (env : Env) (clk : Nat → ℚ) (clks : Nat → Nat → ℚ) (ids : Nat → String) (id : String) (mt : MType) {s n : Nat}
    (hs : 0 < s) (hn : n ≤ s) (log : List Bqm) : ∃ p m' res log',
      (nHotFromScratch env clk clks ids mt s n).run (LModel.new mt id) = .ok p m' ∧ (localSolve none p).run log = .ok res log' ∧
      ∀ r ∈ res, (∀ r' ∈ res, r.2 ≤ r'.2) ↔ ((List.range s).filter fun i => dget r.1 (arrayLabel "x" [i]) = some 1).length = n := by
  obtain ⟨p, m', res, log', h1, h2, h3⟩ := C92_finds env clk clks ids id mt hs n log
  refine ⟨p, m', res, log', h1, h2, fun r hr => ?_⟩
  rw [h3.least hr, min_eq_left hn]
  have : hot (row "x" s) (value r.1) = ((List.range s).filter fun i => dget r.1 (arrayLabel "x" [i]) = some 1).length := by
    unfold hot row
    rw [List.filter_map, List.length_map]
    congr 1
    apply List.filter_congr
    intro i _
    refine decide_eq_decide.mpr ?_
    unfold value
    cases dget r.1 (arrayLabel "x" [i]) with
    | none => simp
    | some a => simp
  rw [this]

/-- The calls for the numbers of the source are those of its ten functions. -/
example : scratchCalls .qubo 2 1 = [(.two [0] [1], -2), (.one [0], 1), (.one [1], 1)] ∧
    scratchCalls .qubo 3 1 = [(.two [0] [1], -2), (.two [0] [2], -2), (.two [1] [2], -2), (.one [0], 1), (.one [1], 1), (.one [2], 1)] ∧
    scratchCalls .qubo 3 2 = [(.two [0] [1], -2), (.two [0] [2], -2), (.two [1] [2], -2), (.one [0], 3), (.one [1], 3), (.one [2], 3)] ∧
    scratchCalls .qubo 4 1 = [(.two [0] [1], -2), (.two [0] [2], -2), (.two [0] [3], -2), (.two [1] [2], -2), (.two [1] [3], -2),
      (.two [2] [3], -2), (.one [0], 1), (.one [1], 1), (.one [2], 1), (.one [3], 1)] ∧
    scratchCalls .qubo 4 2 = [(.two [0] [1], -2), (.two [0] [2], -2), (.two [0] [3], -2), (.two [1] [2], -2), (.two [1] [3], -2),
      (.two [2] [3], -2), (.one [0], 3), (.one [1], 3), (.one [2], 3), (.one [3], 3)] := by decide +kernel

example : scratchCalls .ising 2 1 = [(.two [0] [1], -2), (.one [0], 0), (.one [1], 0)] ∧
    scratchCalls .ising 3 1 = [(.two [0] [1], -2), (.two [0] [2], -2), (.two [1] [2], -2), (.one [0], -2), (.one [1], -2), (.one [2], -2)] ∧
    scratchCalls .ising 3 2 = [(.two [0] [1], -2), (.two [0] [2], -2), (.two [1] [2], -2), (.one [0], 2), (.one [1], 2), (.one [2], 2)] ∧
    scratchCalls .ising 4 1 = [(.two [0] [1], -2), (.two [0] [2], -2), (.two [0] [3], -2), (.two [1] [2], -2), (.two [1] [3], -2),
      (.two [2] [3], -2), (.one [0], -4), (.one [1], -4), (.one [2], -4), (.one [3], -4)] ∧
    scratchCalls .ising 4 2 = [(.two [0] [1], -2), (.two [0] [2], -2), (.two [0] [3], -2), (.two [1] [2], -2), (.two [1] [3], -2),
      (.two [2] [3], -2), (.one [0], 0), (.one [1], 0), (.one [2], 0), (.one [3], 0)] := by decide +kernel

/-- Two of four spins: the optimum has energy -4. -/
example : (0 < 4 ∧ 2 ≤ 4) ∧ scratchA .ising * (((min 2 4 : Nat) : ℚ) - (2 : Nat)) ^ 2 + scratchB .ising 4 2 = -4 := by
  refine ⟨by decide, ?_⟩
  norm_num [scratchA, scratchB]

/-! ## C93: n-hot with the class -/

/-- A model with nothing but one n-hot constraint. -/
structure OneHot (env : Env) (mt : MType) (label : String) (vs : List PVar) (n : Nat) (q : ℚ) (m : LModel) : Prop where
  made : Made env KnownKeys m
  mtype : m.mtype = mt
  rows : m.rows = []
  constraints : m.constraints = [(label, .nHot label 1 vs n)]
  offset : m.offset = .num q

theorem Plain.constrain {vars : List (String × VArray)} {F : Assign → ℚ} {m : LModel} (h : Plain env mt [] vars F m)
    (ho : m.offset = .num 0) (label : String) (vs : List PVar) (n : Nat) :
    ∃ m', (addConstraint (.nHot label 1 vs n)).run m = .ok ⟨⟩ m' ∧ OneHot env mt label vs n 0 m' := by
  refine ⟨_, rfl, ?_, h.mtype, List.map_eq_nil_iff.mp h.names, ?_, ho⟩
  · exact Made.step m (.addConstraint (.nHot label 1 vs n)) h.made trivial (fun _ _ hc => by cases hc)
  · simp only [h.constraints]
    rfl

theorem OneHot.setOffset {label : String} {vs : List PVar} {n : Nat} {q : ℚ} {m : LModel} (h : OneHot env mt label vs n q m) (q' : ℚ) :
    ∃ m', (Sawatabi.setOffset (.num q')).run m = .ok ⟨⟩ m' ∧ OneHot env mt label vs n q' m' :=
  ⟨_, rfl, Made.step m (.setOffset (.num q')) h.made trivial (fun _ _ hc => by cases hc), h.mtype, h.rows, h.constraints, rfl⟩

theorem ones_hot {vs : List PVar} {labels : List String} (h : (vs.map (·.label)).Perm labels) (f : String → ℤ) :
    ones (fun v => (f v : ℚ)) vs = hot labels f := by
  unfold hot
  rw [← (h.filter _).length_eq, List.filter_map, List.length_map]
  unfold ones
  congr 1
  apply List.filter_congr
  intro v _
  simp only [Function.comp, decide_eq_decide]
  exact_mod_cast Iff.rfl

theorem ones_toBinary (vs : List PVar) (σ : Assign) : ones σ.toBinary vs = ones σ vs := by
  unfold ones
  congr 1
  apply List.filter_congr
  intro v _
  refine decide_eq_decide.mpr ?_
  unfold Assign.toBinary
  constructor
  · intro h; linarith
  · intro h; rw [h]; norm_num

/-- The constant of the conversion. -/
def classB (mt : MType) (s n : Nat) : ℚ :=
  match mt with
  | .qubo => -n ^ 2
  | .ising => -n ^ 2 + (s * (2 * n - 1) - s * (s - 1) / 2)

theorem OneHot.problem {label : String} {vs : List PVar} {n : Nat} {q : ℚ} {m : LModel} (h : OneHot env mt label vs n q m)
    {labels : List String} (hperm : (vs.map (·.label)).Perm labels) (hnd : labels.Nodup) (hne : labels ≠ [])
    (hstar : ∀ l ∈ labels, '*' ∉ l.toList) (hspace : ∀ l ∈ labels, ' ' ∉ l.toList) (clks : Nat → Nat → ℚ) (ids : Nat → String) :
    ∃ p m', (toPhysical env clks ids []).run m = .ok p m' ∧
      Problem labels mt.vtype ((((min n labels.length : Nat) : ℚ) - n) ^ 2 + (classB mt labels.length n + q))
        (fun f => hot labels f = min n labels.length) p := by
  have hmem : ∀ v ∈ vs, v.label ∈ labels := fun v hv => hperm.mem_iff.mp (List.mem_map_of_mem hv)
  have hc : ∀ c ∈ m.constraints, c.2 = .nHot label 1 vs n := by
    intro c hc
    rw [h.constraints, List.mem_singleton] at hc
    rw [hc]
  have hdist : ∀ c ∈ m.constraints, c.2.Distinct := by
    intro c hcm
    rw [hc c hcm]
    exact hperm.nodup_iff.mpr hnd
  have hr := made_rect (fun _ _ h => h) h.made
  obtain ⟨p, m', hp⟩ := (C21_success_iff (env := env) (clks := clks) (ids := ids) (ph := []) hr (by simp [LModel.names, h.rows])
    (by intro r hr; rw [h.rows] at hr; cases hr)
    (fun c hcm => by
      rw [hc c hcm]
      intro vs' hvs'
      rw [List.mem_singleton.mp (show vs' ∈ [vs] from hvs')]
      exact ⟨hperm.nodup_iff.mpr hnd, fun v hv => hstar _ (hmem v hv)⟩)
    (fun c hcm => by
      rw [hc c hcm]
      intro vs' hvs' v hv
      rw [List.mem_singleton.mp (show vs' ∈ [vs] from hvs')] at hv
      exact hspace _ (hmem v hv))).mpr
    ⟨fun c hcm => by rw [hc c hcm]; trivial, fun r hr => (by rw [h.rows] at hr; cases hr), fun n hn => (by rw [h.offset] at hn; cases hn)⟩
  have hen : ∀ σ, m.energy (fun _ => 0) σ = q := by
    intro σ
    simp [LModel.energy, h.rows, h.offset, Coef.eval]
  have hlen : vs.length = labels.length := by rw [← hperm.length_eq, List.length_map]
  refine ⟨p, m', hp, ?_⟩
  have := counting hnd hne (made_fromCalls h.made (by simp) hp) (by rw [physical_mtype hp, h.mtype]) (n := n) (A := 1)
    (B := classB mt labels.length n + q) (vt := mt.vtype) one_pos (fun f hf => by
      have hf' : ∀ v, m.mtype.vtype.Domain (f v) := by rw [h.mtype]; exact hf
      have hρ : PEnv.Extends (fun _ => 0) [] := fun n q hn => by cases hn
      cases mt with
      | qubo =>
        rw [energy_objective h.made (.inr ⟨h.mtype, hdist⟩) hp hρ f hf']
        unfold objective
        rw [hen, h.constraints]
        simp only [List.map_cons, List.map_nil, List.sum_cons, List.sum_nil, Constraint.penalty, ones_hot hperm, classB]
        ring
      | ising =>
        rw [energy_isingObjective h.made h.mtype hdist hp hρ f hf']
        unfold isingObjective isingDrift
        rw [hen, h.constraints]
        simp only [List.map_cons, List.map_nil, List.sum_cons, List.sum_nil, Constraint.penalty, Constraint.drift, ones_toBinary,
          ones_hot hperm, classB, hlen]
        ring)
  rwa [one_mul] at this

theorem bits_row (name : String) (s : Nat) (vt : VType) : (stdArray name [s] vt).bits.map (·.label) = row name s := by
  have : indices [s] = (List.range s).map fun i => [i] := by
    simp only [indices, List.map_cons, List.map_nil]
    induction List.range s with
    | nil => rfl
    | cons i l ih => rw [List.flatMap_cons, ih]; rfl
  unfold stdArray row
  rw [this, List.map_map, List.map_map]
  apply List.map_congr_left
  intro i _
  rw [arrayLabel_eq]
  rfl

theorem toSet_row (name : String) (s : Nat) (vt : VType) : ((toSet (stdArray name [s] vt).bits).map (·.label)).Perm (row name s) := by
  rw [← bits_row name s vt]
  refine ((List.perm_ext_iff_of_nodup (nodup_toSet _) ?_).mpr fun v => mem_toSet).map _
  have := row_nodup name s
  rw [← bits_row name s vt] at this
  exact List.Nodup.of_map _ this

theorem row_char {name : String} {c : Char} (hn : c ∉ name.toList) (hc : c.isDigit = false) (h1 : c ≠ '[') (h2 : c ≠ ']') (s : Nat) :
    ∀ l ∈ row name s, c ∉ l.toList := by
  intro l hl
  obtain ⟨i, _, rfl⟩ := List.mem_map.mp hl
  have : c ∉ (Nat.repr i).toList := by
    intro h
    have := Nat.isDigit_of_mem_toDigits (b := 10) (by decide) (by decide) (c := c) (n := i) (by simpa [Nat.repr] using h)
    rw [hc] at this
    cases this
  simpa [arrayLabel_eq, idxSuffix, Nat.repr, hn, h1, h2] using this

theorem row_ne {name : String} {s : Nat} (hs : 0 < s) : row name s ≠ [] := by
  intro hc
  have := congrArg List.length hc
  rw [row_length] at this
  simp at this
  omega

theorem class_problem (env : Env) (clks : Nat → Nat → ℚ) (ids : Nat → String) (id : String) (mt : MType) {s n : Nat}
    (hs : 0 < s) (hn : 0 < n) : ∃ p m', (nHotConstraint env clks ids s n).run (LModel.new mt id) = .ok p m' ∧
      Problem (row "x" s) mt.vtype ((((min n s : Nat) : ℚ) - n) ^ 2 + classB mt s n) (fun f => hot (row "x" s) f = min n s) p := by
  obtain ⟨m1, r1, o1, h1⟩ := (Plain.new env mt id).create (name := "x") (sh := [(s : Int)]) (by simp) (by simpa using hs) (by decide)
  obtain ⟨m2, r2, h2⟩ := h1.constrain o1 "n-hot" (toSet (stdArray "x" [s] mt.vtype).bits) n
  obtain ⟨p, m3, r3, h3⟩ := h2.problem (toSet_row "x" s mt.vtype) (row_nodup "x" s) (row_ne hs)
    (row_char (by decide) rfl (by decide) (by decide) s) (row_char (by decide) rfl (by decide) (by decide) s) clks ids
  refine ⟨p, m3, ?_, ?_⟩
  · have hc : mkNHot (some (.array (stdArray "x" [s] mt.vtype))) (n : Int) "n-hot" 1 =
        .ok (.nHot "n-hot" 1 (toSet (stdArray "x" [s] mt.vtype).bits) n) := by
      unfold mkNHot checkVarsToSet
      have : ¬ (n : Int) ≤ 0 := by omega
      simp only [this, if_false]
      rfl
    unfold nHotConstraint
    simp only [Py.run_bind, r1]
    simp only [List.map_cons, List.map_nil, Int.toNat_natCast, hc, Py.run_liftE_ok, r2, r3]
  · rw [row_length, add_zero] at h3
    exact h3

/-- **C93**: the same for the models with a constraint of class `NHotConstraint`, of both kinds. -/
theorem C93_finds (env : Env) (clks : Nat → Nat → ℚ) (ids : Nat → String) (id : String) (mt : MType) {s n : Nat}
    (hs : 0 < s) (hn : 0 < n) (log : List Bqm) : ∃ p m' res log',
      (nHotConstraint env clks ids s n).run (LModel.new mt id) = .ok p m' ∧ (localSolve none p).run log = .ok res log' ∧
      Finds (row "x" s) mt.vtype ((((min n s : Nat) : ℚ) - n) ^ 2 + classB mt s n) (fun f => hot (row "x" s) f = min n s) res := by
  obtain ⟨p, m', h, hp⟩ := class_problem env clks ids id mt hs hn
  obtain ⟨res, log', hr, hf⟩ := hp.finds log
  exact ⟨p, m', res, log', h, hr, hf⟩

/-- The function succeeds exactly for positive numbers. -/
theorem C93_succeeds_iff (env : Env) (clks : Nat → Nat → ℚ) (ids : Nat → String) (id : String) (mt : MType) (s n : Int) :
    (∃ p m', (nHotConstraint env clks ids s n).run (LModel.new mt id) = .ok p m') ↔ 0 < s ∧ 0 < n := by
  constructor
  · rintro ⟨p, m', h⟩
    unfold nHotConstraint at h
    rw [Py.run_bind, createVars_run, if_neg (by simp)] at h
    by_cases hs : 0 < s
    · refine ⟨hs, ?_⟩
      by_contra hn
      rw [(arrayCreate_spec _ _ _).1 ⟨by simp, by simpa using hs, by decide⟩] at h
      have hc : ∀ a, mkNHot (some (.array a)) n "n-hot" 1 = .error .valueError := by
        intro a
        unfold mkNHot checkVarsToSet
        have : n ≤ 0 := by omega
        simp only [this, if_true]
        rfl
      simp only [Py.run_bind, hc, Py.run_liftE_error] at h
      cases h
    · obtain ⟨e, he⟩ := (arrayCreate_spec "x" [s] (LModel.new mt id).mtype.vtype).2 fun hc => hs (hc.2.1 s (by simp))
      rw [he] at h
      cases h
  · rintro ⟨hs, hn⟩
    obtain ⟨p, m', h, _⟩ := class_problem env clks ids id mt (s := s.toNat) (n := n.toNat) (by omega) (by omega)
    rw [Int.toNat_of_nonneg hs.le, Int.toNat_of_nonneg hn.le] at h
    exact ⟨p, m', h⟩

/-- The two ways to write an `n`-hot problem have the same optima. -/
theorem C93_same_optima (env : Env) (clk : Nat → ℚ) (clks : Nat → Nat → ℚ) (ids : Nat → String) (id : String) (mt : MType) {s n : Nat}
    (hs : 0 < s) (hn : 0 < n) (log : List Bqm) : ∃ p₁ m₁ res₁ log₁ p₂ m₂ res₂ log₂,
      (nHotFromScratch env clk clks ids mt s n).run (LModel.new mt id) = .ok p₁ m₁ ∧ (localSolve none p₁).run log = .ok res₁ log₁ ∧
      (nHotConstraint env clks ids s n).run (LModel.new mt id) = .ok p₂ m₂ ∧ (localSolve none p₂).run log = .ok res₂ log₂ ∧
      ∀ r₁ ∈ res₁, ∀ r₂ ∈ res₂, (∀ v ∈ row "x" s, value r₁.1 v = value r₂.1 v) →
        ((∀ r ∈ res₁, r₁.2 ≤ r.2) ↔ ∀ r ∈ res₂, r₂.2 ≤ r.2) := by
  obtain ⟨p₁, m₁, res₁, log₁, a1, a2, a3⟩ := C92_finds env clk clks ids id mt hs n log
  obtain ⟨p₂, m₂, res₂, log₂, b1, b2, b3⟩ := C93_finds env clks ids id mt hs hn log
  refine ⟨p₁, m₁, res₁, log₁, p₂, m₂, res₂, log₂, a1, a2, b1, b2, fun r₁ h₁ r₂ h₂ hv => ?_⟩
  rw [a3.least h₁, b3.least h₂, hot_congr hv]

/-- One of 100 variables, as the sample asks for. -/
example : (0 < 100 ∧ 0 < 1) ∧ (((min 1 100 : Nat) : ℚ) - (1 : Nat)) ^ 2 + classB .qubo 100 1 = -1 := by
  refine ⟨by decide, ?_⟩
  norm_num [classB]

/-! ## C94: the models for the solver samples -/

/-- A problem with a single optimum. -/
theorem single {labels : List String} (hne : labels ≠ []) (hp : p.FromCalls) (hvt : p.mtype.vtype = vt) {E : ℚ} {t : String → ℤ}
    (ht : ∀ v, vt.Domain (t v))
    (hsame : ∀ f g : String → ℤ, (∀ v ∈ labels, f v = g v) → p.energy (fun v => (f v : ℚ)) = p.energy fun v => (g v : ℚ))
    (he : ∀ f : String → ℤ, (∀ v, vt.Domain (f v)) → E ≤ p.energy (fun v => (f v : ℚ)) ∧
      (p.energy (fun v => (f v : ℚ)) = E ↔ ∀ v ∈ labels, f v = t v)) :
    Problem labels vt E (fun f => ∀ v ∈ labels, f v = t v) p where
  vtype := hvt
  fromCalls := hp
  nonempty := hne
  same := fun f g _ _ h => hsame f g h
  needed := by
    intro v hv
    obtain ⟨b, hb, hbt⟩ := exists_other vt (ht v)
    have hd : ∀ w, vt.Domain (if w = v then b else t w) := by
      intro w
      by_cases hw : w = v
      · simpa [hw] using hb
      · simpa [hw] using ht w
    refine ⟨t, fun w => if w = v then b else t w, ht, hd, fun w hw => by simp [hw], ?_⟩
    intro hc
    have h1 := ((he t ht).2).mpr fun _ _ => rfl
    rw [h1] at hc
    have h2 := ((he _ hd).2).mp hc.symm v hv
    simp only [if_true] at h2
    exact hbt (by rw [h2])
  bound := fun f hf => (he f hf).1
  optimal := fun f hf => (he f hf).2
  exists_good := ⟨t, ht, fun _ _ => rfl⟩
  local_ := fun f g h => by
    constructor
    · intro h' v hv; rw [← h v hv]; exact h' v hv
    · intro h' v hv; rw [h v hv]; exact h' v hv

theorem inShape_iff {idx sh : List Nat} : InShape idx sh ↔ idx.length = sh.length ∧ ∀ p ∈ idx.zip sh, p.1 < p.2 := by
  unfold InShape
  rw [List.forall₂_iff_zip]
  refine and_congr_right fun _ => ⟨fun h p hp => h hp, fun h _ _ hp => h _ hp⟩

instance {idx sh : List Nat} : Decidable (InShape idx sh) := decidable_of_iff _ inShape_iff.symm

instance {sh : List Nat} {t : Target} : Decidable (t.Ok sh) := by
  cases t <;> unfold Target.Ok <;> infer_instance

/-- The labels of the first model. -/
def sixLabels : List String := ["x[0][0]", "x[0][1]", "x[1][0]", "x[1][1]", "x[2][0]", "x[2][1]"]

/-- Its optimum, as the comment of the source states it (_solver_helper.py:19-22). -/
def sixOptimum (v : String) : ℤ := if v = "x[1][0]" ∨ v = "x[1][1]" then -1 else 1

theorem ising_problem (env : Env) (clk : Nat → ℚ) (clks : Nat → Nat → ℚ) (ids : Nat → String) (id : String) :
    ∃ p m', (isingModel env clk clks ids).run (LModel.new .ising id) = .ok p m' ∧
      Problem sixLabels .spin (-10) (fun f => ∀ v ∈ sixLabels, f v = sixOptimum v) p := by
  obtain ⟨m1, r1, o1, h1⟩ := (Plain.new env .ising id).create (name := "x") (sh := [1, 2]) (by simp) (by decide) (by decide)
  obtain ⟨m2, r2, o2, h2⟩ := h1.addEach clk (name := "x") (sh := [1, 2]) (vt := .spin)
    (calls := [(.one [0, 0], 1), (.two [0, 0] [0, 1], 1)]) (by decide) (by decide +kernel)
  obtain ⟨m3, r3, o3, h3⟩ := h2.append (name := "x") (old := stdArray "x" [1, 2] .spin) (sh := [1, 0]) rfl (by simp) (by decide) (by decide)
    (by decide)
  obtain ⟨m4, r4, o4, h4⟩ := h3.addEach (fun k => clk (k + 2)) (name := "x") (sh := [2, 2]) (vt := .spin)
    (calls := [(.two [0, 1] [1, 0], -2), (.two [1, 0] [1, 1], 3)]) (by decide) (by decide +kernel)
  obtain ⟨m5, r5, o5, h5⟩ := h4.append (name := "x") (old := stdArray "x" [2, 2] .spin) (sh := [1, 0]) rfl (by simp) (by decide) (by decide)
    (by decide)
  obtain ⟨m6, r6, o6, h6⟩ := h5.addEach (fun k => clk (k + 4)) (name := "x") (sh := [3, 2]) (vt := .spin)
    (calls := [(.two [1, 1] [2, 0], -4), (.two [2, 0] [2, 1], 5)]) (by decide) (by decide +kernel)
  obtain ⟨m7, r7, h7⟩ := h6.offset (fun ρ => by rw [o6, o5, o4, o3, o2, o1]; rfl) 6
  obtain ⟨p, m8, r8, g1, g2, g3⟩ := h7.physical clks ids
  refine ⟨p, m8, ?_, ?_⟩
  · unfold isingModel
    simp only [Py.run_bind, r1]
    simp only [show List.map Int.toNat [1, 2] = [1, 2] from rfl, show MType.ising.vtype = VType.spin from rfl, r2, r3]
    rw [show stdArray "x" (List.map Int.toNat (elementwiseAdd (List.map Int.ofNat (stdArray "x" [1, 2] VType.spin).shape) [1, 0]))
      VType.spin = stdArray "x" [2, 2] .spin from rfl, r4]
    simp only [r5]
    rw [show stdArray "x" (List.map Int.toNat (elementwiseAdd (List.map Int.ofNat (stdArray "x" [2, 2] VType.spin).shape) [1, 0]))
      MType.ising.vtype = stdArray "x" [3, 2] .spin from rfl, r6]
    simp only [r7, r8]
  · have hF : ∀ f : String → ℤ, p.energy (fun v => (f v : ℚ)) = 6 - f "x[0][0]" - f "x[0][0]" * f "x[0][1]" +
        2 * (f "x[0][1]" * f "x[1][0]") - 3 * (f "x[1][0]" * f "x[1][1]") + 4 * (f "x[1][1]" * f "x[2][0]") -
        5 * (f "x[2][0]" * f "x[2][1]") := by
      intro f
      rw [g3]
      simp only [List.map_cons, List.map_nil, List.sum_cons, List.sum_nil, tvalue,
        show arrayLabel "x" [0, 0] = "x[0][0]" from rfl, show arrayLabel "x" [0, 1] = "x[0][1]" from rfl,
        show arrayLabel "x" [1, 0] = "x[1][0]" from rfl, show arrayLabel "x" [1, 1] = "x[1][1]" from rfl,
        show arrayLabel "x" [2, 0] = "x[2][0]" from rfl, show arrayLabel "x" [2, 1] = "x[2][1]" from rfl]
      ring
    refine single (by decide) g2 (by rw [g1]; rfl) (t := sixOptimum) ?_ ?_ ?_
    · intro v
      unfold sixOptimum
      split
      · exact .inr rfl
      · exact .inl rfl
    · intro f g h
      rw [hF, hF, h "x[0][0]" (by decide), h "x[0][1]" (by decide), h "x[1][0]" (by decide), h "x[1][1]" (by decide),
        h "x[2][0]" (by decide), h "x[2][1]" (by decide)]
    · intro f hf
      rw [hF]
      simp only [sixLabels, List.mem_cons, List.not_mem_nil, or_false, forall_eq_or_imp, forall_eq]
      rw [show sixOptimum "x[0][0]" = 1 by decide, show sixOptimum "x[0][1]" = 1 by decide, show sixOptimum "x[1][0]" = -1 by decide,
        show sixOptimum "x[1][1]" = -1 by decide, show sixOptimum "x[2][0]" = 1 by decide, show sixOptimum "x[2][1]" = 1 by decide]
      rcases hf "x[0][0]" with h | h <;> rcases hf "x[0][1]" with h' | h' <;> rcases hf "x[1][0]" with h'' | h'' <;>
        rcases hf "x[1][1]" with k | k <;> rcases hf "x[2][0]" with k' | k' <;> rcases hf "x[2][1]" with k'' | k'' <;>
        rw [h, h', h'', k, k', k''] <;> norm_num

/-- **C94**: the Ising model of the solver samples has the optimum that its comment states. -/
theorem C94_ising (env : Env) (clk : Nat → ℚ) (clks : Nat → Nat → ℚ) (ids : Nat → String) (id : String) (log : List Bqm) :
    ∃ p m' res log', (isingModel env clk clks ids).run (LModel.new .ising id) = .ok p m' ∧ (localSolve none p).run log = .ok res log' ∧
      Finds ["x[0][0]", "x[0][1]", "x[1][0]", "x[1][1]", "x[2][0]", "x[2][1]"] .spin (-10)
        (fun f => f "x[0][0]" = 1 ∧ f "x[0][1]" = 1 ∧ f "x[1][0]" = -1 ∧ f "x[1][1]" = -1 ∧ f "x[2][0]" = 1 ∧ f "x[2][1]" = 1) res := by
  obtain ⟨p, m', h, hp⟩ := ising_problem env clk clks ids id
  obtain ⟨res, log', hr, hf⟩ := hp.finds log
  refine ⟨p, m', res, log', h, hr, hf.keys, hf.domain, hf.all, hf.once, hf.bound, fun r hr => ?_, hf.reached⟩
  rw [hf.optimal r hr]
  simp only [sixLabels, List.mem_cons, List.not_mem_nil, or_false, forall_eq_or_imp, forall_eq]
  rw [show sixOptimum "x[0][0]" = 1 by decide, show sixOptimum "x[0][1]" = 1 by decide, show sixOptimum "x[1][0]" = -1 by decide,
    show sixOptimum "x[1][1]" = -1 by decide, show sixOptimum "x[2][0]" = 1 by decide, show sixOptimum "x[2][1]" = 1 by decide]

theorem qubo_problem (env : Env) (clks : Nat → Nat → ℚ) (ids : Nat → String) (id : String) {s : Nat} (hs : 0 < s) :
    ∃ p m', (quboModel env clks ids s).run (LModel.new .qubo id) = .ok p m' ∧
      Problem (row "a" s) .binary 0 (fun f => hot (row "a" s) f = 1) p := by
  obtain ⟨m1, r1, o1, h1⟩ := (Plain.new env .qubo id).create (name := "a") (sh := [(s : Int)]) (by simp) (by simpa using hs) (by decide)
  obtain ⟨m2, r2, h2⟩ := h1.constrain o1 "Default N-hot Constraint" (toSet (stdArray "a" [s] .binary).bits) 1
  obtain ⟨m3, r3, h3⟩ := h2.setOffset 1
  obtain ⟨p, m4, r4, h4⟩ := h3.problem (toSet_row "a" s .binary) (row_nodup "a" s) (row_ne hs)
    (row_char (by decide) rfl (by decide) (by decide) s) (row_char (by decide) rfl (by decide) (by decide) s) clks ids
  refine ⟨p, m4, ?_, ?_⟩
  · have hc : mkNHot (some (.array (stdArray "a" [s] .binary))) 1 "Default N-hot Constraint" 1 =
        .ok (.nHot "Default N-hot Constraint" 1 (toSet (stdArray "a" [s] .binary).bits) 1) := by
      unfold mkNHot checkVarsToSet
      simp only [show ¬ (1 : Int) ≤ 0 by decide, if_false]
      rfl
    unfold quboModel
    simp only [Py.run_bind, r1]
    simp only [List.map_cons, List.map_nil, Int.toNat_natCast, show MType.qubo.vtype = VType.binary from rfl, hc, Py.run_liftE_ok,
      r2, r3, r4]
  · have hmin : min 1 s = 1 := min_eq_left hs
    rw [row_length, hmin] at h4
    have hE : ((1 : Nat) - ((1 : Nat) : ℚ)) ^ 2 + (classB .qubo s 1 + 1) = 0 := by norm_num [classB]
    rwa [hE] at h4

/-- The QUBO model: energy 0 exactly if one of the variables is 1, as the comment states. -/
theorem C94_qubo (env : Env) (clks : Nat → Nat → ℚ) (ids : Nat → String) (id : String) {s : Nat} (hs : 0 < s) (log : List Bqm) :
    ∃ p m' res log', (quboModel env clks ids s).run (LModel.new .qubo id) = .ok p m' ∧ (localSolve none p).run log = .ok res log' ∧
      Finds (row "a" s) .binary 0 (fun f => hot (row "a" s) f = 1) res := by
  obtain ⟨p, m', h, hp⟩ := qubo_problem env clks ids id hs
  obtain ⟨res, log', hr, hf⟩ := hp.finds log
  exact ⟨p, m', res, log', h, hr, hf⟩

theorem forall_row {name : String} {n : Nat} {P : String → Prop} : (∀ v ∈ row name n, P v) ↔ ∀ i < n, P (arrayLabel name [i]) := by
  simp [row]

theorem oneBody_problem (env : Env) (clk : Nat → ℚ) (clks : Nat → Nat → ℚ) (ids : Nat → String) (id : String) {n : Nat} (hn : 0 < n) :
    ∃ p m', (oneBody env clk clks ids n).run (LModel.new .ising id) = .ok p m' ∧
      Problem (row "x" n) .spin (-n) (fun f => ∀ v ∈ row "x" n, f v = -1) p := by
  obtain ⟨m1, r1, o1, h1⟩ := (Plain.new env .ising id).create (name := "x") (sh := [(n : Int)]) (by simp) (by simpa using hn) (by decide)
  obtain ⟨m2, r2, _, h2⟩ := h1.addEach clk (name := "x") (sh := [n]) (vt := .spin)
    (calls := (List.range n).map fun i => (.one [i], -1)) (by
      intro c hc
      obtain ⟨i, hi, rfl⟩ := List.mem_map.mp hc
      exact .cons (List.mem_range.mp hi) .nil) (by
      rw [List.map_map]
      exact row_nodup "x" n)
  obtain ⟨p, m3, r3, g1, g2, g3⟩ := h2.physical clks ids
  refine ⟨p, m3, ?_, ?_⟩
  · unfold oneBody
    simp only [Py.run_bind, r1]
    simp only [List.map_cons, List.map_nil, Int.toNat_natCast, show MType.ising.vtype = VType.spin from rfl, r2, r3]
  · have hF : ∀ f : String → ℤ, p.energy (fun v => (f v : ℚ)) = ((row "x" n).map fun v => (f v : ℚ)).sum := by
      intro f
      rw [g3, List.map_map]
      have : ((fun c : Target × ℚ => c.2 * tvalue "x" (fun v => (f v : ℚ)) c.1) ∘ fun i => ((Target.one [i], (-1 : ℚ)))) =
          fun i => -1 * (f (arrayLabel "x" [i]) : ℚ) := rfl
      rw [this, List.sum_map_mul_left, row, List.map_map]
      simp only [Function.comp_def]
      ring
    refine single (row_ne hn) g2 (by rw [g1]; rfl) (t := fun _ => -1) (fun _ => .inr rfl) ?_ ?_
    · intro f g h
      rw [hF, hF, List.map_congr_left fun v hv => by rw [h v hv]]
    · intro f hf
      rw [hF, sum_spin _ hf, row_length]
      have hpos : (0 : ℚ) ≤ hot (row "x" n) f := Nat.cast_nonneg _
      refine ⟨by linarith, ?_⟩
      have : (2 * (hot (row "x" n) f : ℚ) - n = -n) ↔ hot (row "x" n) f = 0 := by
        constructor
        · intro h
          have : (hot (row "x" n) f : ℚ) = 0 := by linarith
          exact_mod_cast this
        · intro h
          rw [h]
          simp
      rw [this]
      unfold hot
      rw [List.length_eq_zero_iff, List.filter_eq_nil_iff]
      refine forall₂_congr fun v _ => ?_
      rcases hf v with h | h <;> rw [h] <;> decide

/-- The Ising model with fields only: energy `-n` exactly if all spins are -1. -/
theorem C94_one_body (env : Env) (clk : Nat → ℚ) (clks : Nat → Nat → ℚ) (ids : Nat → String) (id : String) {n : Nat} (hn : 0 < n)
    (log : List Bqm) : ∃ p m' res log',
      (oneBody env clk clks ids n).run (LModel.new .ising id) = .ok p m' ∧ (localSolve none p).run log = .ok res log' ∧
      Finds (row "x" n) .spin (-n) (fun f => ∀ v ∈ row "x" n, f v = -1) res := by
  obtain ⟨p, m', h, hp⟩ := oneBody_problem env clk clks ids id hn
  obtain ⟨res, log', hr, hf⟩ := hp.finds log
  exact ⟨p, m', res, log', h, hr, hf⟩

/-- A chain of spins: the products of neighbours. -/
theorem chain_bound {X : Nat → ℤ} (hX : ∀ i, X i = 1 ∨ X i = -1) (k : Nat) :
    ((List.range k).map fun i => ((X i : ℚ) * X (i + 1))).sum ≤ k ∧
    (((List.range k).map fun i => ((X i : ℚ) * X (i + 1))).sum = k ↔ ∀ i ≤ k, X i = X 0) := by
  induction k with
  | zero => simp
  | succ k ih =>
    rw [List.range_succ, List.map_append, List.sum_append]
    simp only [List.map_cons, List.map_nil, List.sum_cons, List.sum_nil, add_zero]
    have hle : (X k : ℚ) * X (k + 1) ≤ 1 ∧ ((X k : ℚ) * X (k + 1) = 1 ↔ X (k + 1) = X k) := by
      rcases hX k with h | h <;> rcases hX (k + 1) with h' | h' <;> rw [h, h'] <;> norm_num
    push_cast
    refine ⟨by linarith [ih.1, hle.1], ?_⟩
    constructor
    · intro h i hi
      have h1 : ((List.range k).map fun i => ((X i : ℚ) * X (i + 1))).sum = k := le_antisymm ih.1 (by linarith [hle.1])
      have h2 : (X k : ℚ) * X (k + 1) = 1 := by linarith
      have h3 := ih.2.mp h1
      rcases Nat.lt_or_eq_of_le hi with hlt | rfl
      · exact h3 i (by omega)
      · rw [hle.2.mp h2, h3 k le_rfl]
    · intro h
      rw [ih.2.mpr fun i hi => h i (by omega), hle.2.mpr (by rw [h (k + 1) le_rfl, h k (by omega)])]

theorem twoBody_problem (env : Env) (clk : Nat → ℚ) (clks : Nat → Nat → ℚ) (ids : Nat → String) (id : String) {n : Nat} (hn : 2 ≤ n) :
    ∃ p m', (twoBody env clk clks ids n).run (LModel.new .ising id) = .ok p m' ∧
      Problem (row "x" n) .spin (1 - n) (fun f => ∀ v ∈ row "x" n, ∀ w ∈ row "x" n, f v = f w) p := by
  obtain ⟨m1, r1, o1, h1⟩ := (Plain.new env .ising id).create (name := "x") (sh := [(n : Int)]) (by simp) (by simp; omega) (by decide)
  obtain ⟨m2, r2, _, h2⟩ := h1.addEach clk (name := "x") (sh := [n]) (vt := .spin)
    (calls := (List.range (n - 1)).map fun i => (.two [i] [i + 1], 1)) (by
      intro c hc
      obtain ⟨i, hi, rfl⟩ := List.mem_map.mp hc
      have := List.mem_range.mp hi
      exact ⟨.cons (by omega) .nil, .cons (by omega) .nil, by simp⟩) (by
      rw [List.map_map]
      refine List.Nodup.map_on ?_ List.nodup_range
      intro i _ j _ h
      exact (tname_two_inj (by decide) (Nat.lt_succ_self i) (Nat.lt_succ_self j) h).1)
  obtain ⟨p, m3, r3, g1, g2, g3⟩ := h2.physical clks ids
  refine ⟨p, m3, ?_, ?_⟩
  · unfold twoBody
    simp only [Py.run_bind, r1]
    simp only [List.map_cons, List.map_nil, Int.toNat_natCast, show MType.ising.vtype = VType.spin from rfl, r2, r3]
  · have hF : ∀ f : String → ℤ, p.energy (fun v => (f v : ℚ)) =
        -((List.range (n - 1)).map fun i => ((f (arrayLabel "x" [i]) : ℚ) * f (arrayLabel "x" [i + 1]))).sum := by
      intro f
      rw [g3, List.map_map]
      have : ((fun c : Target × ℚ => c.2 * tvalue "x" (fun v => (f v : ℚ)) c.1) ∘ fun i => ((Target.two [i] [i + 1], (1 : ℚ)))) =
          fun i => 1 * ((f (arrayLabel "x" [i]) : ℚ) * f (arrayLabel "x" [i + 1])) := rfl
      rw [this, List.sum_map_mul_left]
      ring
    have hcast : ((n - 1 : Nat) : ℚ) = n - 1 := by rw [Nat.cast_sub (by omega)]; simp
    have hall : ∀ f : String → ℤ, (∀ i ≤ n - 1, f (arrayLabel "x" [i]) = f (arrayLabel "x" [0])) ↔
        ∀ v ∈ row "x" n, ∀ w ∈ row "x" n, f v = f w := by
      intro f
      constructor
      · intro h v hv w hw
        obtain ⟨i, hi, rfl⟩ := List.mem_map.mp hv
        obtain ⟨j, hj, rfl⟩ := List.mem_map.mp hw
        have := List.mem_range.mp hi
        have := List.mem_range.mp hj
        rw [h i (by omega), h j (by omega)]
      · intro h i hi
        exact h _ (List.mem_map.mpr ⟨i, List.mem_range.mpr (by omega), rfl⟩) _ (List.mem_map.mpr ⟨0, List.mem_range.mpr (by omega), rfl⟩)
    have he : ∀ f : String → ℤ, (∀ v, VType.spin.Domain (f v)) → 1 - (n : ℚ) ≤ p.energy (fun v => (f v : ℚ)) ∧
        (p.energy (fun v => (f v : ℚ)) = 1 - n ↔ ∀ v ∈ row "x" n, ∀ w ∈ row "x" n, f v = f w) := by
      intro f hf
      obtain ⟨b1, b2⟩ := chain_bound (X := fun i => f (arrayLabel "x" [i])) (fun i => hf _) (n - 1)
      rw [hcast] at b1 b2
      rw [hF, ← hall, ← b2]
      refine ⟨by linarith, ?_⟩
      constructor <;> intro h <;> linarith
    have hlen : (row "x" n).length = n := row_length "x" n
    refine ⟨by rw [g1]; rfl, g2, row_ne (by omega), ?_, ?_, fun f hf => (he f hf).1, fun f hf => (he f hf).2,
      ⟨fun _ => 1, fun _ => .inl rfl, fun _ _ _ _ => rfl⟩, ?_⟩
    · intro f g _ _ h
      rw [hF, hF]
      congr 2
      apply List.map_congr_left
      intro i hi
      have := List.mem_range.mp hi
      rw [h _ (List.mem_map.mpr ⟨i, List.mem_range.mpr (by omega), rfl⟩), h _ (List.mem_map.mpr ⟨i + 1, List.mem_range.mpr (by omega), rfl⟩)]
    · intro v hv
      have hd : ∀ w, VType.spin.Domain (if w = v then -1 else 1) := by
        intro w
        by_cases hw : w = v
        · simp only [hw, if_true]; exact .inr rfl
        · simp only [hw, if_false]; exact .inl rfl
      refine ⟨fun _ => 1, fun w => if w = v then -1 else 1, fun _ => .inl rfl, hd, fun w hw => by simp [hw], ?_⟩
      rw [((he (fun _ => 1) (fun _ => .inl rfl)).2).mpr fun _ _ _ _ => rfl]
      intro hc
      have hall' := ((he _ hd).2).mp hc.symm
      obtain ⟨i, hi, rfl⟩ := List.mem_map.mp hv
      have hi := List.mem_range.mp hi
      obtain ⟨j, hj, hji⟩ : ∃ j < n, j ≠ i := by
        by_cases h0 : i = 0
        · exact ⟨1, by omega, by omega⟩
        · exact ⟨0, by omega, by omega⟩
      have := hall' _ hv (arrayLabel "x" [j]) (List.mem_map.mpr ⟨j, List.mem_range.mpr hj, rfl⟩)
      have hne : arrayLabel "x" [j] ≠ arrayLabel "x" [i] := fun hc => hji (by simpa using label_inj hc)
      simp [hne] at this
    · intro f g h
      constructor
      · intro h' v hv w hw; rw [← h v hv, ← h w hw]; exact h' v hv w hw
      · intro h' v hv w hw; rw [h v hv, h w hw]; exact h' v hv w hw

/-- The chain: energy `1 - n` exactly if all spins agree. -/
theorem C94_two_body (env : Env) (clk : Nat → ℚ) (clks : Nat → Nat → ℚ) (ids : Nat → String) (id : String) {n : Nat} (hn : 2 ≤ n)
    (log : List Bqm) : ∃ p m' res log',
      (twoBody env clk clks ids n).run (LModel.new .ising id) = .ok p m' ∧ (localSolve none p).run log = .ok res log' ∧
      Finds (row "x" n) .spin (1 - n) (fun f => ∀ v ∈ row "x" n, ∀ w ∈ row "x" n, f v = f w) res := by
  obtain ⟨p, m', h, hp⟩ := twoBody_problem env clk clks ids id hn
  obtain ⟨res, log', hr, hf⟩ := hp.finds log
  exact ⟨p, m', res, log', h, hr, hf⟩

theorem square_problem (env : Env) (clk : Nat → ℚ) (clks : Nat → Nat → ℚ) (ids : Nat → String) (id : String) (mt : MType) {name : String}
    (hstar : '*' ∉ name.toList) :
    ∃ p m', (square env clk clks ids name).run (LModel.new mt id) = .ok p m' ∧
      Problem [arrayLabel name [0, 1], arrayLabel name [1, 0], arrayLabel name [1, 1]] mt.vtype 0
        (fun f => ∀ v ∈ [arrayLabel name [0, 1], arrayLabel name [1, 0], arrayLabel name [1, 1]], f v = 1) p := by
  obtain ⟨m1, r1, o1, h1⟩ := (Plain.new env mt id).create (name := name) (sh := [2, 2]) (by simp) (by decide) hstar
  obtain ⟨m2, r2, o2, h2⟩ := h1.addEach clk (name := name) (sh := [2, 2]) (vt := mt.vtype)
    (calls := [(.one [0, 1], 2), (.one [1, 0], 2), (.one [1, 1], 2)]) (by decide) (by
      have h : ∀ {i j : List Nat}, i ≠ j → arrayLabel name i ≠ arrayLabel name j := fun hij hc => hij (label_inj hc)
      simp [tname, h])
  obtain ⟨m3, r3, h3⟩ := h2.offset (fun ρ => by rw [o2, o1]; rfl) 6
  obtain ⟨p, m4, r4, g1, g2, g3⟩ := h3.physical clks ids
  refine ⟨p, m4, ?_, ?_⟩
  · unfold square
    simp only [Py.run_bind, r1]
    simp only [show List.map Int.toNat [2, 2] = [2, 2] from rfl, r2, r3, r4]
  · have hF : ∀ f : String → ℤ, p.energy (fun v => (f v : ℚ)) =
        6 - 2 * f (arrayLabel name [0, 1]) - 2 * f (arrayLabel name [1, 0]) - 2 * f (arrayLabel name [1, 1]) := by
      intro f
      rw [g3]
      simp only [List.map_cons, List.map_nil, List.sum_cons, List.sum_nil, tvalue]
      ring
    refine single (by simp) g2 (by rw [g1]) (t := fun _ => 1) (fun _ => domain_one _) ?_ ?_
    · intro f g h
      rw [hF, hF, h (arrayLabel name [0, 1]) (by simp), h (arrayLabel name [1, 0]) (by simp), h (arrayLabel name [1, 1]) (by simp)]
    · intro f hf
      have hle : ∀ v, f v ≤ 1 := by
        intro v
        have := hf v
        cases mt <;> rcases this with h | h <;> omega
      rw [hF]
      simp only [List.mem_cons, List.not_mem_nil, or_false, forall_eq_or_imp, forall_eq]
      have a := hle (arrayLabel name [0, 1])
      have b := hle (arrayLabel name [1, 0])
      have c := hle (arrayLabel name [1, 1])
      constructor
      · have : (0 : ℤ) ≤ 6 - 2 * f (arrayLabel name [0, 1]) - 2 * f (arrayLabel name [1, 0]) - 2 * f (arrayLabel name [1, 1]) := by omega
        exact_mod_cast this
      · constructor
        · intro h
          have : 6 - 2 * f (arrayLabel name [0, 1]) - 2 * f (arrayLabel name [1, 0]) - 2 * f (arrayLabel name [1, 1]) = 0 := by
            exact_mod_cast h
          omega
        · rintro ⟨h1, h2, h3⟩
          rw [h1, h2, h3]
          norm_num

/-- The models without a variable `a[0][0]`: energy 0 exactly if the other three are 1; the samples do not mention the
variable without interactions. -/
theorem C94_square (env : Env) (clk : Nat → ℚ) (clks : Nat → Nat → ℚ) (ids : Nat → String) (id : String) (mt : MType) {name : String}
    (hstar : '*' ∉ name.toList) (log : List Bqm) : ∃ p m' res log',
      (square env clk clks ids name).run (LModel.new mt id) = .ok p m' ∧ (localSolve none p).run log = .ok res log' ∧
      Finds [arrayLabel name [0, 1], arrayLabel name [1, 0], arrayLabel name [1, 1]] mt.vtype 0
        (fun f => ∀ v ∈ [arrayLabel name [0, 1], arrayLabel name [1, 0], arrayLabel name [1, 1]], f v = 1) res := by
  obtain ⟨p, m', h, hp⟩ := square_problem env clk clks ids id mt hstar
  obtain ⟨res, log', hr, hf⟩ := hp.finds log
  exact ⟨p, m', res, log', h, hr, hf⟩

/-- The numbers of the source. -/
example : (0 : Nat) < 4 ∧ (0 : Nat) < 12 ∧ 2 ≤ 12 ∧ (1 : ℚ) - (12 : Nat) = -11 ∧ '*' ∉ "a".toList ∧ '*' ∉ "b".toList := by
  refine ⟨by decide, by decide, by decide, by norm_num, by decide, by decide⟩

end Sawatabi.Samples
