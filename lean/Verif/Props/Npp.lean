import Verif.Spec.Npp
import Verif.Lemmas.Npp
import Mathlib.Data.List.Induction

/-!
# C59–C63: number partitioning
-/

namespace Sawatabi.Props

open Npp

variable {numbers : List Nat} {all flag : Bool} {ps qs : List (List Nat)}

theorem sideSum_eq (numbers : List Nat) (side : Nat → Bool) : sideSum numbers side = sumAt numbers (picks side numbers.length) := by
  induction numbers using List.reverseRecOn with
  | nil => rfl
  | append_singleton l a ih =>
    have h1 : sideSum (l ++ [a]) side = sideSum l side + if side l.length then a else 0 := by
      unfold sideSum
      rw [List.zipIdx_append, List.map_append, List.sum_append]
      simp
    have hnum : num (l ++ [a]) l.length = a := by simp [num]
    have h2 : sumAt (l ++ [a]) (picks side l.length) = sumAt l (picks side l.length) := by
      unfold sumAt
      congr 1
      apply List.map_congr_left
      intro k hk
      have := (mem_picks.mp hk).1
      simp [num, List.getElem?_append_left this]
    rw [h1, ih, List.length_append, List.length_singleton, picks_succ, sumAt_append, h2]
    cases side l.length <;> simp [sumAt, hnum]

theorem sideSum_add (numbers : List Nat) (side : Nat → Bool) :
    sideSum numbers side + sideSum numbers (fun i => !side i) = numbers.sum := by
  have h : ∀ k, ((numbers.zipIdx k).map fun vi => if side vi.2 then vi.1 else 0).sum +
      ((numbers.zipIdx k).map fun vi => if (!side vi.2) then vi.1 else 0).sum = numbers.sum := by
    induction numbers with
    | nil => intro k; rfl
    | cons a l ih =>
      intro k
      have := ih (k + 1)
      simp only [List.zipIdx_cons, List.map_cons, List.sum_cons]
      cases side k <;> simp only [Bool.not_true, Bool.not_false, Bool.false_eq_true, if_true, if_false] <;> omega
  exact h 0

theorem within_picks (side : Nat → Bool) (n : Nat) : picks (within (picks side n)) n = picks side n := by
  apply picks_congr
  intro k hk
  unfold within
  cases h : side k
  · simp [mem_picks, h]
  · simp [mem_picks, h, hk]

/-- Everything about the result of either mode. -/
theorem solve_spec (numbers : List Nat) (all : Bool) : ∃ b flag ps, b ≤ numbers.sum / 2 ∧
    (∃ side, sideSum numbers side = b) ∧
    (∀ side, sideSum numbers side ≤ numbers.sum / 2 → sideSum numbers side ≤ b) ∧
    (flag = true ↔ 2 * b = numbers.sum) ∧
    Npp.solve numbers all = .ok (some (flag, ps, ps.map (theOther numbers.length))) ∧
    (∀ p ∈ ps, (∃ side, p = picks side numbers.length) ∧ sideSum numbers (within p) = b) ∧ ps.Nodup ∧
    ((all = true → 0 < b) → ps ≠ []) ∧
    (all = true → 0 < b → (∀ k, k < numbers.length → 0 < num numbers k) → ∀ side, sideSum numbers side = b →
      picks side numbers.length ∈ ps) := by
  have hsum : ∀ (p : List Nat) side, p = picks side numbers.length → sideSum numbers (within p) = sumAt numbers p := by
    rintro p side rfl
    rw [sideSum_eq, within_picks]
  cases all with
  | false =>
    obtain ⟨b, flag, h1, h2, h3, h4, h5⟩ := solveWith_spec extendOne (fun p => [p]) numbers
    obtain ⟨side, g1, g2⟩ := cellOne_sound ((cell_flag (extend := extendOne) _ _).mpr h2)
    refine ⟨b, flag, [(cell extendOne numbers b numbers.length).2], h1, ?_, ?_, h4, h5, ?_, by simp, by simp, by simp⟩
    · obtain ⟨sd, hs⟩ := h2; exact ⟨sd, by rw [sideSum_eq]; exact hs⟩
    · intro sd; rw [sideSum_eq]; exact h3 sd
    · intro p hp
      rw [List.mem_singleton] at hp
      subst hp
      exact ⟨⟨side, g1⟩, by rw [hsum _ _ g1]; exact g2⟩
  | true =>
    obtain ⟨b, flag, h1, h2, h3, h4, h5⟩ := solveWith_spec extendAll id numbers
    obtain ⟨g1, g2⟩ := cellAll_sound (numbers := numbers) b numbers.length
    refine ⟨b, flag, (cell extendAll numbers b numbers.length).2, h1, ?_, ?_, h4, h5, ?_, g2, ?_, ?_⟩
    · obtain ⟨sd, hs⟩ := h2; exact ⟨sd, by rw [sideSum_eq]; exact hs⟩
    · intro sd; rw [sideSum_eq]; exact h3 sd
    · intro p hp
      obtain ⟨side, e1, e2⟩ := g1 p hp
      exact ⟨⟨side, e1⟩, by rw [hsum _ _ e1]; exact e2⟩
    · intro hb
      exact cellAll_nonempty (hb rfl) ((cell_flag _ _).mpr h2)
    · intro _ hb hpos sd hs
      rw [sideSum_eq] at hs
      exact cellAll_complete hpos hb hs

/-- **C59**: the two lists of a partition are disjoint and cover all indices, without repetition. -/
theorem C59_complementary (h : Npp.solve numbers all = .ok (some (flag, ps, qs))) :
    ps.length = qs.length ∧ ∀ (k : Nat) p q, ps[k]? = some p → qs[k]? = some q →
      p.Nodup ∧ q.Nodup ∧ ∀ i, (i ∈ p ∨ i ∈ q ↔ i < numbers.length) ∧ ¬ (i ∈ p ∧ i ∈ q) := by
  obtain ⟨b, fl, ps', _, _, _, _, h5, h6, _⟩ := solve_spec numbers all
  rw [h5] at h
  cases h
  refine ⟨by simp, fun k p q hp hq => ?_⟩
  rw [List.getElem?_map, hp] at hq
  cases hq
  obtain ⟨⟨side, rfl⟩, _⟩ := h6 p (List.mem_of_getElem? hp)
  refine ⟨List.nodup_range.filter _, List.nodup_range.filter _, fun i => ?_⟩
  simp only [theOther, List.mem_filter, List.mem_range, decide_eq_true_eq, mem_picks]
  constructor
  · constructor
    · rintro (h | h) <;> exact h.1
    · intro hi
      by_cases hs : side i = true
      · exact .inl ⟨hi, hs⟩
      · exact .inr ⟨hi, fun h => hs h.2⟩
  · rintro ⟨h1, h2⟩; exact h2.2 h1

/-- **C60**: the flag says whether a balanced partition exists, and then all returned ones are balanced. -/
theorem C60_flag (h : Npp.solve numbers all = .ok (some (flag, ps, qs))) :
    (flag = true ↔ ∃ side, 2 * sideSum numbers side = numbers.sum) ∧
    (flag = true → ∀ p ∈ ps, difference numbers (within p) = 0) := by
  obtain ⟨b, fl, ps', h1, h2, h3, h4, h5, h6, _⟩ := solve_spec numbers all
  rw [h5] at h
  cases h
  refine ⟨⟨fun hf => ?_, ?_⟩, fun hf p hp => ?_⟩
  · obtain ⟨side, hs⟩ := h2
    exact ⟨side, by rw [hs]; exact h4.mp hf⟩
  · rintro ⟨side, hs⟩
    have := h3 side (by omega)
    exact h4.mpr (by omega)
  · have e := (h6 p hp).2
    have := sideSum_add numbers (within p)
    have := h4.mp hf
    unfold difference
    omega

/-- **C61**: no partition of the input has a smaller difference than a returned one. -/
theorem C61_minimal (h : Npp.solve numbers all = .ok (some (flag, ps, qs))) :
    ∀ p ∈ ps, ∀ side, difference numbers (within p) ≤ difference numbers side := by
  obtain ⟨b, fl, ps', h1, _, h3, _, h5, h6, _⟩ := solve_spec numbers all
  rw [h5] at h
  cases h
  intro p hp side
  have e := (h6 p hp).2
  have a1 := sideSum_add numbers (within p)
  have a2 := sideSum_add numbers side
  have a3 := h3 side
  have a4 := h3 (fun i => !side i)
  unfold difference
  omega

/-- **C62**, soundness for all lists: every returned list is an increasing list of indices that has the smaller sum of an
optimal partition, and none is returned twice. -/
theorem C62_sound (h : Npp.solve numbers true = .ok (some (flag, ps, qs))) :
    ps.Nodup ∧ ∀ p ∈ ps, p.Pairwise (· < ·) ∧ (∀ i ∈ p, i < numbers.length) ∧
      sideSum numbers (within p) ≤ sideSum numbers (fun i => !within p i) ∧
      ∀ side, difference numbers (within p) ≤ difference numbers side := by
  have hmin := C61_minimal h
  obtain ⟨b, fl, ps', h1, _, _, _, h5, h6, h7, _⟩ := solve_spec numbers true
  rw [h5] at h
  cases h
  refine ⟨h7, fun p hp => ⟨?_, ?_, ?_, hmin p hp⟩⟩
  · obtain ⟨⟨side, rfl⟩, _⟩ := h6 p hp
    exact List.pairwise_lt_range.filter _
  · obtain ⟨⟨side, rfl⟩, _⟩ := h6 p hp
    exact fun i hi => (mem_picks.mp hi).1
  · have := (h6 p hp).2
    have := sideSum_add numbers (within p)
    omega

/-- **C62**, completeness for at least two positive numbers: every optimal partition is returned, by its smaller part. -/
theorem C62_complete_partial (hpos : ∀ a ∈ numbers, 0 < a) (hlen : 2 ≤ numbers.length)
    (h : Npp.solve numbers true = .ok (some (flag, ps, qs))) {side : Nat → Bool}
    (hsmall : sideSum numbers side ≤ sideSum numbers (fun i => !side i))
    (hopt : ∀ other, difference numbers side ≤ difference numbers other) :
    ∃ p ∈ ps, ∀ i, i < numbers.length → (i ∈ p ↔ side i = true) := by
  obtain ⟨b, fl, ps', h1, ⟨sb, h2⟩, h3, _, h5, _, _, _, h9⟩ := solve_spec numbers true
  rw [h5] at h
  cases h
  have hnum : ∀ k, k < numbers.length → 0 < num numbers k := by
    intro k hk
    rw [num, List.getElem?_eq_getElem hk]
    exact hpos _ (List.getElem_mem hk)
  -- the smaller of the first two numbers is a sum that is positive and at most half
  have hb : 0 < b := by
    have k0 : sideSum numbers (fun i => decide (i = 0)) + sideSum numbers (fun i => decide (i = 1)) ≤ numbers.sum ∧
        0 < sideSum numbers (fun i => decide (i = 0)) ∧ 0 < sideSum numbers (fun i => decide (i = 1)) := by
      have hz : ∀ (l : List Nat) (k i : Nat), i < k → ((l.zipIdx k).map fun vi => if decide (vi.2 = i) = true then vi.1 else 0).sum = 0 := by
        intro l
        induction l with
        | nil => intro k i _; rfl
        | cons a l ih =>
          intro k i hk
          rw [List.zipIdx_cons, List.map_cons, List.sum_cons, ih (k + 1) i (by omega)]
          simp; omega
      match numbers, hpos, hlen with
      | a :: c :: l, hpos, _ =>
        have ha := hpos a (by simp)
        have hc := hpos c (by simp)
        have e0 := hz l 2 0 (by omega)
        have e1 := hz l 2 1 (by omega)
        have t0 : sideSum (a :: c :: l) (fun i => decide (i = 0)) = a := by
          unfold sideSum
          simp only [List.zipIdx_cons, List.map_cons, List.sum_cons, Nat.zero_add, Nat.reduceAdd]
          rw [e0]; simp
        have t1 : sideSum (a :: c :: l) (fun i => decide (i = 1)) = c := by
          unfold sideSum
          simp only [List.zipIdx_cons, List.map_cons, List.sum_cons, Nat.zero_add, Nat.reduceAdd]
          rw [e1]; simp
        rw [t0, t1]
        simp only [List.sum_cons]
        omega
    have a0 := h3 (fun i => decide (i = 0))
    have a1 := h3 (fun i => decide (i = 1))
    omega
  have hs : sideSum numbers side = b := by
    have a1 := sideSum_add numbers side
    have a2 := sideSum_add numbers sb
    have a3 := hopt sb
    have a4 := h3 side
    unfold difference at a3
    omega
  exact ⟨_, h9 rfl hb hnum side hs, fun i hi => by rw [mem_picks]; simp [hi]⟩

theorem picks_within {p : List Nat} {n : Nat} (h1 : p.Pairwise (· < ·)) (h2 : ∀ i ∈ p, i < n) : p = picks (within p) n := by
  have hn : p.Nodup := h1.imp fun h => Nat.ne_of_lt h
  have hperm : p.Perm (picks (within p) n) := by
    refine (List.perm_ext_iff_of_nodup hn (List.nodup_range.filter _)).mpr fun a => ?_
    rw [List.mem_filter, List.mem_range]
    simp only [within, decide_eq_true_eq]
    exact ⟨fun h => ⟨h2 a h, h⟩, fun h => h.2⟩
  exact List.Perm.eq_of_pairwise (fun a b _ _ h h' => absurd h (Nat.lt_asymm h')) h1 (List.pairwise_lt_range.filter _) hperm

/-- **C62**, exactly, for all lists: returned are those increasing lists of indices with the smaller sum of an optimal partition
that start with a positive number. -/
theorem C62_exact (h : Npp.solve numbers true = .ok (some (flag, ps, qs))) (p : List Nat) :
    p ∈ ps ↔ p.Pairwise (· < ·) ∧ (∀ i ∈ p, i < numbers.length) ∧
      sideSum numbers (within p) ≤ sideSum numbers (fun i => !within p i) ∧
      (∀ side, difference numbers (within p) ≤ difference numbers side) ∧
      ∃ i a, p.head? = some i ∧ numbers[i]? = some a ∧ 0 < a := by
  obtain ⟨b, fl, h1, ⟨sb, h2⟩, h3, _, h5⟩ := solveWith_spec extendAll id numbers
  have h' := h
  unfold Npp.solve at h'
  rw [if_pos rfl, h5] at h'
  cases h'
  constructor
  · intro hp
    obtain ⟨g1, g2⟩ := C62_sound h
    obtain ⟨q1, q2, q3, q4⟩ := g2 p hp
    obtain ⟨_, _, i, r, rfl, hi⟩ := (cellAll_iff b numbers.length p).mp hp
    refine ⟨q1, q2, q3, q4, i, num numbers i, rfl, ?_, hi⟩
    have := q2 i (List.mem_cons_self ..)
    simp [num, List.getElem?_eq_getElem this]
  · rintro ⟨q1, q2, q3, q4, i, a, hi, ha, hpos⟩
    have hpk := picks_within q1 q2
    refine (cellAll_iff b numbers.length p).mpr ⟨⟨_, hpk⟩, ?_, ?_⟩
    · have e : sumAt numbers p = sideSum numbers (within p) := by rw [sideSum_eq, ← hpk]
      rw [e]
      have t1 := sideSum_add numbers (within p)
      have t2 := h3 (within p) (by rw [← hpk, e]; omega)
      rw [← hpk, e] at t2
      have t3 := q4 sb
      have t4 := sideSum_add numbers sb
      rw [← sideSum_eq] at h2
      unfold difference at t3
      omega
    · cases p with
      | nil => cases hi
      | cons k r =>
        simp only [List.head?_cons, Option.some.injEq] at hi
        exact ⟨k, r, rfl, by rw [num, hi, ha]; exact hpos⟩

/-- Zeros after the first positive number are enumerated, zeros before it are not. -/
example : Npp.solve [0, 2, 0, 2] true = .ok (some (true, [[1, 2], [1], [3]], [[0, 3], [0, 2, 3], [0, 1, 2]])) := by decide +kernel

/-- A single positive number has the optimal smaller part `[]`, which is not returned. -/
theorem C62_single_refuted : Npp.solve [5] true = .ok (some (false, [], [])) := by decide +kernel

/-- With a zero among the numbers optimal parts are missing: `[0, 1]` and `[0, 2]` here. -/
theorem C62_zero_refuted : Npp.solve [0, 2, 2] true = .ok (some (true, [[1], [2]], [[0, 2], [0, 1]])) ∧
    ∀ other, difference [0, 2, 2] (within [0, 1]) ≤ difference [0, 2, 2] other := by
  refine ⟨by decide +kernel, fun other => ?_⟩
  rw [show difference [0, 2, 2] (within [0, 1]) = 0 by decide]
  omega

/-- **C63**: the function always returns a triple, with at least one partition without `enumerate_all`. -/
theorem C63_answers (numbers : List Nat) (all : Bool) :
    ∃ flag ps qs, Npp.solve numbers all = .ok (some (flag, ps, qs)) ∧ (all = false → ps ≠ []) := by
  obtain ⟨b, fl, ps, _, _, _, _, h5, _, _, h8, _⟩ := solve_spec numbers all
  exact ⟨fl, ps, _, h5, fun h => h8 (by simp [h])⟩

/-- **C63** with `enumerate_all`: there is a partition exactly if some part has a positive sum of at most half the total. -/
theorem C63_enumerate_partial (h : Npp.solve numbers true = .ok (some (flag, ps, qs))) :
    ps ≠ [] ↔ ∃ side, 0 < sideSum numbers side ∧ 2 * sideSum numbers side ≤ numbers.sum := by
  obtain ⟨b, fl, ps', h1, ⟨sb, h2⟩, h3, _, h5, h6, _, h8, _⟩ := solve_spec numbers true
  have h0 : b = 0 → ps' = [] := by
    intro hb
    obtain ⟨b', _, _, ⟨s', g2⟩, g3, _, g5⟩ := solveWith_spec extendAll id numbers
    have hb' : b' = 0 := by
      rw [← sideSum_eq] at g2
      have := h3 s' (by omega)
      omega
    rw [show Npp.solve numbers true = solveWith extendAll id numbers from rfl, g5, hb', cellAll_zero_empty] at h5
    cases h5
    rfl
  rw [h5] at h
  cases h
  constructor
  · intro hne
    refine ⟨sb, ?_, by omega⟩
    rw [h2]
    exact Nat.pos_of_ne_zero fun hb => hne (h0 hb)
  · rintro ⟨side, g1, g2⟩
    have := h3 side (by omega)
    exact h8 fun _ => by omega

/-- With `enumerate_all` there may be no partition: no numbers, or one. -/
theorem C63_none_refuted : Npp.solve [] true = .ok (some (true, [], [])) ∧ Npp.solve [5] true = .ok (some (false, [], [])) :=
  ⟨by decide +kernel, by decide +kernel⟩

example : Npp.solve [3, 1, 1, 2, 2] true = .ok (some (false, [[1, 2, 4], [3, 4], [1, 2, 3], [0, 2], [0, 1]],
      [[0, 3], [0, 1, 2], [0, 4], [1, 3, 4], [2, 3, 4]])) ∧
    Npp.solve [3, 1, 1, 2, 2] false = .ok (some (false, [[3, 4]], [[0, 1, 2]])) ∧
    Npp.solve [3, 1, 2] true = .ok (some (true, [[1, 2], [0]], [[0], [1, 2]])) :=
  ⟨by decide +kernel, by decide +kernel, by decide +kernel⟩

end Sawatabi.Props
