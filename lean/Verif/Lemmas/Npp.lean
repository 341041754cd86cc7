import Verif.Model.Npp
import Verif.Lemmas.Sweeps
import Verif.Props.SolverArgs

/-!
# The table of the number partitioning
-/

namespace Sawatabi.Npp

variable {α : Type} {extend : Nat → Nat → Nat → List α → List α → List α} {numbers : List Nat} {s n : Nat}

/-- The number at an index. -/
def num (numbers : List Nat) (i : Nat) : Nat := numbers[i]?.getD 0

/-- The final content of the cell in row `i` and column `j`. -/
def cell (extend : Nat → Nat → Nat → List α → List α → List α) (numbers : List Nat) (i : Nat) : Nat → Cell α
  | 0 => if i = 0 then (some true, []) else (some false, [])
  | j + 1 =>
    if i = 0 then (some true, [])
    else
      if num numbers j ≤ i ∧ (cell extend numbers (i - num numbers j) j).1 = some true then
        (some true, extend i (num numbers j) (j + 1) (cell extend numbers i j).2 (cell extend numbers (i - num numbers j) j).2)
      else cell extend numbers i j

theorem cell_zero (j : Nat) : cell extend numbers 0 j = (some true, []) := by
  cases j <;> simp [cell]

/-- The table has `s + 1` rows of `n + 1` cells with the contents `f`. -/
structure Tab (dp : Table α) (s n : Nat) (f : Nat → Nat → Cell α) : Prop where
  rows : dp.length = s + 1
  row : ∀ i, i ≤ s → ∃ r, dp[i]? = some r ∧ r.length = n + 1 ∧ ∀ j, j ≤ n → r[j]? = some (f i j)

theorem Tab.read {dp : Table α} {f : Nat → Nat → Cell α} (h : Tab dp s n f) {i j : Nat} (hi : i ≤ s) (hj : j ≤ n) :
    Npp.read dp i j = .ok (f i j) := by
  obtain ⟨r, h1, _, h3⟩ := h.row i hi
  unfold Npp.read
  rw [listGet_ok.mpr h1, Except.bind_ok]
  exact listGet_ok.mpr (h3 j hj)

/-- `f` with another value at `(i, j)`. -/
def upd (f : Nat → Nat → Cell α) (i j : Nat) (c : Cell α) : Nat → Nat → Cell α :=
  fun a b => if a = i ∧ b = j then c else f a b

theorem Tab.write {dp : Table α} {f : Nat → Nat → Cell α} (h : Tab dp s n f) {i j : Nat} (c : Cell α) (hi : i ≤ s) (hj : j ≤ n) :
    ∃ dp', Npp.write dp i j c = .ok dp' ∧ Tab dp' s n (upd f i j c) := by
  obtain ⟨r, h1, h2, h3⟩ := h.row i hi
  refine ⟨dp.set i (r.set j c), ?_, ?_, ?_⟩
  · unfold Npp.write
    rw [listGet_ok.mpr h1, Except.bind_ok, listSet_ok.mpr ⟨by omega, rfl⟩, Except.bind_ok]
    exact listSet_ok.mpr ⟨by rw [h.rows]; omega, rfl⟩
  · rw [List.length_set]; exact h.rows
  · intro a ha
    by_cases hai : a = i
    · subst hai
      refine ⟨r.set j c, by rw [List.getElem?_set_self (by rw [h.rows]; omega)], by rw [List.length_set]; exact h2, fun b hb => ?_⟩
      unfold upd
      by_cases hbj : b = j
      · subst hbj
        rw [List.getElem?_set_self (by omega)]; simp
      · rw [List.getElem?_set_ne (by omega), h3 b hb]; simp [hbj]
    · obtain ⟨r', g1, g2, g3⟩ := h.row a ha
      refine ⟨r', by rw [List.getElem?_set_ne (by omega)]; exact g1, g2, fun b hb => ?_⟩
      unfold upd
      rw [g3 b hb]; simp [hai]

theorem initial_tab : ∃ dp : Table α, initial s n = .ok dp ∧ ∃ f, Tab dp s n f ∧ (∀ j, j ≤ n → f 0 j = (some true, [])) ∧
    ∀ i, 1 ≤ i → i ≤ s → f i 0 = (some false, []) := by
  have h0 : Tab (List.replicate (s + 1) (List.replicate (n + 1) ((none, []) : Cell α))) s n (fun _ _ => (none, [])) := by
    refine ⟨by simp, fun i hi => ⟨List.replicate (n + 1) (none, []), ?_, by simp, fun j hj => ?_⟩⟩
    · rw [List.getElem?_replicate]; simp; omega
    · rw [List.getElem?_replicate]; simp; omega
  have h1 : ∀ k, k ≤ n + 1 → ∃ dp : Table α, (List.range k).foldlM (fun dp j => write dp 0 j (some true, []))
      (List.replicate (s + 1) (List.replicate (n + 1) ((none, []) : Cell α))) = .ok dp ∧
      ∃ f, Tab dp s n f ∧ ∀ j, j < k → f 0 j = (some true, []) := by
    intro k
    induction k with
    | zero => intro _; exact ⟨_, rfl, _, h0, by omega⟩
    | succ k ih =>
      intro hk
      obtain ⟨dp, e, f, ht, hf⟩ := ih (by omega)
      obtain ⟨dp', e', ht'⟩ := ht.write (some true, []) (i := 0) (j := k) (by omega) (by omega)
      refine ⟨dp', by rw [foldlM_range_succ, e]; exact e', _, ht', fun j hj => ?_⟩
      unfold upd
      by_cases hjk : j = k
      · simp [hjk]
      · simp [hjk]; exact hf j (by omega)
  obtain ⟨dp1, e1, f1, ht1, hf1⟩ := h1 (n + 1) (le_refl _)
  have h2 : ∀ k, k ≤ s → ∃ dp : Table α, (List.range k).foldlM (fun dp i => write dp (i + 1) 0 (some false, [])) dp1 = .ok dp ∧
      ∃ f, Tab dp s n f ∧ (∀ j, j ≤ n → f 0 j = (some true, [])) ∧ ∀ i, 1 ≤ i → i ≤ k → f i 0 = (some false, []) := by
    intro k
    induction k with
    | zero => intro _; exact ⟨_, rfl, _, ht1, fun j hj => hf1 j (by omega), by omega⟩
    | succ k ih =>
      intro hk
      obtain ⟨dp, e, f, ht, hf, hg⟩ := ih (by omega)
      obtain ⟨dp', e', ht'⟩ := ht.write (some false, []) (i := k + 1) (j := 0) (by omega) (by omega)
      refine ⟨dp', by rw [foldlM_range_succ, e]; exact e', _, ht', fun j hj => ?_, fun i h1 h2 => ?_⟩
      · simp [upd]; exact hf j hj
      · unfold upd
        by_cases hik : i = k + 1
        · simp [hik]
        · simp [hik]; exact hg i h1 (by omega)
  obtain ⟨dp2, e2, f2, ht2, hf2, hg2⟩ := h2 s (le_refl _)
  refine ⟨dp2, ?_, f2, ht2, hf2, hg2⟩
  unfold initial
  exact bind_eq_ok.mpr ⟨_, e1, e2⟩

/-- Row `i` is final up to column `j`, the rows above are final, and so is the first column. -/
def Done (extend : Nat → Nat → Nat → List α → List α → List α) (numbers : List Nat) (s n : Nat) (f : Nat → Nat → Cell α)
    (i j : Nat) : Prop :=
  ∀ a b, a ≤ s → b ≤ n → (a < i ∨ (a = i ∧ b ≤ j) ∨ b = 0) → f a b = cell extend numbers a b

theorem step_tab {dp : Table α} {f : Nat → Nat → Cell α} {i j : Nat} (hn : numbers.length = n) (h : Tab dp s n f)
    (hd : Done extend numbers s n f (i + 1) j) (hi : i + 1 ≤ s) (hj : j + 1 ≤ n) :
    ∃ dp', step extend numbers dp (i + 1) (j + 1) = .ok dp' ∧ ∃ f', Tab dp' s n f' ∧ Done extend numbers s n f' (i + 1) (j + 1) := by
  have hnum : listGet numbers j = .ok (num numbers j) := by
    rw [listGet_ok, num, List.getElem?_eq_getElem (by omega)]; rfl
  have hleft : f (i + 1) j = cell extend numbers (i + 1) j := hd _ _ hi (by omega) (.inr (.inl ⟨rfl, le_refl _⟩))
  obtain ⟨dp1, e1, t1⟩ := h.write (f (i + 1) j) hi hj
  -- any table that differs from `f` in this cell only, by the final content, is a result
  have hdone : ∀ f' : Nat → Nat → Cell α, f' (i + 1) (j + 1) = cell extend numbers (i + 1) (j + 1) →
      (∀ a b, ¬ (a = i + 1 ∧ b = j + 1) → f' a b = f a b) → Done extend numbers s n f' (i + 1) (j + 1) := by
    intro f' h1 h2 a b ha hb hab
    by_cases hc : a = i + 1 ∧ b = j + 1
    · rw [hc.1, hc.2]; exact h1
    · rw [h2 a b hc]
      apply hd a b ha hb
      omega
  unfold step
  rw [show j + 1 - 1 = j by omega, h.read hi (by omega), Except.bind_ok, e1, Except.bind_ok, hnum, Except.bind_ok]
  by_cases hc : num numbers j ≤ i + 1
  · have hsub : upd f (i + 1) (j + 1) (f (i + 1) j) (i + 1 - num numbers j) j = cell extend numbers (i + 1 - num numbers j) j := by
      unfold upd
      rw [if_neg (by omega)]
      apply hd _ _ (by omega) (by omega)
      by_cases h0 : num numbers j = 0
      · right; left; omega
      · left; omega
    rw [if_pos hc, t1.read (i := i + 1 - num numbers j) (j := j) (by omega) (by omega), Except.bind_ok, hsub]
    by_cases hs : (cell extend numbers (i + 1 - num numbers j) j).1 = some true
    · rw [if_pos hs, t1.read hi hj, Except.bind_ok]
      obtain ⟨dp2, e2, t2⟩ := t1.write (some true, extend (i + 1) (num numbers j) (j + 1)
        (upd f (i + 1) (j + 1) (f (i + 1) j) (i + 1) (j + 1)).2 (cell extend numbers (i + 1 - num numbers j) j).2) hi hj
      refine ⟨dp2, e2, _, t2, hdone _ ?_ ?_⟩
      · simp only [upd, and_self, if_true]
        rw [hleft, cell, if_neg (by omega), if_pos ⟨hc, hs⟩]
      · intro a b hab
        simp only [upd, if_neg hab]
    · rw [if_neg hs]
      refine ⟨dp1, rfl, _, t1, hdone _ ?_ ?_⟩
      · simp only [upd, and_self, if_true]
        rw [hleft, cell, if_neg (by omega), if_neg (fun h => hs h.2)]
      · intro a b hab
        simp only [upd, if_neg hab]
  · rw [if_neg hc]
    refine ⟨dp1, rfl, _, t1, hdone _ ?_ ?_⟩
    · simp only [upd, and_self, if_true]
      rw [hleft, cell, if_neg (by omega), if_neg (fun h => hc h.1)]
    · intro a b hab
      simp only [upd, if_neg hab]

/-- The whole table gets its final contents. -/
theorem table (extend : Nat → Nat → Nat → List α → List α → List α) (numbers : List Nat) (s : Nat) :
    ∃ dp0 dp : Table α, initial s numbers.length = .ok dp0 ∧ fill extend numbers s numbers.length dp0 = .ok dp ∧
      ∀ i j, i ≤ s → j ≤ numbers.length → read dp i j = .ok (cell extend numbers i j) := by
  obtain ⟨dp0, e0, f0, t0, h0, h0'⟩ := initial_tab (α := α) (s := s) (n := numbers.length)
  have hd0 : Done extend numbers s numbers.length f0 0 numbers.length := by
    intro a b ha hb hab
    by_cases ha0 : a = 0
    · subst ha0; rw [h0 b hb, cell_zero]
    · obtain rfl : b = 0 := by omega
      rw [h0' a (by omega) ha, cell, if_neg ha0]
  have hinner : ∀ (i : Nat) (dp : Table α) f, i + 1 ≤ s → Tab dp s numbers.length f →
      Done extend numbers s numbers.length f i numbers.length → ∀ k, k ≤ numbers.length →
      ∃ dp', (List.range k).foldlM (fun dp j => step extend numbers dp (i + 1) (j + 1)) dp = .ok dp' ∧
        ∃ f', Tab dp' s numbers.length f' ∧ Done extend numbers s numbers.length f' (i + 1) k := by
    intro i dp f hi ht hd k
    induction k with
    | zero =>
      intro _
      refine ⟨dp, rfl, f, ht, fun a b ha hb hab => hd a b ha hb (by omega)⟩
    | succ k ih =>
      intro hk
      obtain ⟨dp1, e1, f1, t1, d1⟩ := ih (by omega)
      obtain ⟨dp2, e2, f2, t2, d2⟩ := step_tab rfl t1 d1 hi hk
      exact ⟨dp2, by rw [foldlM_range_succ, e1]; exact e2, f2, t2, d2⟩
  have houter : ∀ k, k ≤ s → ∃ dp', (List.range k).foldlM (fun dp i =>
      (List.range numbers.length).foldlM (fun dp j => step extend numbers dp (i + 1) (j + 1)) dp) dp0 = .ok dp' ∧
      ∃ f', Tab dp' s numbers.length f' ∧ Done extend numbers s numbers.length f' k numbers.length := by
    intro k
    induction k with
    | zero => intro _; exact ⟨dp0, rfl, f0, t0, hd0⟩
    | succ k ih =>
      intro hk
      obtain ⟨dp1, e1, f1, t1, d1⟩ := ih (by omega)
      obtain ⟨dp2, e2, f2, t2, d2⟩ := hinner k dp1 f1 hk t1 d1 _ (le_refl _)
      exact ⟨dp2, by rw [foldlM_range_succ, e1]; exact e2, f2, t2, d2⟩
  obtain ⟨dp, e, f, ht, hd⟩ := houter s (le_refl _)
  refine ⟨dp0, dp, e0, e, fun i j hi hj => ?_⟩
  rw [ht.read hi hj, hd i j hi hj (by omega)]

/-! ## What the cells mean -/

/-- The indices below `j` on the chosen side. -/
def picks (side : Nat → Bool) (j : Nat) : List Nat := (List.range j).filter side

/-- The sum of the numbers at some indices. -/
def sumAt (numbers : List Nat) (p : List Nat) : Nat := (p.map (num numbers)).sum

theorem picks_succ (side : Nat → Bool) (j : Nat) : picks side (j + 1) = picks side j ++ if side j then [j] else [] := by
  unfold picks
  rw [List.range_succ, List.filter_append]
  cases h : side j <;> simp [h]

theorem picks_congr {f g : Nat → Bool} {j : Nat} (h : ∀ k, k < j → f k = g k) : picks f j = picks g j := by
  unfold picks
  apply List.filter_congr
  intro k hk
  exact h k (List.mem_range.mp hk)

theorem sumAt_append (p q : List Nat) : sumAt numbers (p ++ q) = sumAt numbers p + sumAt numbers q := by
  simp [sumAt]

theorem le_sumAt {p : List Nat} {k : Nat} (h : k ∈ p) : num numbers k ≤ sumAt numbers p := by
  induction p with
  | nil => cases h
  | cons a p ih =>
    have ha : sumAt numbers (a :: p) = num numbers a + sumAt numbers p := by simp [sumAt]
    rcases List.mem_cons.mp h with rfl | h
    · omega
    · have := ih h; omega

theorem mem_picks {side : Nat → Bool} {j k : Nat} : k ∈ picks side j ↔ k < j ∧ side k = true := by
  simp [picks]

/-- The side with `j` as well, or without. -/
def setSide (side : Nat → Bool) (j : Nat) (b : Bool) : Nat → Bool := fun k => if k = j then b else side k

theorem picks_setSide (side : Nat → Bool) (j : Nat) (b : Bool) :
    picks (setSide side j b) (j + 1) = picks side j ++ if b then [j] else [] := by
  rw [picks_succ, picks_congr (g := side) (fun k hk => by simp [setSide]; omega)]
  simp [setSide]

theorem cell_flag (i j : Nat) : (cell extend numbers i j).1 = some true ↔ ∃ side, sumAt numbers (picks side j) = i := by
  induction j generalizing i with
  | zero =>
    by_cases hi : i = 0
    · subst hi; rw [cell_zero]; simp [picks, sumAt]
    · simp only [cell, hi, if_false]
      simp [picks, sumAt]; omega
  | succ j ih =>
    by_cases hi : i = 0
    · subst hi
      rw [cell_zero]
      refine ⟨fun _ => ⟨fun _ => false, by simp [picks, sumAt]⟩, fun _ => rfl⟩
    · rw [cell, if_neg hi]
      by_cases hc : num numbers j ≤ i ∧ (cell extend numbers (i - num numbers j) j).1 = some true
      · rw [if_pos hc]
        obtain ⟨side, hs⟩ := (ih _).mp hc.2
        refine ⟨fun _ => ⟨setSide side j true, ?_⟩, fun _ => rfl⟩
        rw [picks_setSide, sumAt_append, hs]
        simp [sumAt]; omega
      · rw [if_neg hc, ih]
        constructor
        · rintro ⟨side, hs⟩
          refine ⟨setSide side j false, ?_⟩
          rw [picks_setSide, sumAt_append, hs]; simp [sumAt]
        · rintro ⟨side, hs⟩
          rw [picks_succ, sumAt_append] at hs
          cases hb : side j with
          | false => exact ⟨side, by rw [hb] at hs; simpa [sumAt] using hs⟩
          | true =>
            rw [hb] at hs
            simp only [if_true, sumAt, List.map_cons, List.map_nil, List.sum_cons, List.sum_nil, Nat.add_zero] at hs
            exact absurd ⟨by omega, (ih _).mpr ⟨side, by unfold sumAt; omega⟩⟩ hc

theorem extend_pick {p : List Nat} {side : Nat → Bool} {i j : Nat} (hp : p = picks side j) (hs : sumAt numbers p = i - num numbers j)
    (hi : num numbers j ≤ i) :
    ∃ side', p ++ [j] = picks side' (j + 1) ∧ sumAt numbers (p ++ [j]) = i := by
  refine ⟨setSide side j true, ?_, ?_⟩
  · rw [picks_setSide, hp]; rfl
  · rw [sumAt_append, hs]; simp [sumAt]; omega

/-- One solution: the indices in the cell have the sum of the row. -/
theorem cellOne_sound {i j : Nat} (h : (cell extendOne numbers i j).1 = some true) :
    ∃ side, (cell extendOne numbers i j).2 = picks side j ∧ sumAt numbers (cell extendOne numbers i j).2 = i := by
  induction j generalizing i with
  | zero =>
    by_cases hi : i = 0
    · subst hi; rw [cell_zero]; exact ⟨fun _ => false, by simp [picks], rfl⟩
    · simp only [cell, hi, if_false] at h; cases h
  | succ j ih =>
    by_cases hi : i = 0
    · subst hi; rw [cell_zero]; exact ⟨fun _ => false, by simp [picks], rfl⟩
    · rw [cell, if_neg hi] at h ⊢
      by_cases hc : num numbers j ≤ i ∧ (cell extendOne numbers (i - num numbers j) j).1 = some true
      · rw [if_pos hc]
        obtain ⟨side, h1, h2⟩ := ih hc.2
        exact extend_pick h1 h2 hc.1
      · rw [if_neg hc] at h ⊢
        obtain ⟨side, h1, h2⟩ := ih h
        exact ⟨setSide side j false, by rw [picks_setSide, h1]; simp, h2⟩

theorem extendAll_mem {i c j : Nat} {left sub : List (List Nat)} {p : List Nat} :
    p ∈ extendAll i c (j + 1) left sub ↔ p ∈ left ∨ if i = c then p = [j] else ∃ q ∈ sub, p = q ++ [j] := by
  unfold extendAll
  by_cases hic : i = c
  · simp [hic]
  · simp only [hic, if_false, Nat.add_sub_cancel]
    cases left with
    | nil => simp [eq_comm]
    | cons l left =>
      simp only [List.length_cons, ne_eq, Nat.add_eq_zero_iff, one_ne_zero, and_false, not_false_eq_true, if_true,
        List.mem_append, List.mem_map]
      constructor
      · rintro (⟨q, hq, rfl⟩ | h)
        · exact .inr ⟨q, hq, rfl⟩
        · exact .inl h
      · rintro (h | ⟨q, hq, rfl⟩)
        · exact .inr h
        · exact .inl ⟨q, hq, rfl⟩

theorem cellAll_zero_empty (j : Nat) : (cell extendAll numbers 0 j).2 = [] := by rw [cell_zero]

/-- All solutions: each has the sum of the row, and none occurs twice. -/
theorem cellAll_sound (i j : Nat) : (∀ p ∈ (cell extendAll numbers i j).2, ∃ side, p = picks side j ∧ sumAt numbers p = i) ∧
    (cell extendAll numbers i j).2.Nodup := by
  induction j generalizing i with
  | zero =>
    by_cases hi : i = 0 <;> simp [cell, hi]
  | succ j ih =>
    by_cases hi : i = 0
    · subst hi; rw [cell_zero]; simp
    · rw [cell, if_neg hi]
      have hleft : ∀ p ∈ (cell extendAll numbers i j).2, j ∉ p := by
        intro p hp hj
        obtain ⟨side, rfl, _⟩ := (ih i).1 p hp
        exact absurd (mem_picks.mp hj).1 (by omega)
      have hkeep : ∀ p ∈ (cell extendAll numbers i j).2, ∃ side, p = picks side (j + 1) ∧ sumAt numbers p = i := by
        intro p hp
        obtain ⟨side, h1, h2⟩ := (ih i).1 p hp
        exact ⟨setSide side j false, by rw [picks_setSide, h1]; simp, h2⟩
      by_cases hc : num numbers j ≤ i ∧ (cell extendAll numbers (i - num numbers j) j).1 = some true
      · rw [if_pos hc]
        constructor
        · intro p hp
          rcases extendAll_mem.mp hp with h | h
          · exact hkeep p h
          · by_cases hic : i = num numbers j
            · rw [if_pos hic] at h
              obtain ⟨side, h1, h2⟩ := extend_pick (numbers := numbers) (p := []) (side := fun _ => false) (i := i) (j := j)
                (by simp [picks]) (by simp [sumAt]; omega) hc.1
              rw [h]
              exact ⟨side, h1, h2⟩
            · rw [if_neg hic] at h
              obtain ⟨q, hq, rfl⟩ := h
              obtain ⟨side, h1, h2⟩ := (ih _).1 q hq
              exact extend_pick h1 h2 hc.1
        · simp only [extendAll]
          by_cases hic : i = num numbers j
          · rw [if_pos hic, List.nodup_append]
            refine ⟨(ih i).2, by simp, fun p hp q hq => ?_⟩
            simp only [Nat.add_sub_cancel, List.mem_singleton] at hq
            rintro rfl
            subst hq
            exact hleft _ hp (by simp)
          · rw [if_neg hic]
            have hnew : ((cell extendAll numbers (i - num numbers j) j).2.map fun prev => prev ++ [j + 1 - 1]).Nodup :=
              (ih _).2.map fun a b h => List.append_cancel_right h
            split
            · rw [List.nodup_append]
              refine ⟨hnew, (ih i).2, fun p hp q hq => ?_⟩
              obtain ⟨r, _, rfl⟩ := List.mem_map.mp hp
              rintro rfl
              exact hleft _ hq (by simp)
            · exact hnew
      · rw [if_neg hc]
        exact ⟨hkeep, (ih i).2⟩

/-- All solutions of a positive sum are found if the numbers are positive. -/
theorem cellAll_complete {side : Nat → Bool} {i j : Nat} (hpos : ∀ k, k < j → 0 < num numbers k) (hi : 0 < i)
    (hs : sumAt numbers (picks side j) = i) : picks side j ∈ (cell extendAll numbers i j).2 := by
  induction j generalizing i with
  | zero => simp [picks, sumAt] at hs; omega
  | succ j ih =>
    rw [cell, if_neg (by omega)]
    rw [picks_succ, sumAt_append] at hs
    cases hb : side j with
    | false =>
      rw [picks_succ, hb]
      rw [hb] at hs
      have hm := ih (fun k hk => hpos k (by omega)) hi (by simpa [sumAt] using hs)
      simp only [Bool.false_eq_true, if_false, List.append_nil]
      split
      · exact extendAll_mem.mpr (.inl hm)
      · exact hm
    | true =>
      rw [picks_succ, hb]
      rw [hb] at hs
      simp only [if_true] at hs ⊢
      have h1 : sumAt numbers [j] = num numbers j := by simp [sumAt]
      rw [h1] at hs
      have hc : num numbers j ≤ i ∧ (cell extendAll numbers (i - num numbers j) j).1 = some true :=
        ⟨by omega, (cell_flag _ _).mpr ⟨side, by omega⟩⟩
      rw [if_pos hc, extendAll_mem]
      right
      by_cases hic : i = num numbers j
      · rw [if_pos hic]
        have h0 : sumAt numbers (picks side j) = 0 := by omega
        have hnil : picks side j = [] := by
          rw [List.eq_nil_iff_forall_not_mem]
          intro k hk
          have hle : num numbers k ≤ sumAt numbers (picks side j) := le_sumAt hk
          have := hpos k (by have := (mem_picks.mp hk).1; omega)
          omega
        rw [hnil]; rfl
      · rw [if_neg hic]
        exact ⟨_, ih (fun k hk => hpos k (by omega)) (by omega) (by omega), rfl⟩

/-- A list of indices whose first number is positive. -/
def LeadPos (numbers : List Nat) (p : List Nat) : Prop := ∃ k r, p = k :: r ∧ 0 < num numbers k

theorem LeadPos.sum {p : List Nat} (h : LeadPos numbers p) : 0 < sumAt numbers p := by
  obtain ⟨k, r, rfl, hk⟩ := h
  exact hk.trans_le (le_sumAt (List.mem_cons_self ..))

/-- The solutions in a cell, exactly: those that start with a positive number. -/
theorem cellAll_iff (i j : Nat) (p : List Nat) : p ∈ (cell extendAll numbers i j).2 ↔
    (∃ side, p = picks side j) ∧ sumAt numbers p = i ∧ LeadPos numbers p := by
  induction j generalizing i p with
  | zero =>
    constructor
    · by_cases hi : i = 0 <;> simp [cell, hi]
    · rintro ⟨⟨side, rfl⟩, _, k, r, h, _⟩
      simp [picks] at h
  | succ j ih =>
    by_cases hi : i = 0
    · subst hi
      rw [cell_zero]
      constructor
      · simp
      · rintro ⟨_, h, hl⟩
        exact absurd hl.sum (by omega)
    · rw [cell, if_neg hi]
      have hkeep : p ∈ (cell extendAll numbers i j).2 →
          (∃ side, p = picks side (j + 1)) ∧ sumAt numbers p = i ∧ LeadPos numbers p := by
        intro hp
        obtain ⟨⟨side, h1⟩, h2⟩ := (ih i p).mp hp
        exact ⟨⟨setSide side j false, by rw [picks_setSide, h1]; simp⟩, h2⟩
      have hj1 : sumAt numbers [j] = num numbers j := by simp [sumAt]
      constructor
      · split
        · rename_i hc
          intro hp
          rcases extendAll_mem.mp hp with h | h
          · exact hkeep h
          · split at h
            · rename_i hic
              subst h
              exact ⟨⟨setSide (fun _ => false) j true, by rw [picks_setSide]; simp [picks]⟩, by rw [hj1, hic], j, [], rfl, by omega⟩
            · obtain ⟨q, hq, rfl⟩ := h
              obtain ⟨⟨side, h1⟩, h2, k, r, h3, h4⟩ := (ih _ q).mp hq
              refine ⟨⟨setSide side j true, by rw [picks_setSide, h1]; simp⟩, ?_, k, r ++ [j], by rw [h3]; rfl, h4⟩
              rw [sumAt_append, h2, hj1]
              omega
        · exact hkeep
      · rintro ⟨⟨side, hp⟩, hs, hl⟩
        rw [picks_succ] at hp
        cases hb : side j with
        | false =>
          rw [hb] at hp
          simp only [Bool.false_eq_true, if_false, List.append_nil] at hp
          have hm := (ih i p).mpr ⟨⟨side, hp⟩, hs, hl⟩
          split
          · exact extendAll_mem.mpr (.inl hm)
          · exact hm
        | true =>
          rw [hb] at hp
          simp only [if_true] at hp
          have hsum := hs
          rw [hp, sumAt_append, hj1] at hsum
          have hc : num numbers j ≤ i ∧ (cell extendAll numbers (i - num numbers j) j).1 = some true :=
            ⟨by omega, (cell_flag _ _).mpr ⟨side, by omega⟩⟩
          rw [if_pos hc, extendAll_mem]
          right
          rcases hq : picks side j with _ | ⟨k, r⟩
          · rw [hq] at hp hsum
            rw [if_pos (by simp [sumAt] at hsum; omega), hp]
            rfl
          · have hlead : LeadPos numbers (picks side j) := by
              obtain ⟨k', r', h3, h4⟩ := hl
              rw [hp, hq] at h3
              injection h3 with h3 _
              exact ⟨k, r, hq, h3 ▸ h4⟩
            have := hlead.sum
            rw [if_neg (by omega)]
            exact ⟨_, (ih _ _).mpr ⟨⟨side, rfl⟩, by omega, hlead⟩, hp⟩

/-- A reachable positive sum has a solution. -/
theorem cellAll_nonempty {i j : Nat} (hi : 0 < i) (h : (cell extendAll numbers i j).1 = some true) :
    (cell extendAll numbers i j).2 ≠ [] := by
  induction j generalizing i with
  | zero => simp only [cell, if_neg (show ¬ i = 0 by omega)] at h; cases h
  | succ j ih =>
    rw [cell, if_neg (by omega)] at h ⊢
    by_cases hc : num numbers j ≤ i ∧ (cell extendAll numbers (i - num numbers j) j).1 = some true
    · rw [if_pos hc]
      intro hnil
      by_cases hic : i = num numbers j
      · have : [j] ∈ extendAll i (num numbers j) (j + 1) (cell extendAll numbers i j).2
            (cell extendAll numbers (i - num numbers j) j).2 := extendAll_mem.mpr (.inr (by rw [if_pos hic]))
        simp only at hnil
        rw [hnil] at this; cases this
      · obtain ⟨q, hq⟩ := List.exists_mem_of_ne_nil _ (ih (by omega) hc.2)
        have : q ++ [j] ∈ extendAll i (num numbers j) (j + 1) (cell extendAll numbers i j).2
            (cell extendAll numbers (i - num numbers j) j).2 := extendAll_mem.mpr (.inr (by rw [if_neg hic]; exact ⟨q, hq, rfl⟩))
        simp only at hnil
        rw [hnil] at this; cases this
    · rw [if_neg hc] at h ⊢
      exact ih hi h

/-! ## The answer -/

theorem search_spec {dp : Table α} {wrap : List α → List (List Nat)} (g : Nat → Cell α) (k : Nat)
    (hr : ∀ i, i ≤ k → read dp i n = .ok (g i)) (h0 : (g 0).1 = some true) :
    ∃ b, b ≤ k ∧ (g b).1 = some true ∧ (∀ i, i ≤ k → (g i).1 = some true → i ≤ b) ∧
      search wrap dp n (k + 1) = .ok (some (false, wrap (g b).2, (wrap (g b).2).map (theOther n))) := by
  induction k with
  | zero =>
    refine ⟨0, le_refl _, h0, fun i hi _ => hi, ?_⟩
    simp only [search]
    rw [hr 0 (le_refl _), Except.bind_ok, if_pos h0]
    rfl
  | succ k ih =>
    by_cases hk : (g (k + 1)).1 = some true
    · refine ⟨k + 1, le_refl _, hk, fun i hi _ => hi, ?_⟩
      rw [search, hr _ (le_refl _), Except.bind_ok, if_pos hk]
      rfl
    · obtain ⟨b, h1, h2, h3, h4⟩ := ih (fun i hi => hr i (by omega))
      refine ⟨b, by omega, h2, fun i hi hg => ?_, ?_⟩
      · by_cases hik : i = k + 1
        · subst hik; exact absurd hg hk
        · exact h3 i (by omega) hg
      · rw [search, hr _ (le_refl _), Except.bind_ok, if_neg hk]
        exact h4

/-- Both modes: the answer is the cell of the largest reachable sum up to half the total. -/
theorem solveWith_spec (extend : Nat → Nat → Nat → List α → List α → List α) (wrap : List α → List (List Nat)) (numbers : List Nat) :
    ∃ b flag, b ≤ numbers.sum / 2 ∧ (∃ side, sumAt numbers (picks side numbers.length) = b) ∧
      (∀ side, sumAt numbers (picks side numbers.length) ≤ numbers.sum / 2 → sumAt numbers (picks side numbers.length) ≤ b) ∧
      (flag = true ↔ 2 * b = numbers.sum) ∧
      solveWith extend wrap numbers = .ok (some (flag, wrap (cell extend numbers b numbers.length).2,
        (wrap (cell extend numbers b numbers.length).2).map (theOther numbers.length))) := by
  obtain ⟨dp0, dp, e0, e1, hr⟩ := table extend numbers (numbers.sum / 2)
  obtain ⟨b, h1, h2, h3, h4⟩ := search_spec (wrap := wrap) (fun i => cell extend numbers i numbers.length) (numbers.sum / 2)
    (fun i hi => hr i _ hi (le_refl _)) (by rw [cell_zero])
  have hmax : ∀ side, sumAt numbers (picks side numbers.length) ≤ numbers.sum / 2 →
      sumAt numbers (picks side numbers.length) ≤ b := fun side hs => h3 _ hs ((cell_flag _ _).mpr ⟨side, rfl⟩)
  unfold solveWith
  simp only [e0, e1, Except.bind_ok]
  by_cases he : numbers.sum % 2 = 0
  · rw [if_pos he, hr _ _ (le_refl _) (le_refl _), Except.bind_ok]
    by_cases hs : (cell extend numbers (numbers.sum / 2) numbers.length).1 = some true
    · obtain rfl : b = numbers.sum / 2 := by
        have := h3 _ (le_refl _) hs
        omega
      exact ⟨numbers.sum / 2, true, le_refl _, (cell_flag _ _).mp hs, hmax, by simp; omega, by rw [if_pos hs]; rfl⟩
    · have hb : b ≠ numbers.sum / 2 := by rintro rfl; exact hs h2
      exact ⟨b, false, h1, (cell_flag _ _).mp h2, hmax, by simp; omega, by rw [if_neg hs]; exact h4⟩
  · rw [if_neg he]
    exact ⟨b, false, h1, (cell_flag _ _).mp h2, hmax, by simp; omega, h4⟩

end Sawatabi.Npp
