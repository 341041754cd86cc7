import Verif.Model.NppInt
import Verif.Props.Npp

/-!
# C118: number partitioning with negative numbers
-/

namespace Sawatabi.Npp

variable {α : Type}

theorem sum_cast (l : List Nat) : (l.map (Nat.cast : Nat → Int)).sum = (l.sum : Int) := by
  induction l with
  | nil => rfl
  | cons a l ih => simp only [List.map_cons, List.sum_cons, ih]; push_cast; rfl

theorem half_cast (a : Nat) : (a : Int).tdiv 2 = ((a / 2 : Nat) : Int) := by
  rw [Int.tdiv_eq_ediv_of_nonneg (by omega)]; omega

/-- On natural numbers a step is the one of the model for natural numbers. -/
theorem stepZ_cast (extend : Nat → Nat → Nat → List α → List α → List α) (extendZ : Nat → Int → Nat → List α → List α → List α)
    (he : ∀ (i c j : Nat) l s, extendZ i (c : Int) j l s = extend i c j l s) (numbers : List Nat) (dp : Table α) (i j : Nat) :
    stepZ extendZ (numbers.map (Nat.cast : Nat → Int)) dp i j = step extend numbers dp i j := by
  unfold stepZ step
  congr 1; funext left
  congr 1; funext dp'
  have hg : listGet (numbers.map (Nat.cast : Nat → Int)) (j - 1) = (listGet numbers (j - 1)).map (Nat.cast : Nat → Int) := by
    unfold listGet
    rw [List.getElem?_map]
    cases numbers[j - 1]? <;> rfl
  rw [hg]
  cases listGet numbers (j - 1) with
  | error e => rfl
  | ok c =>
    simp only [Except.map]
    change (if (c : Int) ≤ (i : Int) then _ else _) = (if c ≤ i then _ else _)
    by_cases hc : c ≤ i
    · rw [if_pos hc, if_pos (by omega)]
      have : ((i : Int) - (c : Int)).toNat = i - c := by omega
      rw [this]
      simp only [he]
    · rw [if_neg hc, if_neg (by omega)]

theorem solveWithZ_cast (extend : Nat → Nat → Nat → List α → List α → List α) (extendZ : Nat → Int → Nat → List α → List α → List α)
    (he : ∀ (i c j : Nat) l s, extendZ i (c : Int) j l s = extend i c j l s) (wrap : List α → List (List Nat)) (numbers : List Nat) :
    solveWithZ extendZ wrap (numbers.map (Nat.cast : Nat → Int)) = solveWith extend wrap numbers := by
  have h1 : (((numbers.sum / 2 : Nat) : Int) + 1).toNat = numbers.sum / 2 + 1 := by omega
  have h2 : ((numbers.sum / 2 : Nat) : Int).toNat = numbers.sum / 2 := by omega
  have h3 : ((numbers.sum : Int) % 2 = 0) ↔ numbers.sum % 2 = 0 := by omega
  unfold solveWithZ solveWith
  simp only [sum_cast, half_cast, List.length_map, h1, h2, h3, initialZ, initial, fillZ, fill, stepZ_cast extend extendZ he]

/-- A table of `r` rows of `n + 1` cells. -/
def Shape (r n : Nat) (dp : Table α) : Prop := dp.length = r ∧ ∀ row ∈ dp, row.length = n + 1

theorem Shape.write {r n : Nat} {dp : Table α} (h : Shape r n dp) {i j : Nat} (c : Cell α) (hi : i < r) (hj : j ≤ n) :
    ∃ dp', Npp.write dp i j c = .ok dp' ∧ Shape r n dp' := by
  obtain ⟨h1, h2⟩ := h
  have hlt : i < dp.length := by omega
  have hrow := h2 dp[i] (List.getElem_mem hlt)
  refine ⟨dp.set i (dp[i].set j c), ?_, by rw [List.length_set]; exact h1, fun row hrow' => ?_⟩
  · unfold Npp.write
    rw [listGet_ok.mpr (List.getElem?_eq_getElem hlt), Except.bind_ok, listSet_ok.mpr ⟨by omega, rfl⟩, Except.bind_ok]
    exact listSet_ok.mpr ⟨hlt, rfl⟩
  · rcases List.mem_or_eq_of_mem_set hrow' with h | h
    · exact h2 _ h
    · rw [h, List.length_set]; exact hrow

theorem Shape.read {r n : Nat} {dp : Table α} (h : Shape r n dp) {i j : Nat} (hi : i < r) (hj : j ≤ n) :
    ∃ c, Npp.read dp i j = .ok c := by
  have hlt : i < dp.length := by rw [h.1]; exact hi
  have hrow := h.2 dp[i] (List.getElem_mem hlt)
  refine ⟨dp[i][j]'(by omega), ?_⟩
  unfold Npp.read
  rw [listGet_ok.mpr (List.getElem?_eq_getElem hlt), Except.bind_ok]
  exact listGet_ok.mpr (List.getElem?_eq_getElem _)

theorem Shape.read_behind {r n : Nat} {dp : Table α} (h : Shape r n dp) {i j : Nat} (hi : r ≤ i) :
    Npp.read dp i j = .error .indexError := by
  unfold Npp.read listGet
  rw [List.getElem?_eq_none (by rw [h.1]; exact hi)]
  rfl

/-- A loop whose steps keep an invariant or raise one exception, and of which one step must raise, raises it. -/
theorem foldlM_raises {β γ : Type} {I : β → Prop} {e : Err} {f : β → γ → Except Err β} {l : List γ}
    (hstep : ∀ x ∈ l, ∀ b, I b → (∃ b', f b x = .ok b' ∧ I b') ∨ f b x = .error e) {b : β} (hb : I b) {x : γ} (hx : x ∈ l)
    (hr : ∀ b, I b → f b x = .error e) : l.foldlM f b = .error e := by
  induction l generalizing b with
  | nil => cases hx
  | cons y l ih =>
    rw [List.foldlM_cons]
    rcases hstep y (by simp) b hb with ⟨b', h1, h2⟩ | h1
    · rw [h1, Except.bind_ok]
      rcases List.mem_cons.mp hx with rfl | hx
      · rw [hr b hb] at h1; cases h1
      · exact ih (fun z hz => hstep z (List.mem_cons_of_mem _ hz)) h2 hx
    · rw [h1]; rfl

/-- A loop whose steps keep an invariant or raise one exception does the same. -/
theorem foldlM_keeps {β γ : Type} {I : β → Prop} {e : Err} {f : β → γ → Except Err β} {l : List γ}
    (hstep : ∀ x ∈ l, ∀ b, I b → (∃ b', f b x = .ok b' ∧ I b') ∨ f b x = .error e) {b : β} (hb : I b) :
    (∃ b', l.foldlM f b = .ok b' ∧ I b') ∨ l.foldlM f b = .error e := by
  induction l generalizing b with
  | nil => exact .inl ⟨b, rfl, hb⟩
  | cons y l ih =>
    rw [List.foldlM_cons]
    rcases hstep y (by simp) b hb with ⟨b', h1, h2⟩ | h1
    · rw [h1, Except.bind_ok]
      exact ih (fun z hz => hstep z (List.mem_cons_of_mem _ hz)) h2
    · exact .inr (by rw [h1]; rfl)

theorem initialZ_shape {s : Nat} {n : Nat} : ∃ dp : Table α, initialZ (s : Int) n = .ok dp ∧ Shape (s + 1) n dp := by
  have h0 : Shape (s + 1) n (List.replicate (s + 1) (List.replicate (n + 1) ((none, []) : Cell α))) :=
    ⟨by simp, fun row h => by rw [(List.mem_replicate.mp h).2]; simp⟩
  have ok : ∀ {γ : Type} (l : List γ) (f : Table α → γ → Except Err (Table α)) (dp : Table α),
      (∀ x ∈ l, ∀ dp, Shape (s + 1) n dp → ∃ dp', f dp x = .ok dp' ∧ Shape (s + 1) n dp') → Shape (s + 1) n dp →
      ∃ dp', l.foldlM f dp = .ok dp' ∧ Shape (s + 1) n dp' := by
    intro γ l f
    induction l with
    | nil => intro dp _ h; exact ⟨dp, rfl, h⟩
    | cons x l ih =>
      intro dp hs h
      obtain ⟨dp', h1, h2⟩ := hs x (by simp) dp h
      rw [List.foldlM_cons, h1, Except.bind_ok]
      exact ih dp' (fun y hy => hs y (List.mem_cons_of_mem _ hy)) h2
  unfold initialZ
  have e1 : ((s : Int) + 1).toNat = s + 1 := by omega
  have e2 : (s : Int).toNat = s := by omega
  simp only [e1, e2]
  obtain ⟨dp1, h1, h2⟩ := ok (List.range (n + 1)) (fun dp j => write dp 0 j (some true, [])) _
    (fun j hj dp h => h.write _ (by omega) (by have := List.mem_range.mp hj; omega)) h0
  rw [h1, Except.bind_ok]
  exact ok (List.range s) _ dp1 (fun i hi dp h => h.write _ (by have := List.mem_range.mp hi; omega) (by omega)) h2

theorem stepZ_shape {extend : Nat → Int → Nat → List α → List α → List α} {numbers : List Int} {s : Nat} {dp : Table α}
    (h : Shape (s + 1) numbers.length dp) {i j : Nat} (hi : i < s) (hj : j < numbers.length) :
    (∃ dp', stepZ extend numbers dp (i + 1) (j + 1) = .ok dp' ∧ Shape (s + 1) numbers.length dp') ∨
      stepZ extend numbers dp (i + 1) (j + 1) = .error .indexError := by
  unfold stepZ
  obtain ⟨left, h1⟩ := h.read (i := i + 1) (j := j) (by omega) (by omega)
  simp only [Nat.add_sub_cancel]
  rw [h1, Except.bind_ok]
  obtain ⟨dp1, h2, h3⟩ := h.write left (i := i + 1) (j := j + 1) (by omega) (by omega)
  rw [h2, Except.bind_ok, listGet_ok.mpr (List.getElem?_eq_getElem hj), Except.bind_ok]
  by_cases hc : numbers[j] ≤ ((i + 1 : Nat) : Int)
  · rw [if_pos hc]
    by_cases hb : (((i + 1 : Nat) : Int) - numbers[j]).toNat < s + 1
    · obtain ⟨sub, h4⟩ := h3.read (j := j) hb (by omega)
      rw [h4, Except.bind_ok]
      by_cases hs : sub.1 = some true
      · rw [if_pos hs]
        obtain ⟨here, h5⟩ := h3.read (i := i + 1) (j := j + 1) (by omega) (by omega)
        rw [h5, Except.bind_ok]
        exact .inl (h3.write _ (by omega) (by omega))
      · rw [if_neg hs]; exact .inl ⟨dp1, rfl, h3⟩
    · right
      rw [h3.read_behind (by omega)]; rfl
  · rw [if_neg hc]; exact .inl ⟨dp1, rfl, h3⟩

/-- In the last row a negative number looks behind the table. -/
theorem stepZ_negative {extend : Nat → Int → Nat → List α → List α → List α} {numbers : List Int} {s : Nat} {dp : Table α}
    (h : Shape (s + 1) numbers.length dp) (hs : 0 < s) {j : Nat} (hj : j < numbers.length) (hneg : numbers[j] < 0) :
    stepZ extend numbers dp (s - 1 + 1) (j + 1) = .error .indexError := by
  unfold stepZ
  obtain ⟨left, h1⟩ := h.read (i := s - 1 + 1) (j := j) (by omega) (by omega)
  simp only [Nat.add_sub_cancel]
  rw [h1, Except.bind_ok]
  obtain ⟨dp1, h2, h3⟩ := h.write left (i := s - 1 + 1) (j := j + 1) (by omega) (by omega)
  rw [h2, Except.bind_ok, listGet_ok.mpr (List.getElem?_eq_getElem hj), Except.bind_ok, if_pos (by omega),
    h3.read_behind (by omega)]
  rfl

theorem fillZ_negative {extend : Nat → Int → Nat → List α → List α → List α} {numbers : List Int} {s : Nat} {dp : Table α}
    (h : Shape (s + 1) numbers.length dp) (hs : 0 < s) (hneg : ∃ a ∈ numbers, a < 0) :
    fillZ extend numbers (s : Int) numbers.length dp = .error .indexError := by
  unfold fillZ
  have e2 : (s : Int).toNat = s := by omega
  rw [e2]
  have hrow : ∀ i, i < s → ∀ j ∈ List.range numbers.length, ∀ dp, Shape (s + 1) numbers.length dp →
      (∃ dp', stepZ extend numbers dp (i + 1) (j + 1) = .ok dp' ∧ Shape (s + 1) numbers.length dp') ∨
        stepZ extend numbers dp (i + 1) (j + 1) = .error .indexError :=
    fun i hi j hj dp hd => stepZ_shape hd hi (List.mem_range.mp hj)
  refine foldlM_raises (I := Shape (s + 1) numbers.length) (x := s - 1)
    (fun i hi dp hd => foldlM_keeps (hrow i (List.mem_range.mp hi)) hd) h (List.mem_range.mpr (by omega)) fun dp hd => ?_
  obtain ⟨a, ha, hlt⟩ := hneg
  obtain ⟨j, hj, rfl⟩ := List.mem_iff_getElem.mp ha
  exact foldlM_raises (I := Shape (s + 1) numbers.length) (x := j) (hrow _ (by omega)) hd (List.mem_range.mpr hj)
    fun dp hd => stepZ_negative hd hs hj hlt

theorem initialZ_none {s : Int} (hs : s < 0) (n : Nat) : (initialZ s n : Except Err (Table α)) = .error .indexError := by
  unfold initialZ
  have : (s + 1).toNat = 0 := by omega
  simp only [this, List.replicate_zero, List.range_succ_eq_map, List.foldlM_cons]
  rfl

/-- With a single row nothing is filled in, and the answer is the empty part. -/
theorem solveWithZ_zero (extend : Nat → Int → Nat → List α → List α → List α) (wrap : List α → List (List Nat)) (numbers : List Int)
    (h : numbers.sum.natAbs ≤ 1) : solveWithZ extend wrap numbers =
      .ok (some (decide (numbers.sum = 0), wrap [], (wrap []).map (theOther numbers.length))) := by
  have hs : numbers.sum.tdiv 2 = ((0 : Nat) : Int) := by
    rcases (by omega : numbers.sum = 0 ∨ numbers.sum = 1 ∨ numbers.sum = -1) with h | h | h <;> rw [h] <;> rfl
  obtain ⟨dp, h1, f, h2, h3, _⟩ := initial_tab (α := α) (s := 0) (n := numbers.length)
  have hi : (initialZ ((0 : Nat) : Int) numbers.length : Except Err (Table α)) = .ok dp := by rw [← h1]; rfl
  have hr : read dp 0 numbers.length = .ok (some true, []) := by rw [h2.read (le_refl _) (le_refl _), h3 _ (le_refl _)]
  unfold solveWithZ
  simp only [hs]
  rw [hi, Except.bind_ok]
  change (do
    let dp ← (Except.ok dp : Except Err (Table α))
    _) = _
  rw [Except.bind_ok]
  have e1 : ((0 : Nat) : Int).toNat = 0 := rfl
  have e2 : (((0 : Nat) : Int) + 1).toNat = 1 := rfl
  have hsearch : search wrap dp numbers.length 1 = .ok (some (false, wrap [], (wrap []).map (theOther numbers.length))) := by
    unfold search
    rw [hr, Except.bind_ok, if_pos rfl]
    rfl
  by_cases hz : numbers.sum = 0
  · rw [if_pos (by omega), e1, hr, Except.bind_ok, if_pos rfl]
    simp [hz]; rfl
  · rw [if_neg (by omega), e2, hsearch]
    simp [hz]

theorem solveWithZ_raises (extend : Nat → Int → Nat → List α → List α → List α) (wrap : List α → List (List Nat)) (numbers : List Int)
    (hneg : ∃ a ∈ numbers, a < 0) (h : 1 < numbers.sum.natAbs) : solveWithZ extend wrap numbers = .error .indexError := by
  unfold solveWithZ
  by_cases hs : numbers.sum.tdiv 2 < 0
  · simp only [initialZ_none hs]; rfl
  · obtain ⟨s, hs'⟩ := Int.eq_ofNat_of_zero_le (not_lt.mp hs)
    have hpos : 0 < s := by
      rcases Nat.eq_zero_or_pos s with h0 | h0
      · subst h0
        have := Int.tmod_add_mul_tdiv numbers.sum 2
        have h2 := Int.tmod_lt_of_pos numbers.sum (show (0 : Int) < 2 by omega)
        have h3 : -2 < numbers.sum.tmod 2 := by
          have := Int.tmod_lt_of_pos (-numbers.sum) (show (0 : Int) < 2 by omega)
          rw [Int.neg_tmod] at this; omega
        omega
      · exact h0
    obtain ⟨dp, h1, h2⟩ := initialZ_shape (α := α) (s := s) (n := numbers.length)
    simp only [hs', h1]
    rw [Except.bind_ok, fillZ_negative h2 hpos hneg]
    rfl

end Sawatabi.Npp

namespace Sawatabi.Props

open Npp

/-- **C118**, numbers that are not negative: the answer is the one of C59 to C63. -/
theorem C118_nonnegative (numbers : List Nat) (all : Bool) :
    Npp.solveZ (numbers.map (Nat.cast : Nat → Int)) all = Npp.solve numbers all := by
  cases all
  · exact solveWithZ_cast extendOne extendOneZ (fun _ _ _ _ _ => rfl) _ numbers
  · refine solveWithZ_cast extendAll extendAllZ (fun i c j l s => ?_) _ numbers
    unfold extendAllZ extendAll
    simp only [Int.natCast_inj]

/-- **C118** with a negative number: the function raises `IndexError` exactly if the total is not -1, 0 or 1; else it answers with the
empty part (no part at all with `enumerate_all`), and says that it is balanced exactly if the total is 0. -/
theorem C118_negative (numbers : List Int) (all : Bool) (hneg : ∃ a ∈ numbers, a < 0) :
    Npp.solveZ numbers all =
      if numbers.sum.natAbs ≤ 1 then
        .ok (some (decide (numbers.sum = 0), if all then [] else [[]], if all then [] else [List.range numbers.length]))
      else .error .indexError := by
  have ho : theOther numbers.length [] = List.range numbers.length := by
    unfold theOther; simp
  by_cases h : numbers.sum.natAbs ≤ 1
  · rw [if_pos h]
    cases all
    · rw [show Npp.solveZ numbers false = solveWithZ extendOneZ (fun p => [p]) numbers from rfl, solveWithZ_zero _ _ _ h]
      simp [ho]
    · rw [show Npp.solveZ numbers true = solveWithZ extendAllZ id numbers from rfl, solveWithZ_zero _ _ _ h]
      simp
  · rw [if_neg h]
    cases all
    · exact solveWithZ_raises _ _ numbers hneg (by omega)
    · exact solveWithZ_raises _ _ numbers hneg (by omega)

/-- Numbers that are not negative are natural numbers. -/
theorem cast_of_nonneg {numbers : List Int} (h : ∀ a ∈ numbers, 0 ≤ a) : (numbers.map Int.toNat).map (Nat.cast : Nat → Int) = numbers := by
  rw [List.map_map]
  conv_rhs => rw [← List.map_id numbers]
  apply List.map_congr_left
  intro a ha
  have := h a ha
  simp only [Function.comp_apply, id_eq]
  omega

theorem differenceZ_cast (numbers : List Nat) (side : Nat → Bool) :
    differenceZ (numbers.map (Nat.cast : Nat → Int)) side = difference numbers side := by
  have h : ∀ k, (((numbers.map (Nat.cast : Nat → Int)).zipIdx k).map fun vi => if side vi.2 then vi.1 else -vi.1).sum =
      ((((numbers.zipIdx k).map fun vi => if side vi.2 then vi.1 else 0).sum : Nat) : Int) -
        (((numbers.zipIdx k).map fun vi => if (!side vi.2) then vi.1 else 0).sum : Nat) := by
    induction numbers with
    | nil => intro k; rfl
    | cons a l ih =>
      intro k
      have := ih (k + 1)
      simp only [List.map_cons, List.zipIdx_cons, List.sum_cons, this]
      cases side k <;> simp <;> omega
  unfold differenceZ difference sideSum
  rw [h 0]

/-- The signed sum of a partition has the parity of the total. -/
theorem signed_parity (numbers : List Int) (side : Nat → Bool) (k : Nat) :
    ∃ c, ((numbers.zipIdx k).map fun vi => if side vi.2 then vi.1 else -vi.1).sum = numbers.sum + 2 * c := by
  induction numbers generalizing k with
  | nil => exact ⟨0, rfl⟩
  | cons a l ih =>
    obtain ⟨c, h⟩ := ih (k + 1)
    simp only [List.zipIdx_cons, List.map_cons, List.sum_cons, h]
    cases side k
    · exact ⟨c - a, by simp only [Bool.false_eq_true, if_false]; omega⟩
    · exact ⟨c, by simp only [if_true]; omega⟩

theorem signed_none (numbers : List Int) (k : Nat) :
    ((numbers.zipIdx k).map fun vi => if within [] vi.2 then vi.1 else -vi.1).sum = -numbers.sum := by
  induction numbers generalizing k with
  | nil => rfl
  | cons a l ih =>
    simp only [List.zipIdx_cons, List.map_cons, List.sum_cons, ih]
    simp only [within, List.not_mem_nil, decide_false, Bool.false_eq_true, if_false]
    omega

/-- **C118**: the function returns exactly if no number is negative or the total is -1, 0 or 1; it raises `IndexError` otherwise, and it
never returns `None`. -/
theorem C118_returns_iff (numbers : List Int) (all : Bool) :
    ((∃ r, Npp.solveZ numbers all = .ok (some r)) ↔ (∀ a ∈ numbers, 0 ≤ a) ∨ numbers.sum.natAbs ≤ 1) ∧
    (¬ (∃ r, Npp.solveZ numbers all = .ok (some r)) → Npp.solveZ numbers all = .error .indexError) := by
  by_cases hn : ∀ a ∈ numbers, 0 ≤ a
  · have hr : ∃ r, Npp.solveZ numbers all = .ok (some r) := by
      rw [← cast_of_nonneg hn, C118_nonnegative]
      obtain ⟨f, ps, qs, h, _⟩ := C63_answers (numbers.map Int.toNat) all
      exact ⟨_, h⟩
    exact ⟨⟨fun _ => .inl hn, fun _ => hr⟩, fun h => absurd hr h⟩
  · have hneg : ∃ a ∈ numbers, a < 0 := by
      by_contra hc
      exact hn fun a ha => not_lt.mp fun hlt => hc ⟨a, ha, hlt⟩
    rw [C118_negative numbers all hneg]
    by_cases h : numbers.sum.natAbs ≤ 1
    · rw [if_pos h]
      exact ⟨⟨fun _ => .inr h, fun _ => ⟨_, rfl⟩⟩, fun h => absurd ⟨_, rfl⟩ h⟩
    · rw [if_neg h]
      refine ⟨⟨?_, ?_⟩, fun _ => rfl⟩
      · rintro ⟨r, hr⟩; cases hr
      · rintro (h' | h')
        · exact absurd h' hn
        · exact absurd h' h

/-- **C118**: whenever the function returns, the flag says whether a balanced partition exists, and no partition has a smaller
difference than a returned one. -/
theorem C118_optimal {numbers : List Int} {all flag : Bool} {ps qs : List (List Nat)}
    (h : Npp.solveZ numbers all = .ok (some (flag, ps, qs))) :
    (flag = true ↔ ∃ side, differenceZ numbers side = 0) ∧ (all = false → ps ≠ []) ∧
    ∀ p ∈ ps, ∀ side, differenceZ numbers (within p) ≤ differenceZ numbers side := by
  by_cases hn : ∀ a ∈ numbers, 0 ≤ a
  · rw [← cast_of_nonneg hn] at h ⊢
    rw [C118_nonnegative] at h
    simp only [differenceZ_cast]
    refine ⟨?_, fun ha => ?_, C61_minimal h⟩
    · rw [(C60_flag h).1]
      refine exists_congr fun side => ?_
      have := sideSum_add (numbers.map Int.toNat) side
      unfold difference
      omega
    · obtain ⟨f, ps', qs', h1, h2⟩ := C63_answers (numbers.map Int.toNat) all
      rw [h1] at h
      cases h
      exact h2 ha
  · have hneg : ∃ a ∈ numbers, a < 0 := by
      by_contra hc
      exact hn fun a ha => not_lt.mp fun hlt => hc ⟨a, ha, hlt⟩
    rw [C118_negative numbers all hneg] at h
    by_cases hs : numbers.sum.natAbs ≤ 1
    · rw [if_pos hs] at h
      cases h
      refine ⟨?_, ?_, ?_⟩
      · rw [decide_eq_true_eq]
        constructor
        · intro h0
          refine ⟨within [], ?_⟩
          unfold differenceZ
          rw [signed_none, h0]; rfl
        · rintro ⟨side, hd⟩
          unfold differenceZ at hd
          obtain ⟨c, hc⟩ := signed_parity numbers side 0
          omega
      · rintro rfl; simp
      · intro p hp side
        have : p = [] := by cases all <;> simp_all
        subst this
        unfold differenceZ
        obtain ⟨c, hc⟩ := signed_parity numbers side 0
        rw [signed_none, hc]
        omega
    · rw [if_neg hs] at h; cases h

example : Npp.solveZ [-3, 4] false = .ok (some (false, [[]], [[0, 1]])) ∧ Npp.solveZ [-3, 5] false = .error .indexError ∧
    Npp.solveZ [3, 1, 2] true = .ok (some (true, [[1, 2], [0]], [[0], [1, 2]])) := ⟨by decide +kernel, by decide +kernel, by decide +kernel⟩

end Sawatabi.Props
