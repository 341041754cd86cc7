import Verif.Spec.Utils
import Verif.Lemmas.Monad
import Verif.Model.Convert
import Verif.Lemmas.Solver
import Mathlib.Tactic.Ring
import Mathlib.Tactic.Linarith

/-!
# C75–C77, C79: helper functions
-/

namespace Sawatabi.Props

open Utils (isDigit numberMatch pyInt readAsNumber PySeq elementwise pyMap2 npMap2 modeltypeToVartype vartypeToModeltype Nested decimal IsDecimal)

/-! ## C75: numbers -/

theorem isDigit_iff {c : Char} : isDigit c = true ↔ c ∈ ['0', '1', '2', '3', '4', '5', '6', '7', '8', '9'] := by
  constructor
  · intro h
    simp only [isDigit, Bool.and_eq_true, decide_eq_true_eq] at h
    obtain ⟨h1, h2⟩ := h
    have g1 : 48 ≤ c.toNat := h1
    have g2 : c.toNat ≤ 57 := h2
    have hc : c = Char.ofNat c.toNat := (Char.ofNat_toNat c).symm
    generalize c.toNat = n at *
    subst hc
    have : n = 48 ∨ n = 49 ∨ n = 50 ∨ n = 51 ∨ n = 52 ∨ n = 53 ∨ n = 54 ∨ n = 55 ∨ n = 56 ∨ n = 57 := by omega
    rcases this with rfl | rfl | rfl | rfl | rfl | rfl | rfl | rfl | rfl | rfl <;> decide
  · intro h
    simp only [List.mem_cons, List.not_mem_nil, or_false] at h
    rcases h with rfl | rfl | rfl | rfl | rfl | rfl | rfl | rfl | rfl | rfl <;> decide

theorem takeWhile_digits {s : List Char} (h : ∀ c ∈ s, isDigit c = true) (t : List Char) (ht : ∀ c ∈ t.head?, isDigit c = false) :
    (s ++ t).takeWhile isDigit = s ∧ (s ++ t).dropWhile isDigit = t := by
  induction s with
  | nil =>
    cases t with
    | nil => exact ⟨rfl, rfl⟩
    | cons a t =>
      have := ht a (by simp)
      simp [this]
  | cons a s ih =>
    have ha := h a (by simp)
    obtain ⟨h1, h2⟩ := ih fun c hc => h c (by simp [hc])
    simp [ha, h1, h2]

theorem numberMatch_iff {s : List Char} : numberMatch s = true ↔ IsDecimal s ∨ ∃ d, IsDecimal d ∧ s = d ++ ['\n'] := by
  have hd : ∀ d : List Char, IsDecimal d → ∀ c ∈ d, isDigit c = true := fun d h c hc => isDigit_iff.mpr (h.2 c hc)
  constructor
  · intro h
    simp only [numberMatch, Bool.and_eq_true, Bool.or_eq_true, beq_iff_eq, Bool.not_eq_true', List.isEmpty_eq_false_iff] at h
    obtain ⟨h1, h2⟩ := h
    have hs := List.takeWhile_append_dropWhile (p := isDigit) (l := s)
    have hdec : IsDecimal (s.takeWhile isDigit) := ⟨h1, fun c hc => isDigit_iff.mp (List.all_eq_true.mp (List.all_takeWhile (p := isDigit)) c hc)⟩
    rcases h2 with h2 | h2
    · rw [h2, List.append_nil] at hs
      rw [hs] at hdec
      exact .inl hdec
    · exact .inr ⟨_, hdec, by rw [← h2, hs]⟩
  · rintro (h | ⟨d, h, rfl⟩)
    · have := takeWhile_digits (hd s h) [] (by simp)
      rw [List.append_nil] at this
      simp [numberMatch, this.1, this.2, h.1]
    · have := takeWhile_digits (hd d h) ['\n'] (by simp; decide)
      simp [numberMatch, this.1, this.2, h.1]

theorem foldl_decimal (s : List Char) (n : Nat) :
    s.foldl (fun n c => 10 * n + (c.toNat - '0'.toNat)) n = n * 10 ^ s.length + decimal s := by
  induction s generalizing n with
  | nil => simp [decimal]
  | cons c s ih =>
    rw [List.foldl_cons, ih, decimal, List.length_cons]
    have : '0'.toNat = 48 := rfl
    rw [this]
    ring

theorem pyInt_decimal {s : List Char} (h : IsDecimal s) : pyInt s = .ok (decimal s) ∧ pyInt (s ++ ['\n']) = .ok (decimal s) := by
  have hd : ∀ c ∈ s, isDigit c = true := fun c hc => isDigit_iff.mpr (h.2 c hc)
  have h1 := takeWhile_digits hd [] (by simp)
  have h2 := takeWhile_digits hd ['\n'] (by simp; decide)
  rw [List.append_nil] at h1
  constructor
  · unfold pyInt
    simp only [h1.1, h1.2]
    rw [if_neg (by simp [h.1]), foldl_decimal]
    simp
  · unfold pyInt
    simp only [h2.1, h2.2]
    rw [if_neg (by simp [h.1]), foldl_decimal]
    simp

/-- Exactly what is read: also strings of digits with a newline at the end. -/
theorem C75_exact (ms : List (List Char)) :
    readAsNumber ms = .ok (ms.filterMap fun s =>
      if IsDecimal s then some (decimal s)
      else if s.getLast? = some '\n' ∧ IsDecimal s.dropLast then some (decimal s.dropLast) else none) := by
  unfold readAsNumber
  induction ms with
  | nil => rfl
  | cons s ms ih =>
    rw [List.filter_cons]
    by_cases h1 : IsDecimal s
    · rw [if_pos (numberMatch_iff.mpr (.inl h1)), List.mapM_cons, (pyInt_decimal h1).1, Except.bind_ok, ih, Except.bind_ok,
        List.filterMap_cons, if_pos h1]
      rfl
    · by_cases h2 : ∃ d, IsDecimal d ∧ s = d ++ ['\n']
      · obtain ⟨d, hd, rfl⟩ := h2
        have hlast : (d ++ ['\n']).getLast? = some '\n' ∧ IsDecimal (d ++ ['\n']).dropLast := by simp [hd]
        rw [if_pos (numberMatch_iff.mpr (.inr ⟨d, hd, rfl⟩)), List.mapM_cons, (pyInt_decimal hd).2, Except.bind_ok, ih,
          Except.bind_ok, List.filterMap_cons, if_neg h1, if_pos hlast, List.dropLast_concat]
        rfl
      · have hno : ¬ (s.getLast? = some '\n' ∧ IsDecimal s.dropLast) := by
          rintro ⟨g1, g2⟩
          obtain ⟨ys, rfl⟩ := List.getLast?_eq_some_iff.mp g1
          rw [List.dropLast_concat] at g2
          exact h2 ⟨ys, g2, rfl⟩
        rw [if_neg (fun h => (numberMatch_iff.mp h).elim h1 h2), ih, List.filterMap_cons, if_neg h1, if_neg hno]

/-- **C75** for messages that do not end with a newline: exactly the decimal ones are read, in order, with their values. -/
theorem C75_numbers_partial {ms : List (List Char)} (h : ∀ s ∈ ms, s.getLast? ≠ some '\n') :
    readAsNumber ms = .ok ((ms.filter fun s => decide (IsDecimal s)).map decimal) := by
  rw [C75_exact]
  congr 1
  induction ms with
  | nil => rfl
  | cons s ms ih =>
    have ih := ih fun s hs => h s (by simp [hs])
    rw [List.filterMap_cons, List.filter_cons, ih]
    by_cases h1 : IsDecimal s
    · simp [h1]
    · simp [h1, h s (by simp)]

/-- A message with a newline at the end is read too. -/
theorem C75_newline_refuted : ¬ IsDecimal ['1', '2', '\n'] ∧ readAsNumber [['1', '2', '\n']] = .ok [12] := by
  constructor
  · decide
  · rfl

example : readAsNumber [['0', '4', '2'], ['-', '1'], [], ['7'], ['1', '.', '0']] = .ok [42, 7] := rfl

/-! ## C76: elementwise functions -/

theorem pyMap2_eq (op : ℚ → ℚ → ℚ) (a b : List ℚ) : pyMap2 op a b = List.zipWith op a b := by
  induction a generalizing b with
  | nil => rfl
  | cons x a ih =>
    cases b with
    | nil => rfl
    | cons y b => simp only [pyMap2, List.zipWith_cons_cons, ih]

/-- The content and the kind of the argument. -/
def SameKind : PySeq → PySeq → List ℚ → List ℚ → (List ℚ → PySeq) → Prop
  | .tuple a, .tuple b, a', b', k => a' = a ∧ b' = b ∧ k = .tuple
  | .list a, .list b, a', b', k => a' = a ∧ b' = b ∧ k = .list
  | _, _, _, _, _ => False

theorem elementwise_same {f : List ℚ → List ℚ → Except Err (List ℚ)} {x y : PySeq} {a b : List ℚ} {k : List ℚ → PySeq}
    (h : SameKind x y a b k) : elementwise f x y = (f a b).bind fun r => .ok (k r) := by
  cases x <;> cases y <;> first | exact absurd h id | skip
  all_goals
    obtain ⟨rfl, rfl, rfl⟩ := h
    rfl

/-- **C76**: two tuples or two lists of the same length are treated place by place, the kind stays. -/
theorem C76_pointwise {x y : PySeq} {a b : List ℚ} {k : List ℚ → PySeq} (h : SameKind x y a b k) (hl : a.length = b.length) :
    ∃ add sub mx mn, Utils.elementwiseAdd x y = .ok (k add) ∧ Utils.elementwiseSub x y = .ok (k sub) ∧
      Utils.elementwiseMax x y = .ok (k mx) ∧ Utils.elementwiseMin x y = .ok (k mn) ∧
      add.length = a.length ∧ sub.length = a.length ∧ mx.length = a.length ∧ mn.length = a.length ∧
      ∀ (i : Nat) p q, a[i]? = some p → b[i]? = some q →
        add[i]? = some (p + q) ∧ sub[i]? = some (p - q) ∧ mx[i]? = some (max p q) ∧ mn[i]? = some (min p q) := by
  refine ⟨List.zipWith (· + ·) a b, List.zipWith (· - ·) a b, List.zipWith (fun x y => if x < y then y else x) a b,
    List.zipWith (fun x y => if y < x then y else x) a b, ?_, ?_, ?_, ?_, ?_, ?_, ?_, ?_, ?_⟩
  · rw [Utils.elementwiseAdd, elementwise_same h, pyMap2_eq]; rfl
  · rw [Utils.elementwiseSub, elementwise_same h, pyMap2_eq]; rfl
  · rw [Utils.elementwiseMax, elementwise_same h]; unfold npMap2; rw [if_pos hl, pyMap2_eq]; rfl
  · rw [Utils.elementwiseMin, elementwise_same h]; unfold npMap2; rw [if_pos hl, pyMap2_eq]; rfl
  · simp [hl]
  · simp [hl]
  · simp [hl]
  · simp [hl]
  · intro i p q hp hq
    simp only [List.getElem?_zipWith, hp, hq]
    refine ⟨trivial, trivial, ?_, ?_⟩
    · by_cases hpq : p < q
      · simp [hpq, max_eq_right hpq.le]
      · simp [hpq, max_eq_left (not_lt.mp hpq)]
    · by_cases hpq : q < p
      · simp [hpq, min_eq_right hpq.le]
      · simp [hpq, min_eq_left (not_lt.mp hpq)]

/-- **C76**: addition and subtraction are inverse. -/
theorem C76_inverse {x y : PySeq} {a b : List ℚ} {k : List ℚ → PySeq} (h : SameKind x y a b k) (hl : a.length = b.length) :
    (∃ s, Utils.elementwiseAdd x y = .ok s ∧ Utils.elementwiseSub s y = .ok x) ∧
    (∃ s, Utils.elementwiseSub x y = .ok s ∧ Utils.elementwiseAdd s y = .ok x) := by
  have key1 : ∀ a b : List ℚ, a.length = b.length → List.zipWith (· - ·) (List.zipWith (· + ·) a b) b = a := by
    intro a
    induction a with
    | nil => intro b _; rfl
    | cons p a ih =>
      intro b hb
      cases b with
      | nil => cases hb
      | cons q b => simp [ih b (by simpa using hb)]
  have key2 : ∀ a b : List ℚ, a.length = b.length → List.zipWith (· + ·) (List.zipWith (· - ·) a b) b = a := by
    intro a
    induction a with
    | nil => intro b _; rfl
    | cons p a ih =>
      intro b hb
      cases b with
      | nil => cases hb
      | cons q b => simp [ih b (by simpa using hb)]
  cases x <;> cases y <;> first | exact absurd h id | skip
  all_goals
    obtain ⟨rfl, rfl, rfl⟩ := h
    simp only [Utils.elementwiseAdd, Utils.elementwiseSub, elementwise, pyMap2_eq, Except.bind_ok]
    exact ⟨⟨_, rfl, by simp only [Except.bind_ok, key1 _ _ hl]; rfl⟩, ⟨_, rfl, by simp only [Except.bind_ok, key2 _ _ hl]; rfl⟩⟩

/-- **C76**: arguments of different kinds, or of a wrong kind, are rejected by all four. -/
theorem C76_rejects {x y : PySeq} (h : ∀ a b k, ¬ SameKind x y a b k) :
    Utils.elementwiseAdd x y = .error .typeError ∧ Utils.elementwiseSub x y = .error .typeError ∧
    Utils.elementwiseMax x y = .error .typeError ∧ Utils.elementwiseMin x y = .error .typeError := by
  cases x <;> cases y <;> first | exact ⟨rfl, rfl, rfl, rfl⟩ | exact absurd ⟨rfl, rfl, rfl⟩ (h _ _ _)

/-- Different lengths are not rejected: sums are cut off, one value is spread over the other argument, and else it raises. -/
theorem C76_lengths :
    Utils.elementwiseAdd (.tuple [1, 2, 3]) (.tuple [10]) = .ok (.tuple [11]) ∧
    Utils.elementwiseMax (.tuple [1, 2, 3]) (.tuple [2]) = .ok (.tuple [2, 2, 3]) ∧
    Utils.elementwiseMax (.tuple [1, 2, 3]) (.tuple [2, 2]) = .error .valueError :=
  ⟨by decide +kernel, by decide +kernel, by decide +kernel⟩

/-- The functions on integers that the model of `append` and `merge` uses are these, for tuples of the lengths that occur. -/
theorem C76_used (a b : List Int) :
    Utils.elementwiseAdd (.tuple (a.map (↑))) (.tuple (b.map (↑))) = .ok (.tuple ((elementwiseAdd a b).map (↑))) ∧
    Utils.elementwiseSub (.tuple (a.map (↑))) (.tuple (b.map (↑))) = .ok (.tuple ((elementwiseSub a b).map (↑))) ∧
    (a.length = b.length →
      Utils.elementwiseMax (.tuple (a.map (↑))) (.tuple (b.map (↑))) = .ok (.tuple ((elementwiseMax a b).map (↑))) ∧
      Utils.elementwiseMin (.tuple (a.map (↑))) (.tuple (b.map (↑))) = .ok (.tuple ((elementwiseMin a b).map (↑)))) := by
  have key : ∀ (f : ℚ → ℚ → ℚ) (g : Int → Int → Int), (∀ x y : Int, f x y = (g x y : Int)) → ∀ a b : List Int,
      List.zipWith f (a.map (↑)) (b.map (↑)) = (List.zipWith g a b).map ((↑) : Int → ℚ) := by
    intro f g hfg a
    induction a with
    | nil => intro b; rfl
    | cons x a ih =>
      intro b
      cases b with
      | nil => rfl
      | cons y b => simp only [List.map_cons, List.zipWith_cons_cons, hfg, ih]
  refine ⟨?_, ?_, fun hl => ⟨?_, ?_⟩⟩
  · simp only [Utils.elementwiseAdd, elementwise, pyMap2_eq, Except.bind_ok, elementwiseAdd]
    rw [key (· + ·) (· + ·) (by intro x y; push_cast; rfl)]; rfl
  · simp only [Utils.elementwiseSub, elementwise, pyMap2_eq, Except.bind_ok, elementwiseSub]
    rw [key (· - ·) (· - ·) (by intro x y; push_cast; rfl)]; rfl
  · simp only [Utils.elementwiseMax, elementwise, npMap2, List.length_map, hl, if_true, pyMap2_eq, Except.bind_ok, elementwiseMax]
    rw [key _ max]
    · rfl
    · intro x y
      by_cases h : x < y
      · rw [if_pos (by exact_mod_cast h), max_eq_right h.le]
      · rw [if_neg (by exact_mod_cast h), max_eq_left (not_lt.mp h)]
  · simp only [Utils.elementwiseMin, elementwise, npMap2, List.length_map, hl, if_true, pyMap2_eq, Except.bind_ok, elementwiseMin]
    rw [key _ min]
    · rfl
    · intro x y
      by_cases h : y < x
      · rw [if_pos (by exact_mod_cast h), min_eq_right h.le]
      · rw [if_neg (by exact_mod_cast h), min_eq_left (not_lt.mp h)]

example : SameKind (.tuple [1, 2]) (.tuple [3, 4]) [1, 2] [3, 4] .tuple ∧ ∀ a b k, ¬ SameKind (.tuple [1]) (.list [1]) a b k :=
  ⟨⟨rfl, rfl, rfl⟩, fun _ _ _ h => h⟩

/-! ## C77: types -/

/-- **C77**: the two maps are inverse to each other. -/
theorem C77_inverse (a b : String) : modeltypeToVartype a = .ok b ↔ vartypeToModeltype b = .ok a := by
  unfold modeltypeToVartype vartypeToModeltype
  constructor
  · intro h
    split at h
    · cases h; subst_vars; rfl
    · split at h
      · cases h; subst_vars; rfl
      · cases h
  · intro h
    split at h
    · cases h; subst_vars; rfl
    · split at h
      · cases h; subst_vars; rfl
      · cases h

/-- **C77**: exactly the names of the two types are accepted, everything else gives a ValueError. -/
theorem C77_rejects (a : String) :
    (modeltypeToVartype a = .error .valueError ↔ a ≠ "ising" ∧ a ≠ "qubo") ∧
    (vartypeToModeltype a = .error .valueError ↔ a ≠ "SPIN" ∧ a ≠ "BINARY") ∧
    ((∃ b, modeltypeToVartype a = .ok b) ↔ a = "ising" ∨ a = "qubo") ∧
    ((∃ b, vartypeToModeltype a = .ok b) ↔ a = "SPIN" ∨ a = "BINARY") := by
  unfold modeltypeToVartype vartypeToModeltype
  refine ⟨?_, ?_, ?_, ?_⟩ <;> split <;> simp_all <;> split <;> simp_all

/-- **C77**: Ising models have spins. -/
theorem C77_values : modeltypeToVartype "ising" = .ok "SPIN" ∧ modeltypeToVartype "qubo" = .ok "BINARY" := ⟨rfl, rfl⟩

/-! ## C79: flattening -/

/-- **C79**: the elements of the flattened list are the leaves. -/
theorem C79_leaves {α : Type} (t : Nested α) (a : α) : a ∈ t.flatten ↔ ∃ idx, t.at idx = some (.leaf a) := by
  match t with
  | .leaf b =>
    unfold Nested.flatten
    constructor
    · intro h
      rw [List.mem_singleton] at h
      subst h
      exact ⟨[], rfl⟩
    · rintro ⟨idx, h⟩
      cases idx with
      | nil => cases h; simp
      | cons i is => cases h
  | .node l =>
    have key : ∀ l' : List (Nested α), (∀ t ∈ l', t ∈ l) →
        (a ∈ Nested.flatten.go l' ↔ ∃ (i : Nat) (is : List Nat), (l'[i]?.bind fun t => t.at is) = some (.leaf a)) := by
      intro l'
      induction l' with
      | nil => intro _; simp [Nested.flatten.go]
      | cons x l' ih =>
        intro hsub
        have hx : x ∈ l := hsub x (by simp)
        rw [Nested.flatten.go, List.mem_append, C79_leaves x a, ih fun t ht => hsub t (by simp [ht])]
        constructor
        · rintro (⟨is, h⟩ | ⟨i, is, h⟩)
          · exact ⟨0, is, by simpa using h⟩
          · exact ⟨i + 1, is, by simpa using h⟩
        · rintro ⟨i, is, h⟩
          cases i with
          | zero => exact .inl ⟨is, by simpa using h⟩
          | succ i => exact .inr ⟨i, is, by simpa using h⟩
    unfold Nested.flatten
    rw [key l fun _ h => h]
    constructor
    · rintro ⟨i, is, h⟩
      exact ⟨i :: is, h⟩
    · rintro ⟨idx, h⟩
      cases idx with
      | nil => cases h
      | cons i is => exact ⟨i, is, h⟩
termination_by sizeOf t
decreasing_by
  have := List.sizeOf_lt_of_mem hx
  simp_wf
  omega

/-- **C79**: a regular array is flattened in row-major order, and the list has as many elements as the array. -/
theorem C79_row_major {α : Type} {t : Nested α} {sh : List Nat} (h : t.HasShape sh) :
    t.flatten.length = sh.prod ∧
    ∀ idx, InShape idx sh → ∃ a, t.at idx = some (.leaf a) ∧ t.flatten[rowMajor sh idx]? = some a := by
  induction h with
  | leaf a =>
    refine ⟨rfl, fun idx hi => ?_⟩
    cases hi
    exact ⟨a, rfl, rfl⟩
  | @node l n sh hl hall ih =>
    have key : ∀ l' : List (Nested α), (∀ t ∈ l', t ∈ l) → (Nested.flatten.go l').length = l'.length * sh.prod ∧
        ∀ (i : Nat) is, i < l'.length → InShape is sh → ∃ a, (l'[i]?.bind fun t => t.at is) = some (.leaf a) ∧
          (Nested.flatten.go l')[i * sh.prod + rowMajor sh is]? = some a := by
      intro l'
      induction l' with
      | nil => intro _; exact ⟨by simp [Nested.flatten.go], fun i is hi _ => absurd hi (by simp)⟩
      | cons x l' ih' =>
        intro hsub
        obtain ⟨g1, g2⟩ := ih' fun t ht => hsub t (by simp [ht])
        obtain ⟨x1, x2⟩ := ih x (hsub x (by simp))
        refine ⟨?_, fun i is hi his => ?_⟩
        · rw [Nested.flatten.go, List.length_append, g1, x1, List.length_cons]
          ring
        · rw [Nested.flatten.go]
          cases i with
          | zero =>
            obtain ⟨a, ha, hf⟩ := x2 is his
            refine ⟨a, by simpa using ha, ?_⟩
            rw [Nat.zero_mul, Nat.zero_add, List.getElem?_append_left ((List.getElem?_eq_some_iff.mp hf).1)]
            exact hf
          | succ i =>
            obtain ⟨a, ha, hf⟩ := g2 i is (by simpa using hi) his
            refine ⟨a, by simpa using ha, ?_⟩
            rw [List.getElem?_append_right (by rw [x1]; nlinarith [Nat.zero_le (i * sh.prod)]), x1]
            rw [show (i + 1) * sh.prod + rowMajor sh is - sh.prod = i * sh.prod + rowMajor sh is by
              rw [Nat.add_mul, Nat.one_mul]; omega]
            exact hf
    obtain ⟨g1, g2⟩ := key l fun _ h => h
    refine ⟨by unfold Nested.flatten; rw [g1, hl, List.prod_cons], fun idx hi => ?_⟩
    cases hi with
    | @cons i _ is _ hi his => exact g2 i is (by rw [hl]; exact hi) his

example : (Nested.node [.node [.leaf 1, .leaf 2], .node [.leaf 3, .leaf 4]]).HasShape [2, 2] ∧
    (Nested.node [.node [.leaf 1, .leaf 2], .node [.leaf 3, .leaf 4]]).flatten = [1, 2, 3, 4] := by
  refine ⟨.node rfl ?_, rfl⟩
  intro t ht
  simp only [List.mem_cons, List.not_mem_nil, or_false] at ht
  rcases ht with rfl | rfl
  all_goals
    refine .node rfl fun t ht => ?_
    simp only [List.mem_cons, List.not_mem_nil, or_false] at ht
    rcases ht with rfl | rfl <;> exact .leaf _

end Sawatabi.Props
