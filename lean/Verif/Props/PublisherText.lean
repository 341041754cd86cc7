import Verif.Model.PublisherText
import Verif.Props.PubSubCity

/-!
# C136: which messages of the publisher are read as numbers
-/

namespace Sawatabi.Props

open Sawatabi.PubSub Text Utils

/-- Which number, if any, a reader should take from a round: a number drawn or counted, or a drawn text that consists of digits. -/
def expectedNumber (k : Kinds) (d : Drawn) (i : Nat) : Option Nat :=
  match k.randomText, k.randomNumber, k.randomCity, k.incrementalText, k.incrementalNumber with
  | true, _, _, _, _ => none
  | false, true, _, _, _ => some d.number
  | false, false, true, _, _ => none
  | false, false, false, true, _ => if IsDecimal d.text then some (decimal d.text) else none
  | false, false, false, false, true => some i
  | false, false, false, false, false => none

/-- What is read from one message. -/
theorem read_one (s : List Char) (h : s.getLast? ≠ some '\n') :
    (if IsDecimal s then some (decimal s)
      else if s.getLast? = some '\n' ∧ IsDecimal s.dropLast then some (decimal s.dropLast) else none) =
      if IsDecimal s then some (decimal s) else none := by
  rw [if_neg (c := s.getLast? = some '\n' ∧ _) fun g => h g.1]

theorem read_none {s : List Char} {c : Char} (hc : c ≠ '\n') (hd : ¬ IsDecimal (s ++ [c])) :
    (if IsDecimal (s ++ [c]) then some (decimal (s ++ [c]))
      else if (s ++ [c]).getLast? = some '\n' ∧ IsDecimal (s ++ [c]).dropLast then some (decimal (s ++ [c]).dropLast) else none) = none := by
  rw [read_one _ (by simpa using hc), if_neg hd]

theorem not_decimal_dot (s : List Char) : ¬ IsDecimal (s ++ ['.']) := fun h => absurd (h.2 '.' (by simp)) (by decide)

theorem not_decimal_brace (s : List Char) : ¬ IsDecimal (s ++ ['}']) := fun h => absurd (h.2 '}' (by simp)) (by decide)

theorem read_number (n : Nat) (s : List Char) (hs : IsDecimal s ∧ decimal s = n) :
    (if IsDecimal s then some (decimal s)
      else if s.getLast? = some '\n' ∧ IsDecimal s.dropLast then some (decimal s.dropLast) else none) = some n := by
  rw [if_pos hs.1, hs.2]

/-- **C136**: a reader of numbers takes from the rounds of the publisher exactly the expected numbers, whatever was drawn. -/
theorem C136_numbers (fmt : ℚ → List Char) (k : Kinds) (d : Nat → Drawn) (ht : ∀ i, '\n' ∉ (d i).text) (l : List Nat) :
    readAsNumber (l.map fun i => chosen fmt k (d i) i) = .ok (l.filterMap fun i => expectedNumber k (d i) i) := by
  have hd : ∀ i : Nat, IsDecimal (numberMessage i) ∧ decimal (numberMessage i) = i := toDigits_decimal
  rw [C75_exact, List.filterMap_map]
  congr 1
  apply List.filterMap_congr
  intro i _
  obtain ⟨a, b, c, e, f⟩ := k
  simp only [Function.comp_apply, chosen, expectedNumber]
  cases a with
  | true => exact read_none (by decide) (not_decimal_dot _)
  | false =>
  cases b with
  | true => exact read_number _ _ (hd (d i).number)
  | false =>
  cases c with
  | true =>
    have : cityMessage fmt (d i).letters (d i).lon (d i).lat =
        (chars "{\"" ++ capitalize (d i).letters ++ chars "\": [" ++ fmt (d i).lon ++ chars ", " ++ fmt (d i).lat ++ [']']) ++ ['}'] := by
      simp [cityMessage, chars]
    simp only [this]
    exact read_none (by decide) (not_decimal_brace _)
  | false =>
  cases e with
  | true => exact read_one _ fun h => ht i (List.mem_of_getLast? h)
  | false =>
  cases f with
  | true => exact read_number _ _ (hd i)
  | false => exact read_none (by decide) (not_decimal_dot _)

/-- **C136**: it gets nothing exactly if no round has a number; in particular random texts, cities and test messages are never taken for
numbers, but a text drawn with `--incremental-text` is if it consists of digits. -/
theorem C136_texts (fmt : ℚ → List Char) (k : Kinds) (d : Nat → Drawn) (ht : ∀ i, '\n' ∉ (d i).text) {l : List Nat} (hl : l ≠ []) :
    readAsNumber (l.map fun i => chosen fmt k (d i) i) = .ok [] ↔
      k.randomText = true ∨ (k.randomNumber = false ∧ (k.randomCity = true ∨
        (k.incrementalText = true ∧ ∀ i ∈ l, ¬ IsDecimal (d i).text) ∨ (k.incrementalText = false ∧ k.incrementalNumber = false))) := by
  rw [C136_numbers fmt k d ht, Except.ok.injEq, List.filterMap_eq_nil_iff]
  obtain ⟨j, hj⟩ := List.exists_mem_of_ne_nil l hl
  obtain ⟨a, b, c, e, f⟩ := k
  cases a <;> cases b <;> cases c <;> cases e <;> cases f <;> simp [expectedNumber] <;> exact ⟨j, hj⟩

/-! ### Cases -/

/-- A round. -/
def Ex.drawn : Drawn := ⟨[['1'], ['2']], 7, ['k', 'Y'], 135, 35, ['4', '2'], ['0']⟩

/-- `C136_numbers`, `C136_texts`: a drawn text that is a number, a random text, and the test message. -/
example : '\n' ∉ Ex.drawn.text ∧ IsDecimal Ex.drawn.text ∧
    chosen (fun q => strInt q.num) ⟨true, true, false, false, false⟩ Ex.drawn 1 = chars "1 2." ∧
    chosen (fun q => strInt q.num) ⟨false, false, true, false, true⟩ Ex.drawn 1 = chars "{\"Ky\": [135, 35]}" ∧
    chosen (fun q => strInt q.num) ⟨false, false, false, true, true⟩ Ex.drawn 2 = chars "42" ∧
    chosen (fun q => strInt q.num) ⟨false, false, false, false, false⟩ Ex.drawn 1 = chars "This is a test message at 0." := by
  refine ⟨by decide, ⟨by decide, by decide⟩, ?_, ?_, ?_, ?_⟩ <;> decide +kernel

end Sawatabi.Props
