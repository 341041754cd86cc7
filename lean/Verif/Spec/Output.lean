import Verif.Spec.Utils
import Verif.Model.NppStream
import Mathlib.Algebra.Order.Field.Rat

/-!
# Specification of texts
-/

namespace Sawatabi.Text

open NppStream
open Utils (decimal IsDecimal)

/-- Digits, with a minus sign in front of negative numbers. -/
def Numeral (s : List Char) (q : ℚ) : Prop :=
  (IsDecimal s ∧ q = (decimal s : ℚ)) ∨ ∃ d, s = '-' :: d ∧ IsDecimal d ∧ q = -(decimal d : ℚ)

/-- Numerals in brackets with commas between them, such as `[1, -2, 3]`. -/
def Bracketed (s : List Char) (l : List ℚ) : Prop :=
  ∃ parts, List.Forall₂ Numeral parts l ∧ s = ['['] ++ List.intercalate [',', ' '] parts ++ [']']

/-- The lines of a report on number partitioning. -/
def Sheet (t : List Char) (r : Report) : Prop :=
  ∃ i n p ps m ms d, Bracketed i r.input ∧ Numeral n r.input.length ∧ Numeral p r.sumP ∧ Bracketed ps r.setP ∧
    Numeral m r.sumN ∧ Bracketed ms r.setN ∧ Numeral d r.diff ∧
    t.splitOn '\n' = ["".toList, "INPUT -->".toList, "  ".toList ++ i, "  (length: ".toList ++ n ++ ")".toList, "SOLUTION ==>".toList,
      "  Set(+) : sum=".toList ++ p ++ ", elements=".toList ++ ps, "  Set(-) : sum=".toList ++ m ++ ", elements=".toList ++ ms,
      "  diff   : ".toList ++ d]

/-- The message about an outdated window of time `t` after a window of time `p`. -/
def outdatedText (t p : List Char) : List Char :=
  "The received event is outdated: Timestamp is ".toList ++ t ++ ", while an event with timestamp of ".toList ++ p ++
    " has been already processed.".toList

end Sawatabi.Text
