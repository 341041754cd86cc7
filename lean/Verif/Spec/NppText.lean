import Verif.Spec.Npp
import Verif.Spec.Output

/-!
# Specification: the printed table of number partitioning
-/

namespace Sawatabi.Npp

open Text

/-- Elements in brackets with commas between them, such as `[[0], [1, 2]]`. -/
def Listed {α : Type} (R : List Char → α → Prop) (s : List Char) (l : List α) : Prop :=
  ∃ parts, List.Forall₂ R parts l ∧ s = ['['] ++ List.intercalate [',', ' '] parts ++ [']']

/-- The numeral of an index. -/
def IsIndex (s : List Char) (k : Nat) : Prop := Numeral s k

/-- A cell, such as `(True, [0, 2])`. -/
def CellSays {α : Type} (R : List Char → α → Prop) (s : List Char) (c : Bool × List α) : Prop :=
  ∃ u, Listed R u c.2 ∧ s = ['('] ++ (if c.1 then "True" else "False").toList ++ [',', ' '] ++ u ++ [')']

/-- Only spaces. -/
def Blank (s : List Char) : Prop := ∀ k ∈ s, k = ' '

/-- Cells one after the other, each with a space in front and any number of spaces behind. -/
inductive CellsSay {α : Type} (R : List Char → α → Prop) : List Char → List (Bool × List α) → Prop where
  | nil : CellsSay R [] []
  | cons {s sp t : List Char} {c : Bool × List α} {cs : List (Bool × List α)} (h : CellSays R s c) (hb : Blank sp) (ht : CellsSay R t cs) :
      CellsSay R ([' '] ++ s ++ sp ++ t) (c :: cs)

/-- The numbers in the head of the table from index `j` on, each followed by its index: `  5 (idx=0)`. -/
inductive HeadSays : Nat → List Char → List Nat → Prop where
  | nil {j : Nat} : HeadSays j [] []
  | cons {j a : Nat} {sp d e t : List Char} {l : List Nat} (hb : Blank sp) (hd : Numeral d a) (he : Numeral e j) (ht : HeadSays (j + 1) t l) :
      HeadSays j ([' '] ++ sp ++ d ++ " (idx=".toList ++ e ++ [')'] ++ t) (a :: l)

/-- A line of the table: the sum, and the cells. -/
def LineSays {α : Type} (R : List Char → α → Prop) (s : List Char) (l : Nat × List (Bool × List α)) : Prop :=
  ∃ sp d t, Blank sp ∧ Numeral d l.1 ∧ CellsSay R t l.2 ∧ s = sp ++ d ++ t

/-- The printed table: a line `dp:`, a line with the numbers, and a line for each of the sums 0, 1, ... -/
def PrintedTable {α : Type} (R : List Char → α → Prop) (t : List Char) (numbers : List Nat) (rows : List (List (Bool × List α))) : Prop :=
  ∃ head body, HeadSays 0 head numbers ∧ List.Forall₂ (LineSays R) body (rows.zipIdx.map fun ri => (ri.2, ri.1)) ∧
    t.splitOn '\n' = ["dp:".toList, "    0        ".toList ++ head] ++ body ++ [[]]

/-- Some of the first `j` indices, in increasing order, whose numbers have the sum `i`. -/
def Choice (numbers : List Nat) (i j : Nat) (p : List Nat) : Prop :=
  p.Pairwise (· < ·) ∧ (∀ k ∈ p, k < j ∧ k < numbers.length) ∧ sideSum numbers (within p) = i

end Sawatabi.Npp
