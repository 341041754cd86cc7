import Verif.Model.Npp
import Verif.Model.Output

/-!
# The printed table of number partitioning

Models /repo/sawatabi/utils/npp.py lines 65-75 (`print_dp_table`), and `solve_npp_with_dp` (lines 24-97) with that option.
-/

namespace Sawatabi.Npp

open Text

/-- `str` of a list, from the texts of its elements. (utils/npp.py:74) -/
def listText (parts : List (List Char)) : List Char := chars "[" ++ join (chars ", ") parts ++ chars "]"

/-- `str` of a list of indices. (utils/npp.py:74) -/
def indicesText (l : List Nat) : List Char := listText (l.map fun (k : Nat) => strInt k)

/-- `str` of a list of lists of indices. (utils/npp.py:74) -/
def choicesText (l : List (List Nat)) : List Char := listText (l.map indicesText)

/-- `str` of the first value of a cell. (utils/npp.py:74) -/
def flagText : Option Bool → String
  | none => "None"
  | some true => "True"
  | some false => "False"

/-- `str(dp[i][j])`; `showList` is `str` of the list in it. (utils/npp.py:74) -/
def cellText {α : Type} (showList : List α → List Char) (c : Cell α) : List Char :=
  chars "(" ++ chars (flagText c.1) ++ chars ", " ++ showList c.2 ++ chars ")"

/-- `f"{n:w}"` for a number: spaces on the left. (utils/npp.py:69, 72) -/
def padLeft (w : Nat) (t : List Char) : List Char := List.replicate (w - t.length) ' ' ++ t

/-- `f"{t:w}"` for a text: spaces on the right. (utils/npp.py:74) -/
def padRight (w : Nat) (t : List Char) : List Char := t ++ List.replicate (w - t.length) ' '

/-- utils/npp.py:69. -/
def headText (numbers : List Nat) (j : Nat) : Except Err (List Char) := do
  let a ← listGet numbers j
  return chars " " ++ padLeft 27 (strInt a) ++ chars " (idx=" ++ strInt j ++ chars ")"

/-- utils/npp.py:72-75: one row, with its line end. -/
def rowText {α : Type} (showList : List α → List Char) (dp : Table α) (n i : Nat) : Except Err (List Char) := do
  let cells ← (List.range (n + 1)).mapM fun j => do
    let c ← read dp i j
    return chars " " ++ padRight 35 (cellText showList c)
  return padLeft 3 (strInt i) ++ cells.flatten ++ ['\n']

/-- utils/npp.py:66-75: all that is printed. -/
def tableText {α : Type} (showList : List α → List Char) (numbers : List Nat) (s n : Nat) (dp : Table α) : Except Err (List Char) := do
  let head ← (List.range n).mapM (headText numbers)
  let rows ← (List.range (s + 1)).mapM (rowText showList dp n)
  return chars "dp:" ++ ['\n'] ++ chars "    0        " ++ head.flatten ++ ['\n'] ++ rows.flatten

/-- utils/npp.py:25-97 for one mode, with what is printed before the answer. What is printed before an exception is not modelled (there
is none, C125). -/
def solvePrintingWith {α : Type} (showList : List α → List Char) (extend : Nat → Nat → Nat → List α → List α → List α)
    (wrap : List α → List (List Nat)) (numbers : List Nat) (printTable : Bool) :
    Except Err (List Char × Option (Bool × List (List Nat) × List (List Nat))) := do
  let n := numbers.length
  let s2 := numbers.sum
  let s := s2 / 2
  let dp ← initial s n
  let dp ← fill extend numbers s n dp
  let t ← if printTable then tableText showList numbers s n dp else pure []
  if s2 % 2 = 0 then
    let c ← read dp s n
    if c.1 = some true then
      let ps := wrap c.2
      return (t, some (true, ps, ps.map (theOther n)))
    else return (t, ← search wrap dp n (s + 1))
  else return (t, ← search wrap dp n (s + 1))

/-- `solve_npp_with_dp` (utils/npp.py:24-97) with all its options: the printed text and the answer. -/
def solvePrinting (numbers : List Nat) (enumerateAll printTable : Bool) :
    Except Err (List Char × Option (Bool × List (List Nat) × List (List Nat))) :=
  if enumerateAll then solvePrintingWith choicesText extendAll id numbers printTable
  else solvePrintingWith indicesText extendOne (fun p => [p]) numbers printTable

end Sawatabi.Npp
