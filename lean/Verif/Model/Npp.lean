import Verif.Model.Solver

/-!
# Number partitioning

Models /repo/sawatabi/utils/npp.py lines 24-97. Numbers are natural numbers. `int(s2 / 2)` (line 27) is a division of
floats in the code; here it is exact, as it is in the code up to 2^53 (the table has that many rows). Printing the
table (lines 65-75) is modelled in Model/NppText.lean.
-/

namespace Sawatabi.Npp

/-- A cell of the table: `None`/`True`/`False` and a list (of indices, or of lists of indices). (utils/npp.py:30-33) -/
abbrev Cell (α : Type) := Option Bool × List α

/-- The table, by rows. (utils/npp.py:29-33) -/
abbrev Table (α : Type) := List (List (Cell α))

/-- `dp[i][j]` (utils/npp.py:47, 51-63) -/
def read {α : Type} (dp : Table α) (i j : Nat) : Except Err (Cell α) := do
  let row ← listGet dp i
  listGet row j

/-- `dp[i][j] = c` (utils/npp.py:37, 41, 47, 53, 56, 63) -/
def write {α : Type} (dp : Table α) (i j : Nat) (c : Cell α) : Except Err (Table α) := do
  let row ← listGet dp i
  let row' ← listSet row j c
  listSet dp i row'

/-- utils/npp.py:33-41: the table with its first row and first column. -/
def initial {α : Type} (s n : Nat) : Except Err (Table α) := do
  let dp : Table α := List.replicate (s + 1) (List.replicate (n + 1) (none, []))
  let dp ← (List.range (n + 1)).foldlM (fun dp j => write dp 0 j (some true, [])) dp
  (List.range s).foldlM (fun dp i => write dp (i + 1) 0 (some false, [])) dp

/-- Rule 2 without `enumerate_all` (utils/npp.py:53): `sub` are the indices of the sub-problem. -/
def extendOne (_i _current j : Nat) (_left sub : List Nat) : List Nat := sub ++ [j - 1]

/-- Rule 2 with `enumerate_all` (utils/npp.py:55-63). -/
def extendAll (i current j : Nat) (left sub : List (List Nat)) : List (List Nat) :=
  if i = current then left ++ [[j - 1]]
  else
    let solution := sub.map fun prev => prev ++ [j - 1]
    if left.length ≠ 0 then solution ++ left else solution

/-- One step of the loop (utils/npp.py:46-63); `extend` is the rule of the mode. -/
def step {α : Type} (extend : Nat → Nat → Nat → List α → List α → List α) (numbers : List Nat) (dp : Table α) (i j : Nat) :
    Except Err (Table α) := do
  let left ← read dp i (j - 1)
  let dp ← write dp i j left
  let current ← listGet numbers (j - 1)
  if current ≤ i then
    let sub ← read dp (i - current) (j - 1)
    if sub.1 = some true then
      let here ← read dp i j
      write dp i j (some true, extend i current j here.2 sub.2)
    else return dp
  else return dp

/-- utils/npp.py:43-63. -/
def fill {α : Type} (extend : Nat → Nat → Nat → List α → List α → List α) (numbers : List Nat) (s n : Nat) (dp : Table α) :
    Except Err (Table α) :=
  (List.range s).foldlM (fun dp i =>
    (List.range n).foldlM (fun dp j => step extend numbers dp (i + 1) (j + 1)) dp) dp

/-- `find_the_other_partition` (utils/npp.py:77-79). The order of a Python set is not modelled. -/
def theOther (n : Nat) (p : List Nat) : List Nat := (List.range n).filter (· ∉ p)

/-- utils/npp.py:90-97: the last row that is reached, among the rows `k - 1, ..., 0`. The code returns `None` if there is none. -/
def search {α : Type} (wrap : List α → List (List Nat)) (dp : Table α) (n : Nat) :
    Nat → Except Err (Option (Bool × List (List Nat) × List (List Nat)))
  | 0 => return none
  | i + 1 => do
    let c ← read dp i n
    if c.1 = some true then
      let ps := wrap c.2
      return some (false, ps, ps.map (theOther n))
    else search wrap dp n i

/-- utils/npp.py:25-97, for one mode; `wrap` makes the list of solutions (lines 84-85 and 92-93). -/
def solveWith {α : Type} (extend : Nat → Nat → Nat → List α → List α → List α) (wrap : List α → List (List Nat))
    (numbers : List Nat) : Except Err (Option (Bool × List (List Nat) × List (List Nat))) := do
  let n := numbers.length
  let s2 := numbers.sum
  let s := s2 / 2
  let dp ← initial s n
  let dp ← fill extend numbers s n dp
  if s2 % 2 = 0 then
    let c ← read dp s n
    if c.1 = some true then
      let ps := wrap c.2
      return some (true, ps, ps.map (theOther n))
    else search wrap dp n (s + 1)
  else search wrap dp n (s + 1)

/-- `solve_npp_with_dp` (utils/npp.py:24-97). -/
def solve (numbers : List Nat) (enumerateAll : Bool) : Except Err (Option (Bool × List (List Nat) × List (List Nat))) :=
  if enumerateAll then solveWith extendAll id numbers else solveWith extendOne (fun p => [p]) numbers

end Sawatabi.Npp
