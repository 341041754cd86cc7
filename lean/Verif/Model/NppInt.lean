import Verif.Model.Npp

/-!
# Number partitioning for integers of any sign

Models /repo/sawatabi/utils/npp.py lines 24-97 as `Verif/Model/Npp.lean` does, but the numbers may be negative. The table then may
have no row, and the index `i - current_val` may lie behind the table.
-/

namespace Sawatabi.Npp

/-- utils/npp.py:33-41. `range` of a number that is not positive is empty, so the table has no row if `s` is negative. -/
def initialZ {α : Type} (s : Int) (n : Nat) : Except Err (Table α) := do
  let dp : Table α := List.replicate (s + 1).toNat (List.replicate (n + 1) (none, []))
  let dp ← (List.range (n + 1)).foldlM (fun dp j => write dp 0 j (some true, [])) dp
  (List.range s.toNat).foldlM (fun dp i => write dp (i + 1) 0 (some false, [])) dp

/-- Rule 2 without `enumerate_all` (utils/npp.py:53). -/
def extendOneZ (_i : Nat) (_current : Int) (j : Nat) (_left sub : List Nat) : List Nat := sub ++ [j - 1]

/-- Rule 2 with `enumerate_all` (utils/npp.py:55-63). -/
def extendAllZ (i : Nat) (current : Int) (j : Nat) (left sub : List (List Nat)) : List (List Nat) :=
  if (i : Int) = current then left ++ [[j - 1]]
  else
    let solution := sub.map fun prev => prev ++ [j - 1]
    if left.length ≠ 0 then solution ++ left else solution

/-- One step of the loop (utils/npp.py:46-63). The index `i - current_val` is not negative, so that Python does not count it from the end. -/
def stepZ {α : Type} (extend : Nat → Int → Nat → List α → List α → List α) (numbers : List Int) (dp : Table α) (i j : Nat) :
    Except Err (Table α) := do
  let left ← read dp i (j - 1)
  let dp ← write dp i j left
  let current ← listGet numbers (j - 1)
  if current ≤ (i : Int) then
    let sub ← read dp ((i : Int) - current).toNat (j - 1)
    if sub.1 = some true then
      let here ← read dp i j
      write dp i j (some true, extend i current j here.2 sub.2)
    else return dp
  else return dp

/-- utils/npp.py:43-63. -/
def fillZ {α : Type} (extend : Nat → Int → Nat → List α → List α → List α) (numbers : List Int) (s : Int) (n : Nat) (dp : Table α) :
    Except Err (Table α) :=
  (List.range s.toNat).foldlM (fun dp i =>
    (List.range n).foldlM (fun dp j => stepZ extend numbers dp (i + 1) (j + 1)) dp) dp

/-- utils/npp.py:25-97, for one mode. `int(s2 / 2)` rounds towards zero (exact here, a division of floats in the code). After the first
loop `s` is not negative, so `dp[s]` needs no counting from the end. -/
def solveWithZ {α : Type} (extend : Nat → Int → Nat → List α → List α → List α) (wrap : List α → List (List Nat))
    (numbers : List Int) : Except Err (Option (Bool × List (List Nat) × List (List Nat))) := do
  let n := numbers.length
  let s2 := numbers.sum
  let s := s2.tdiv 2
  let dp ← initialZ s n
  let dp ← fillZ extend numbers s n dp
  if s2 % 2 = 0 then
    let c ← read dp s.toNat n
    if c.1 = some true then
      let ps := wrap c.2
      return some (true, ps, ps.map (theOther n))
    else search wrap dp n (s + 1).toNat
  else search wrap dp n (s + 1).toNat

/-- `solve_npp_with_dp` (utils/npp.py:24-97) for integers. -/
def solveZ (numbers : List Int) (enumerateAll : Bool) : Except Err (Option (Bool × List (List Nat) × List (List Nat))) :=
  if enumerateAll then solveWithZ extendAllZ id numbers else solveWithZ extendOneZ (fun p => [p]) numbers

end Sawatabi.Npp
