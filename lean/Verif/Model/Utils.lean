import Verif.Model.Types

/-!
# Helper functions

/repo/sawatabi/utils/functions.py, /repo/sawatabi/base_mixin.py and the number input of /repo/sawatabi/algorithm/io.py.
-/

namespace Sawatabi.Utils

/-! ## functions.py -/

/-- A nested list. (functions.py:22-27) -/
inductive Nested (α : Type) where
  | leaf (a : α)
  | node (l : List (Nested α))

/-- `Functions._flatten` (functions.py:21-27) on one element of the list. -/
def Nested.flatten {α : Type} : Nested α → List α
  | .leaf a => [a]
  | .node l => go l
where
  /-- The loop over a list. -/
  go : List (Nested α) → List α
    | [] => []
    | x :: l => x.flatten ++ go l

/-- An argument of the elementwise functions: a tuple or list of numbers, or something else. (functions.py:30-59) -/
inductive PySeq where
  | tuple (l : List ℚ)
  | list (l : List ℚ)
  | other
  deriving DecidableEq, Repr

/-- `isinstance` tests and the call of the function (functions.py:30-59). -/
def elementwise (f : List ℚ → List ℚ → Except Err (List ℚ)) : PySeq → PySeq → Except Err PySeq
  | .tuple a, .tuple b => do return .tuple (← f a b)
  | .list a, .list b => do return .list (← f a b)
  | _, _ => .error .typeError

/-- `map(op, a, b)` stops at the end of the shorter one. (functions.py:32, 34, 40, 42) -/
def pyMap2 (op : ℚ → ℚ → ℚ) : List ℚ → List ℚ → List ℚ
  | x :: a, y :: b => op x y :: pyMap2 op a b
  | _, _ => []

/-- `np.maximum`, `np.minimum` on one-dimensional arguments: equal lengths, or one of them of length 1 (broadcasting).
(functions.py:48, 50, 56, 58) -/
def npMap2 (op : ℚ → ℚ → ℚ) (a b : List ℚ) : Except Err (List ℚ) :=
  if a.length = b.length then .ok (pyMap2 op a b)
  else match a, b with
    | [x], _ => .ok (b.map fun y => op x y)
    | _, [y] => .ok (a.map fun x => op x y)
    | _, _ => .error .valueError

/-- functions.py:30-35 -/
def elementwiseAdd : PySeq → PySeq → Except Err PySeq := elementwise fun a b => .ok (pyMap2 (· + ·) a b)
/-- functions.py:38-43 -/
def elementwiseSub : PySeq → PySeq → Except Err PySeq := elementwise fun a b => .ok (pyMap2 (· - ·) a b)
/-- functions.py:46-51 -/
def elementwiseMax : PySeq → PySeq → Except Err PySeq := elementwise (npMap2 fun x y => if x < y then y else x)
/-- functions.py:54-59 -/
def elementwiseMin : PySeq → PySeq → Except Err PySeq := elementwise (npMap2 fun x y => if y < x then y else x)

/-! ## base_mixin.py -/

/-- `_modeltype_to_vartype` (base_mixin.py:72-80, constants.py:16-17) -/
def modeltypeToVartype (mtype : String) : Except Err String :=
  if mtype = "ising" then .ok "SPIN"
  else if mtype = "qubo" then .ok "BINARY"
  else .error .valueError

/-- `_vartype_to_modeltype` (base_mixin.py:82-90) -/
def vartypeToModeltype (vartype : String) : Except Err String :=
  if vartype = "SPIN" then .ok "ising"
  else if vartype = "BINARY" then .ok "qubo"
  else .error .valueError

/-! ## io.py -/

/-- `[0-9]` (io.py:30) -/
def isDigit (c : Char) : Bool := '0' ≤ c && c ≤ '9'

/-- `re.compile(r"^[0-9]+$").match` (io.py:30): `$` also matches before a newline at the end. -/
def numberMatch (s : List Char) : Bool :=
  !(s.takeWhile isDigit).isEmpty && (s.dropWhile isDigit == [] || s.dropWhile isDigit == ['\n'])

/-- `int(s)` for strings accepted by the filter: whitespace at the end is ignored. The limit of digits of newer Python
versions is not modelled. (io.py:33) -/
def pyInt (s : List Char) : Except Err Nat :=
  let digits := s.takeWhile isDigit
  if digits = [] ∨ (s.dropWhile isDigit).any (fun c => !(c == '\n')) then .error .valueError
  else .ok (digits.foldl (fun n c => 10 * n + (c.toNat - '0'.toNat)) 0)

/-- `_read_as_number` (io.py:27-33) on the messages in their order. -/
def readAsNumber (messages : List (List Char)) : Except Err (List Nat) := (messages.filter numberMatch).mapM pyInt

end Sawatabi.Utils
