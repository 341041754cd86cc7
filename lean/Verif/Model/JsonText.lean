import Verif.Model.OptiganHttp
import Verif.Model.ConstraintText

/-!
# The text of the payload

Models `json.dumps(payload)` (/repo/sawatabi/solver/optigan_solver.py line 90; `requests` encodes `json=payload` of line 96 likewise):
CPython's encoder with its default settings, written out. How numbers are written is an arbitrary function.
-/

namespace Sawatabi.Http

open Sawatabi.Text

/-- One character of a string (optigan_solver.py:90; `py_encode_basestring_ascii` of CPython): only printable ASCII is left. -/
def jsonChar (c : Char) : List Char :=
  if c = '"' ∨ c = '\\' then ['\\', c]
  else if c = '\n' then ['\\', 'n']
  else if c = '\r' then ['\\', 'r']
  else if c = '\t' then ['\\', 't']
  else if c.toNat = 12 then ['\\', 'f']
  else if c.toNat = 8 then ['\\', 'b']
  else if 32 ≤ c.toNat ∧ c.toNat ≤ 126 then [c]
  else if c.toNat < 65536 then ['\\', 'u'] ++ hex 4 c.toNat
  else ['\\', 'u'] ++ hex 4 (55296 + (c.toNat - 65536) / 1024) ++ (['\\', 'u'] ++ hex 4 (56320 + (c.toNat - 65536) % 1024))

/-- A string (optigan_solver.py:90). -/
def jsonString (s : String) : List Char := '"' :: (s.toList.flatMap jsonChar ++ ['"'])

mutual
/-- `json.dumps` (optigan_solver.py:90). -/
def jsonText (fmt : ℚ → List Char) : Json → List Char
  | .null => ['n', 'u', 'l', 'l']
  | .bool true => ['t', 'r', 'u', 'e']
  | .bool false => ['f', 'a', 'l', 's', 'e']
  | .num q => fmt q
  | .str s => jsonString s
  | .arr [] => ['[', ']']
  | .arr (x :: l) => '[' :: (jsonText fmt x ++ jsonTail fmt l)
  | .obj [] => ['{', '}']
  | .obj ((k, x) :: l) => '{' :: (jsonString k ++ (':' :: ' ' :: (jsonText fmt x ++ jsonFields fmt l)))
/-- The rest of an array (optigan_solver.py:90). -/
def jsonTail (fmt : ℚ → List Char) : List Json → List Char
  | [] => [']']
  | x :: l => ',' :: ' ' :: (jsonText fmt x ++ jsonTail fmt l)
/-- The rest of an object (optigan_solver.py:90). -/
def jsonFields (fmt : ℚ → List Char) : List (String × Json) → List Char
  | [] => ['}']
  | (k, x) :: l => ',' :: ' ' :: (jsonString k ++ (':' :: ' ' :: (jsonText fmt x ++ jsonFields fmt l)))
end

end Sawatabi.Http
