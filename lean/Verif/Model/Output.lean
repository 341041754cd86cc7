import Verif.Model.NppStream
import Verif.Model.Pipeline

/-!
# Texts: what pipelines write, and the publisher of test messages

Models the output part of `_create_pipeline` (abstract_algorithm.py:267-280), the messages of `SolveDoFn.process`
(abstract_algorithm.py:100-105, 155, 180, 191), the text of `npp_unmapping` (npp_window.py:74-97) and the loop of
/repo/sample/pubsub/publish_pubsub.py (lines 125-155). Texts are lists of characters. Beam and the Pub/Sub client are libraries.
-/

namespace Sawatabi.Text

open Stream NppStream

/-- The characters of a literal. (literals of abstract_algorithm.py:102-103, 155, 180, 191 and npp_window.py:75-95) -/
abbrev chars (s : String) : List Char := s.toList

/-! ## Numbers and lists -/

/-- `str(n)` for an integer. (npp_window.py:77-78) -/
def strInt : ℤ → List Char
  | .ofNat n => Nat.toDigits 10 n
  | .negSucc n => '-' :: Nat.toDigits 10 (n + 1)

/-- `str` of a whole number. The numbers of the application are integers in the code and rationals in the model. (npp_window.py:93-95) -/
def str (q : ℚ) : List Char := strInt q.num

/-- `sep.join(parts)` (npp_window.py:97) -/
def join (sep : List Char) : List (List Char) → List Char
  | [] => []
  | [a] => a
  | a :: b :: l => a ++ sep ++ join sep (b :: l)

/-- `str(l)` for a list of integers. (npp_window.py:77, 93-94) -/
def strList (l : List ℚ) : List Char := chars "[" ++ join (chars ", ") (l.map str) ++ chars "]"

/-! ## npp_unmapping -/

/-- The lines of `npp_unmapping` (npp_window.py:75-95). -/
def reportLines (r : Report) : List (List Char) :=
  [[], chars "INPUT -->",
   chars "  " ++ strList r.input,
   chars "  (length: " ++ strInt r.input.length ++ chars ")",
   chars "SOLUTION ==>",
   chars "  Set(+) : sum=" ++ str r.sumP ++ chars ", elements=" ++ strList r.setP,
   chars "  Set(-) : sum=" ++ str r.sumN ++ chars ", elements=" ++ strList r.setN,
   chars "  diff   : " ++ str r.diff]

/-- `"\n".join(outputs)` (npp_window.py:97) -/
def reportText (r : Report) : List Char := join ['\n'] (reportLines r)

/-! ## Messages of the solving part -/

/-- How things that are not modelled are written: times (`to_utc_datetime()`), exceptions with their traceback, and results.
(abstract_algorithm.py:43, 102-103, 155, 180, 191) -/
structure Style (β : Type) where
  time : ℚ → List Char
  error : Err → List Char
  result : β → List Char

/-- The text that `process` yields for a window with this timestamp. The message about outdated windows writes the timestamp of
the window twice (abstract_algorithm.py:102-103). -/
def message {β : Type} (y : Style β) (ts : ℚ) : Output β → List Char
  | .outdated => chars "The received event is outdated: Timestamp is " ++ y.time ts ++
      chars ", while an event with timestamp of " ++ y.time ts ++ chars " has been already processed."
  | .failedMap e => chars "Failed to map: " ++ y.error e
  | .failedSolve e => chars "Failed to solve: " ++ y.error e
  | .failedUnmap e => chars "Failed to unmap: " ++ y.error e
  | .result b => y.result b

/-! ## The output part -/

/-- A value in `algorithm_options`. (abstract_algorithm.py:267-276) -/
inductive Opt where
  | str (s : List Char)
  | bool (b : Bool)
  | none
  | other
  deriving DecidableEq, Repr

/-- `s + element` where `s` comes from the options: only strings can be added. (abstract_algorithm.py:273, 276) -/
def Opt.text : Opt → Except Err (List Char)
  | .str s => .ok s
  | _ => .error .typeError

/-- The output part for one element with its timestamp written as `time` (abstract_algorithm.py:267-276, 41-43): the options are
tested by `in`. -/
def outputPart (options : List (String × Opt)) (time data : List Char) : Except Err (List Char) := do
  let data := if (dget options "output.with_timestamp").isSome then chars "[" ++ time ++ chars "] " ++ data else data
  let data ← match dget options "output.prefix" with
    | some v => do
      let s ← v.text
      pure (s ++ data)
    | none => pure data
  match dget options "output.suffix" with
    | some v => do
      let s ← v.text
      pure (data ++ s)
    | none => pure data

/-- What a pipeline writes for one window. (abstract_algorithm.py:101-105, 189-191, 267-280) -/
def written {β : Type} (y : Style β) (options : List (String × Opt)) (ts : ℚ) (outs : List (Output β)) : Except Err (List (List Char)) :=
  outs.mapM fun o => outputPart options (y.time ts) (message y ts o)

/-! ## The publisher -/

/-- The loop of publish_pubsub.py:125-155, watched for `rounds` rounds from counter `i`: the messages sent, and whether the loop
has ended. `msg` is the message for a counter (lines 128-147). -/
def publish (stop : ℤ) (msg : Nat → List Char) : Nat → Nat → List (List Char) × Bool
  | 0, _ => ([], false)
  | rounds + 1, i =>
    if (i : ℤ) = stop then ([msg i], true)
    else (msg i :: (publish stop msg rounds (i + 1)).1, (publish stop msg rounds (i + 1)).2)

/-- The message with `--incremental-number` (publish_pubsub.py:145). -/
def numberMessage (i : Nat) : List Char := strInt i

end Sawatabi.Text
