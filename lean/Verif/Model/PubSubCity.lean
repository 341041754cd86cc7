import Verif.Model.PubSub
import Verif.Model.JsonText
import Verif.Model.Tsp

/-!
# Cities by Pub/Sub, and the subscriber

Models the message of `--random-city` in /repo/sample/pubsub/publish_pubsub.py (lines 137-141), `IO.read_from_pubsub_as_json`
(/repo/sawatabi/algorithm/io.py lines 36-41 and 59-62), what /repo/sample/algorithm/tsp_window.py takes from an element, and the lines printed
by the subscriber /repo/sample/pubsub/subscribe_pubsub.py (lines 54-66). `json.loads` and how numbers are written are arbitrary functions; which letters and numbers are drawn is arbitrary.
-/

namespace Sawatabi.PubSub

open Text Http

/-- `string.ascii_letters` (publish_pubsub.py:138). -/
def Letter (c : Char) : Prop := ('a' ≤ c ∧ c ≤ 'z') ∨ ('A' ≤ c ∧ c ≤ 'Z')

/-- `str.capitalize` for letters of ASCII (publish_pubsub.py:138). -/
def capitalize : List Char → List Char
  | [] => []
  | c :: l => c.toUpper :: l.map Char.toLower

/-- The message with `--random-city`, for the letters and numbers drawn (publish_pubsub.py:138-141). -/
def cityMessage (fmt : ℚ → List Char) (letters : List Char) (lon lat : ℚ) : List Char :=
  chars "{\"" ++ capitalize letters ++ chars "\": [" ++ fmt lon ++ chars ", " ++ fmt lat ++ chars "]}"

/-- `IO.read_from_pubsub_as_json` (io.py:36-41, 59-62). -/
def readAsJson (loads : List Char → Except Err Json) (deliver : Source → List ByteArray) (project : List Char)
    (topic subscription : Option (List Char)) : Except Err (List Json) := do
  let ms ← read deliver project topic subscription
  ms.mapM loads

/-- What the application takes from an element: the first key (tsp_window.py:141), and of the first value the items 0 and 1, which
are the longitude and the latitude (tsp_window.py:93, 99). Items that are no numbers are a `TypeError` here; what geopy does with them is left out. -/
def cityOf : Json → Except Err (Tsp.City (ℚ × ℚ))
  | .obj [] => .error .indexError
  | .obj ((k, .arr (.num lon :: .num lat :: _)) :: _) => .ok ⟨k, lon, lat⟩
  | .obj ((_, .arr []) :: _) => .error .indexError
  | .obj ((_, .arr [_]) :: _) => .error .indexError
  | .obj _ => .error .typeError
  | _ => .error .attributeError

/-- The line printed by the subscriber for one message (subscribe_pubsub.py:58-59). -/
def receivedLine (time path : List Char) (b : ByteArray) : Except Err (List Char) := do
  let text ← decodeText b
  return chars "[" ++ time ++ chars "] Received message from '" ++ path ++ chars "': " ++ text

/-- The lines printed by the subscriber, the message number `i` at the time `time i` (subscribe_pubsub.py:54-66). The client calls back for
each message by itself: one that is no UTF-8 prints nothing, and is not acknowledged. -/
def subscriberLines (deliver : Source → List ByteArray) (project subscription : List Char) (time : Nat → List Char) :
    List (Except Err (List Char)) :=
  (deliver (.subscription (subscriptionPath project subscription))).mapIdx fun i b =>
    receivedLine (time i) (subscriptionPath project subscription) b

end Sawatabi.PubSub
