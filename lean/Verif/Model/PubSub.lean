import Verif.Model.Utils
import Verif.Model.Output

/-!
# Reading from and writing to Pub/Sub

Models /repo/sawatabi/algorithm/io.py lines 43-62 and 83-88. Beam's `ReadFromPubSub` and `WriteToPubSub` are the service: which
messages a source delivers is an arbitrary function here; that Beam rejects some names is left out. Texts are lists of characters; UTF-8 is that of Lean's library.
-/

namespace Sawatabi.PubSub

open Text

/-- The name of a topic (io.py:46, 87; publish_pubsub.py:123). -/
def topicPath (project topic : List Char) : List Char := chars "projects/" ++ project ++ chars "/topics/" ++ topic

/-- The name of a subscription (io.py:48). -/
def subscriptionPath (project subscription : List Char) : List Char :=
  chars "projects/" ++ project ++ chars "/subscriptions/" ++ subscription

/-- What `ReadFromPubSub` is told (io.py:45-48). -/
inductive Source where
  | topic (path : List Char)
  | subscription (path : List Char)
  deriving DecidableEq

/-- The choice of the source (io.py:45-49): without either, `messages` is unbound. -/
def source (project : List Char) (topic subscription : Option (List Char)) : Except Err Source :=
  match topic with
  | some t => .ok (.topic (topicPath project t))
  | none =>
    match subscription with
    | some s => .ok (.subscription (subscriptionPath project s))
    | none => .error .unboundLocalError

/-- `m.decode("utf-8")` (io.py:50); `UnicodeDecodeError` is a `ValueError`. -/
def decodeText (b : ByteArray) : Except Err (List Char) :=
  match b.utf8Decode? with
  | some a => .ok a.toList
  | none => .error .valueError

/-- `IO.read_from_pubsub` (io.py:43-51). -/
def read (deliver : Source → List ByteArray) (project : List Char) (topic subscription : Option (List Char)) :
    Except Err (List (List Char)) := do
  let s ← source project topic subscription
  (deliver s).mapM decodeText

/-- `IO.read_from_pubsub_as_number` (io.py:54-57). -/
def readAsNumber (deliver : Source → List ByteArray) (project : List Char) (topic subscription : Option (List Char)) :
    Except Err (List Nat) := do
  let ms ← read deliver project topic subscription
  Utils.readAsNumber ms

/-- `IO.write_to_pubsub` (io.py:84-88): the messages handed to the service, with the topic. Also publish_pubsub.py:123, 149. -/
noncomputable def write (project topic : List Char) (texts : List (List Char)) : List (List Char × ByteArray) :=
  texts.map fun s => (topicPath project topic, s.utf8Encode)

end Sawatabi.PubSub
