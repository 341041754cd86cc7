import Verif.Model.PubSubCity

/-!
# The other messages of the publisher

Models /repo/sample/pubsub/publish_pubsub.py lines 127-147: which message is sent, by the options. What is drawn at random is an argument.
-/

namespace Sawatabi.PubSub

open Text

/-- The options that choose the message (publish_pubsub.py:128-146). -/
structure Kinds where
  randomText : Bool
  randomNumber : Bool
  randomCity : Bool
  incrementalText : Bool
  incrementalNumber : Bool

/-- What is drawn in one round, and the clock (publish_pubsub.py:127-143). -/
structure Drawn where
  words : List (List Char)
  number : Nat
  letters : List Char
  lon : ℚ
  lat : ℚ
  text : List Char
  now : List Char

/-- The message (publish_pubsub.py:128-147). `text` is the text drawn with length `i` in line 143. -/
def chosen (fmt : ℚ → List Char) (k : Kinds) (d : Drawn) (i : Nat) : List Char :=
  if k.randomText then [' '].intercalate d.words ++ ['.']
  else if k.randomNumber then strInt d.number
  else if k.randomCity then cityMessage fmt d.letters d.lon d.lat
  else if k.incrementalText then d.text
  else if k.incrementalNumber then numberMessage i
  else chars "This is a test message at " ++ d.now ++ ['.']

end Sawatabi.PubSub
