import Verif.Model.PubSub

/-!
# Specification: a service that delivers every message once
-/

namespace Sawatabi.PubSub

/-- A program that writes texts to a topic. -/
structure Writer where
  project : List Char
  topic : List Char
  texts : List (List Char)

/-- Everything that the programs write. -/
noncomputable def published (ws : List Writer) : List (List Char × ByteArray) := ws.flatMap fun w => write w.project w.topic w.texts

/-- The service delivers each message that was sent to a topic once to each reader of the topic and of each subscription for
that topic, in any order. `attached` says for which topic a subscription is. -/
structure Delivers (sent : List (List Char × ByteArray)) (attached : List Char → Option (List Char))
    (deliver : Source → List ByteArray) : Prop where
  topic : ∀ path, (deliver (.topic path)).Perm ((sent.filter (·.1 = path)).map (·.2))
  subscription : ∀ path t, attached path = some t →
    (deliver (.subscription path)).Perm ((sent.filter (·.1 = t)).map (·.2))

/-- What was written to one topic. -/
def writtenTo (ws : List Writer) (project topic : List Char) : List (List Char) :=
  (ws.filter fun w => w.project = project ∧ w.topic = topic).flatMap (·.texts)

end Sawatabi.PubSub
