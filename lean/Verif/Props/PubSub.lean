import Verif.Spec.PubSub
import Verif.Props.Utils
import Verif.Props.Output

/-!
# C134: what is written to Pub/Sub can be read from there
-/

namespace Sawatabi.Props

open Sawatabi.PubSub Text

theorem decodeText_encode (s : List Char) : decodeText s.utf8Encode = .ok s := by
  simp [decodeText]

theorem mapM_decodeText (l : List (List Char)) : (l.map List.utf8Encode).mapM decodeText = .ok l := by
  induction l with
  | nil => rfl
  | cons s l ih => rw [List.map_cons, List.mapM_cons, decodeText_encode, ih]; rfl

/-- The part before the first slash is determined. -/
theorem slash_inj {p p' r r' : List Char} (h : '/' ∉ p) (h' : '/' ∉ p') (e : p ++ '/' :: r = p' ++ '/' :: r') : p = p' ∧ r = r' := by
  induction p generalizing p' with
  | nil =>
    cases p' with
    | nil => exact ⟨rfl, (List.cons.inj e).2⟩
    | cons c p' => exact absurd (by rw [← (List.cons.inj e).1]; exact List.mem_cons_self) h'
  | cons c p ih =>
    cases p' with
    | nil => exact absurd (by rw [(List.cons.inj e).1]; exact List.mem_cons_self) h
    | cons c' p' =>
      obtain ⟨h1, h2⟩ := List.cons.inj e
      obtain ⟨h3, h4⟩ := ih (fun hm => h (List.mem_cons_of_mem _ hm)) (fun hm => h' (List.mem_cons_of_mem _ hm)) h2
      exact ⟨by rw [h1, h3], h4⟩

/-- **C134**: different topics have different names. -/
theorem C134_names {p p' t t' : List Char} (h : '/' ∉ p) (h' : '/' ∉ p') :
    topicPath p t = topicPath p' t' ↔ p = p' ∧ t = t' := by
  constructor
  · intro e
    unfold topicPath at e
    simp only [List.append_assoc] at e
    have e := List.append_cancel_left e
    obtain ⟨h1, h2⟩ := slash_inj (r := chars "topics/" ++ t) (r' := chars "topics/" ++ t') h h' e
    exact ⟨h1, List.append_cancel_left h2⟩
  · rintro ⟨rfl, rfl⟩; rfl

theorem sent_to (ws : List Writer) {p t : List Char} (hp : '/' ∉ p) (hw : ∀ w ∈ ws, '/' ∉ w.project) :
    ((published ws).filter (·.1 = topicPath p t)).map (·.2) = (writtenTo ws p t).map List.utf8Encode := by
  induction ws with
  | nil => rfl
  | cons w ws ih =>
    have ih := ih fun w hm => hw w (List.mem_cons_of_mem _ hm)
    unfold published writtenTo at ih ⊢
    rw [List.flatMap_cons, List.filter_append, List.map_append, ih, List.filter_cons]
    by_cases h : w.project = p ∧ w.topic = t
    · rw [if_pos (by simpa using h), List.flatMap_cons, List.map_append]
      congr 1
      unfold write
      rw [h.1, h.2, List.filter_eq_self.mpr (by simp), List.map_map]
      rfl
    · rw [if_neg (by simpa using h)]
      unfold write
      rw [List.filter_eq_nil_iff.mpr]
      · rfl
      · intro a ha
        obtain ⟨s, _, rfl⟩ := List.mem_map.mp ha
        have := mt (C134_names (t := w.topic) (t' := t) (hw w List.mem_cons_self) hp).mp h
        simpa using this

theorem decodeText_perm {bs : List ByteArray} {l : List (List Char)} (h : bs.Perm (l.map List.utf8Encode)) :
    ∃ l', bs.mapM decodeText = .ok l' ∧ l'.Perm l := by
  let g : ByteArray → List Char := fun b => match decodeText b with | .ok s => s | .error _ => []
  have hg : ∀ s : List Char, g s.utf8Encode = s := fun s => by simp only [g, decodeText_encode]
  refine ⟨bs.map g, ?_, ?_⟩
  · have hb : ∀ b ∈ bs, decodeText b = .ok (g b) := by
      intro b hb
      obtain ⟨s, _, rfl⟩ := List.mem_map.mp (h.mem_iff.mp hb)
      rw [hg, decodeText_encode]
    clear h
    induction bs with
    | nil => rfl
    | cons b bs ih =>
      rw [List.mapM_cons, hb b List.mem_cons_self, ih fun c hc => hb c (List.mem_cons_of_mem _ hc)]; rfl
  · have := h.map g
    rwa [List.map_map, show g ∘ List.utf8Encode = id from funext hg, List.map_id] at this

/-- **C134**: a reader of a topic gets the texts written to it, each as often as it was written, and no others. The subscription is
not looked at. -/
theorem C134_topic {ws : List Writer} {attached : List Char → Option (List Char)} {deliver : Source → List ByteArray}
    (hd : Delivers (published ws) attached deliver) {p t : List Char} (hp : '/' ∉ p) (hw : ∀ w ∈ ws, '/' ∉ w.project)
    (s : Option (List Char)) : ∃ l, read deliver p (some t) s = .ok l ∧ l.Perm (writtenTo ws p t) := by
  have h := hd.topic (topicPath p t)
  rw [sent_to ws hp hw] at h
  obtain ⟨l, h1, h2⟩ := decodeText_perm h
  exact ⟨l, h1, h2⟩

/-- **C134**: the same through a subscription of that topic, which may be in another project. -/
theorem C134_subscription {ws : List Writer} {attached : List Char → Option (List Char)} {deliver : Source → List ByteArray}
    (hd : Delivers (published ws) attached deliver) {p q t s : List Char} (hp : '/' ∉ p) (hw : ∀ w ∈ ws, '/' ∉ w.project)
    (ha : attached (subscriptionPath q s) = some (topicPath p t)) :
    ∃ l, read deliver q none (some s) = .ok l ∧ l.Perm (writtenTo ws p t) := by
  have h := hd.subscription _ _ ha
  rw [sent_to ws hp hw] at h
  obtain ⟨l, h1, h2⟩ := decodeText_perm h
  exact ⟨l, h1, h2⟩

/-- **C134**: reading without topic and subscription raises. -/
theorem C134_neither (deliver : Source → List ByteArray) (p : List Char) :
    read deliver p none none = .error .unboundLocalError ∧ PubSub.readAsNumber deliver p none none = .error .unboundLocalError :=
  ⟨rfl, rfl⟩

theorem readAsNumber_perm {l l' : List (List Char)} (h : l.Perm l') :
    ∃ ns ns', Utils.readAsNumber l = .ok ns ∧ Utils.readAsNumber l' = .ok ns' ∧ ns.Perm ns' := by
  rw [C75_exact, C75_exact]
  exact ⟨_, _, rfl, rfl, h.filterMap _⟩

/-- **C134**: numbers are read as from a file with the written texts as its lines, up to the order. -/
theorem C134_numbers {ws : List Writer} {attached : List Char → Option (List Char)} {deliver : Source → List ByteArray}
    (hd : Delivers (published ws) attached deliver) {p t : List Char} (hp : '/' ∉ p) (hw : ∀ w ∈ ws, '/' ∉ w.project)
    (s : Option (List Char)) :
    ∃ ns ns', PubSub.readAsNumber deliver p (some t) s = .ok ns ∧ Utils.readAsNumber (writtenTo ws p t) = .ok ns' ∧ ns.Perm ns' := by
  obtain ⟨l, h1, h2⟩ := C134_topic hd hp hw s
  obtain ⟨ns, ns', h3, h4, h5⟩ := readAsNumber_perm h2
  refine ⟨ns, ns', ?_, h4, h5⟩
  unfold PubSub.readAsNumber
  rw [h1]
  exact h3

/-- **C134**: a pipeline that reads numbers from the topic of the publisher of numbers gets 1, 2, 3 and so on up to the end. -/
theorem C134_publisher {e n : Nat} (he : 1 ≤ e) (hn : e ≤ n) {p t : List Char} (hp : '/' ∉ p)
    {attached : List Char → Option (List Char)} {deliver : Source → List ByteArray}
    (hd : Delivers (published [⟨p, t, (publish e numberMessage n 1).1⟩]) attached deliver) (s : Option (List Char)) :
    ∃ ns, PubSub.readAsNumber deliver p (some t) s = .ok ns ∧ ns.Perm (List.range' 1 e) := by
  obtain ⟨ns, ns', h1, h2, h3⟩ := C134_numbers hd hp (fun w hw => by rw [List.mem_singleton.mp hw]; exact hp) s
  refine ⟨ns, h1, ?_⟩
  have : writtenTo [⟨p, t, (publish e numberMessage n 1).1⟩] p t = (List.range' 1 e).map numberMessage := by
    have hpub : (publish e numberMessage n 1).1 = (List.range' 1 e).map numberMessage := by
      rw [publish_eq numberMessage n 1 he]
      by_cases h : n ≤ e - 1
      · omega
      · rw [if_neg h]; simp
    rw [hpub]
    simp [writtenTo]
  rw [this, C104_numbers] at h2
  rw [Except.ok.inj h2]
  exact h3

/-- **C134**: a message that is no UTF-8 makes reading fail. -/
theorem C134_not_text {deliver : Source → List ByteArray} {p t : List Char} {s : Option (List Char)} {b : ByteArray}
    (hb : b ∈ deliver (.topic (topicPath p t))) (h : ∀ l : List Char, l.utf8Encode ≠ b) :
    read deliver p (some t) s = .error .valueError := by
  have hdec : ∀ c : ByteArray, (∃ x, decodeText c = .ok x) ∨ decodeText c = .error .valueError := by
    intro c
    unfold decodeText
    split
    · exact .inl ⟨_, rfl⟩
    · exact .inr rfl
  have hbad : decodeText b = .error .valueError := by
    unfold decodeText
    split
    · rename_i a ha
      have hs : b.utf8Decode?.isSome := by rw [ha]; rfl
      exact absurd ByteArray.utf8Encode_get_utf8Decode? (h (b.utf8Decode?.get hs).toList)
    · rfl
  show (deliver (.topic (topicPath p t))).mapM decodeText = _
  revert hb
  generalize deliver (.topic (topicPath p t)) = bs
  intro hb
  induction bs with
  | nil => cases hb
  | cons c bs ih =>
    rw [List.mapM_cons]
    rcases List.mem_cons.mp hb with rfl | hb
    · rw [hbad]; rfl
    · rcases hdec c with ⟨x, hx⟩ | hx
      · rw [hx, ih hb]; rfl
      · rw [hx]; rfl

/-! ### Cases -/

/-- Two writers, one of them in another project. -/
noncomputable def twoWriters : List Writer := [⟨['a'], ['t'], [['1'], ['é']]⟩, ⟨['b'], ['t'], [['2']]⟩]

/-- `C134_topic`, `C134_subscription`, `C134_numbers`: such a service, with a subscription of the topic of the first writer. -/
example : ∃ (attached : List Char → Option (List Char)) (deliver : Source → List ByteArray),
    Delivers (published twoWriters) attached deliver ∧ attached (subscriptionPath ['c'] ['s']) = some (topicPath ['a'] ['t']) ∧
      '/' ∉ ['a'] ∧ (∀ w ∈ twoWriters, '/' ∉ w.project) ∧ writtenTo twoWriters ['a'] ['t'] = [['1'], ['é']] := by
  refine ⟨fun _ => some (topicPath ['a'] ['t']), fun s => match s with
    | .topic path => ((published twoWriters).filter (·.1 = path)).map (·.2)
    | .subscription _ => ((published twoWriters).filter (·.1 = topicPath ['a'] ['t'])).map (·.2),
    ⟨fun _ => .refl _, fun _ t h => by cases h; exact .refl _⟩, rfl, by decide, ?_, by decide⟩
  intro w hw
  simp only [twoWriters, List.mem_cons, List.not_mem_nil, or_false] at hw
  rcases hw with rfl | rfl <;> decide

/-- Without the condition on the projects, two topics can have one name. -/
example : topicPath ['a'] (chars "b/topics/c") = topicPath (chars "a/topics/b") ['c'] := by decide

/-- `C134_not_text`: a byte that no text begins with. -/
example : ∀ l : List Char, l.utf8Encode ≠ ⟨#[255]⟩ := by
  intro l h
  have h1 := congrArg ByteArray.utf8Decode? h
  rw [List.utf8Decode?_utf8Encode] at h1
  have h2 : (ByteArray.mk #[255]).validateUTF8 = true := by
    rw [← ByteArray.isSome_utf8Decode?_eq_validateUTF8, ← h1]; rfl
  revert h2
  decide +kernel

end Sawatabi.Props
