import Verif.Model.PubSubCity
import Verif.Props.PubSub
import Verif.Props.JsonText

/-!
# C135: cities by Pub/Sub, and what the subscriber shows
-/

namespace Sawatabi.Props

open Sawatabi.PubSub Text Http

/-- The JSON value of a city. -/
def cityJson (name : List Char) (lon lat : ℚ) : Json := .obj [(String.ofList name, .arr [.num lon, .num lat])]

/-- `json.loads` undoes `json.dumps` for an object with one pair of numbers. -/
def LoadsPairs (fmt : ℚ → List Char) (loads : List Char → Except Err Json) : Prop :=
  ∀ (name : String) (lon lat : ℚ), loads (jsonText fmt (.obj [(name, .arr [.num lon, .num lat])])) = .ok (.obj [(name, .arr [.num lon, .num lat])])

theorem letter_iff (c : Char) : Letter c ↔ (97 ≤ c.toNat ∧ c.toNat ≤ 122) ∨ (65 ≤ c.toNat ∧ c.toNat ≤ 90) := by
  rfl

theorem letter_json {c : Char} (h : Letter c) : jsonChar c = [c] := by
  rw [letter_iff] at h
  have hne : ∀ d : Char, d.toNat < 65 ∨ d.toNat = 92 → c ≠ d := by
    rintro d hd rfl; omega
  unfold jsonChar
  rw [if_neg (by rintro (h | h); exacts [hne _ (.inl (by decide)) h, hne _ (.inr (by decide)) h]),
    if_neg (hne _ (.inl (by decide))), if_neg (hne _ (.inl (by decide))), if_neg (hne _ (.inl (by decide))),
    if_neg (by omega), if_neg (by omega), if_pos (by omega)]

theorem letter_case {c : Char} (h : Letter c) : Letter c.toUpper ∧ Letter c.toLower := by
  have key : ∀ n < 128, ((97 ≤ (Char.ofNat n).toNat ∧ (Char.ofNat n).toNat ≤ 122) ∨ (65 ≤ (Char.ofNat n).toNat ∧ (Char.ofNat n).toNat ≤ 90)) →
      ((97 ≤ (Char.ofNat n).toUpper.toNat ∧ (Char.ofNat n).toUpper.toNat ≤ 122) ∨ (65 ≤ (Char.ofNat n).toUpper.toNat ∧ (Char.ofNat n).toUpper.toNat ≤ 90)) ∧
      ((97 ≤ (Char.ofNat n).toLower.toNat ∧ (Char.ofNat n).toLower.toNat ≤ 122) ∨ (65 ≤ (Char.ofNat n).toLower.toNat ∧ (Char.ofNat n).toLower.toNat ≤ 90)) := by
    decide +kernel
  rw [letter_iff] at h
  have := key c.toNat (by omega)
  rw [Char.ofNat_toNat] at this
  rw [letter_iff, letter_iff]
  exact this h

theorem capitalize_letters {l : List Char} (h : ∀ c ∈ l, Letter c) : ∀ c ∈ capitalize l, Letter c := by
  cases l with
  | nil => intro c hc; cases hc
  | cons d l =>
    intro c hc
    rcases List.mem_cons.mp hc with rfl | hc
    · exact (letter_case (h d List.mem_cons_self)).1
    · obtain ⟨e, he, rfl⟩ := List.mem_map.mp hc
      exact (letter_case (h e (List.mem_cons_of_mem _ he))).2

theorem letters_json {l : List Char} (h : ∀ c ∈ l, Letter c) : l.flatMap jsonChar = l := by
  induction l with
  | nil => rfl
  | cons c l ih =>
    rw [List.flatMap_cons, letter_json (h c List.mem_cons_self), ih fun d hd => h d (List.mem_cons_of_mem _ hd)]
    rfl

theorem letter_cases {c : Char} (h : Letter c) : (65 ≤ c.toUpper.toNat ∧ c.toUpper.toNat ≤ 90) ∧ (97 ≤ c.toLower.toNat ∧ c.toLower.toNat ≤ 122) ∧
    c.toUpper.toLower = c.toLower ∧ c.toLower.toLower = c.toLower := by
  have key : ∀ n < 128, ((97 ≤ (Char.ofNat n).toNat ∧ (Char.ofNat n).toNat ≤ 122) ∨ (65 ≤ (Char.ofNat n).toNat ∧ (Char.ofNat n).toNat ≤ 90)) →
      (65 ≤ (Char.ofNat n).toUpper.toNat ∧ (Char.ofNat n).toUpper.toNat ≤ 90) ∧ (97 ≤ (Char.ofNat n).toLower.toNat ∧ (Char.ofNat n).toLower.toNat ≤ 122) ∧
      (Char.ofNat n).toUpper.toLower = (Char.ofNat n).toLower ∧ (Char.ofNat n).toLower.toLower = (Char.ofNat n).toLower := by
    decide +kernel
  rw [letter_iff] at h
  have := key c.toNat (by omega)
  rw [Char.ofNat_toNat] at this
  exact this h

/-- **C135**: the name of a city is a capital letter followed by small ones, and the letters are those drawn, up to the case. -/
theorem C135_name {letters : List Char} (h : ∀ c ∈ letters, Letter c) :
    (∀ c ∈ (capitalize letters).head?, 'A' ≤ c ∧ c ≤ 'Z') ∧ (∀ c ∈ (capitalize letters).tail, 'a' ≤ c ∧ c ≤ 'z') ∧
      (capitalize letters).map Char.toLower = letters.map Char.toLower := by
  cases letters with
  | nil => exact ⟨fun c hc => (by cases hc), fun c hc => (by cases hc), rfl⟩
  | cons d l =>
    refine ⟨?_, ?_, ?_⟩
    · intro c hc
      cases hc
      exact (letter_cases (h d List.mem_cons_self)).1
    · intro c hc
      obtain ⟨e, he, rfl⟩ := List.mem_map.mp hc
      exact (letter_cases (h e (List.mem_cons_of_mem _ he))).2.1
    · simp only [capitalize, List.map_cons, List.map_map, (letter_cases (h d List.mem_cons_self)).2.2.1]
      congr 1
      exact List.map_congr_left fun e he => (letter_cases (h e (List.mem_cons_of_mem _ he))).2.2.2

/-- **C135**: the message for a city is what `json.dumps` gives for the city. -/
theorem C135_message (fmt : ℚ → List Char) {letters : List Char} (h : ∀ c ∈ letters, Letter c) (lon lat : ℚ) :
    cityMessage fmt letters lon lat = jsonText fmt (cityJson (capitalize letters) lon lat) := by
  have hl := letters_json (capitalize_letters h)
  simp [cityMessage, cityJson, jsonText, jsonFields, jsonTail, jsonString, hl, chars]

/-- **C135**: different cities have different messages, if different numbers are written differently. -/
theorem C135_distinct {fmt : ℚ → List Char} (hf : NumberFormat fmt) {l l' : List Char} (h : ∀ c ∈ l, Letter c) (h' : ∀ c ∈ l', Letter c)
    {lon lat lon' lat' : ℚ} : cityMessage fmt l lon lat = cityMessage fmt l' lon' lat' ↔ capitalize l = capitalize l' ∧ lon = lon' ∧ lat = lat' := by
  constructor
  · intro e
    rw [C135_message fmt h, C135_message fmt h'] at e
    have := (C129_text hf).1 _ _ e
    simp only [cityJson, Json.obj.injEq, List.cons.injEq, Prod.mk.injEq, Json.arr.injEq, Json.num.injEq, and_true] at this
    exact ⟨String.ofList_injective this.1, this.2⟩
  · rintro ⟨e, rfl, rfl⟩
    simp only [cityMessage, e]

theorem mapM_perm {α β : Type} {f : α → Except Err β} {g : α → β} {l l' : List α} (h : l.Perm l') (hg : ∀ a ∈ l', f a = .ok (g a)) :
    l.mapM f = .ok (l.map g) ∧ (l.map g).Perm (l'.map g) := by
  refine ⟨?_, h.map g⟩
  have hl : ∀ a ∈ l, f a = .ok (g a) := fun a ha => hg a (h.mem_iff.mp ha)
  clear h hg
  induction l with
  | nil => rfl
  | cons a l ih =>
    rw [List.mapM_cons, hl a List.mem_cons_self, ih fun b hb => hl b (List.mem_cons_of_mem _ hb)]
    rfl

/-- **C135**: a pipeline that reads JSON from the topic of the publisher of cities gets each city that was sent once, and the application
takes from it the name, the longitude and the latitude that were drawn. -/
theorem C135_cities {fmt : ℚ → List Char} {loads : List Char → Except Err Json} (hl : LoadsPairs fmt loads)
    {letters : Nat → List Char} (h : ∀ i, ∀ c ∈ letters i, Letter c) (lon lat : Nat → ℚ) {e n : Nat} (he : 1 ≤ e) (hn : e ≤ n)
    {p t : List Char} (hp : '/' ∉ p) {attached : List Char → Option (List Char)} {deliver : PubSub.Source → List ByteArray}
    (hd : Delivers (published [⟨p, t, (publish e (fun i => cityMessage fmt (letters i) (lon i) (lat i)) n 1).1⟩]) attached deliver)
    (s : Option (List Char)) :
    ∃ js cs, readAsJson loads deliver p (some t) s = .ok js ∧ js.mapM cityOf = .ok cs ∧
      cs.Perm ((List.range' 1 e).map fun i => ⟨String.ofList (capitalize (letters i)), lon i, lat i⟩) := by
  obtain ⟨l, h1, h2⟩ := C134_topic hd hp (fun w hw => by rw [List.mem_singleton.mp hw]; exact hp) s
  have hw : writtenTo [⟨p, t, (publish e (fun i => cityMessage fmt (letters i) (lon i) (lat i)) n 1).1⟩] p t =
      (List.range' 1 e).map fun i => cityMessage fmt (letters i) (lon i) (lat i) := by
    rw [publish_eq _ n 1 he]
    have : ¬ n ≤ e - 1 := by omega
    simp [writtenTo, this]
  rw [hw] at h2
  let g : List Char → Json := fun x => match loads x with | .ok j => j | .error _ => .null
  let k : Json → Tsp.City (ℚ × ℚ) := fun j => match cityOf j with | .ok c => c | .error _ => ⟨"", 0, 0⟩
  have hload : ∀ i, loads (cityMessage fmt (letters i) (lon i) (lat i)) = .ok (cityJson (capitalize (letters i)) (lon i) (lat i)) := fun i => by
    rw [C135_message fmt (h i)]; exact hl _ _ _
  have hg : ∀ i, g (cityMessage fmt (letters i) (lon i) (lat i)) = cityJson (capitalize (letters i)) (lon i) (lat i) := fun i => by
    simp only [g, hload]
  obtain ⟨h3, h4⟩ := mapM_perm (f := loads) (g := g) h2 (by
    intro a ha
    obtain ⟨i, -, rfl⟩ := List.mem_map.mp ha
    rw [hg, hload])
  rw [List.map_map] at h4
  obtain ⟨h5, h6⟩ := mapM_perm (f := cityOf) (g := k) h4 (by
    intro a ha
    obtain ⟨i, -, rfl⟩ := List.mem_map.mp ha
    simp only [Function.comp_apply, hg]
    rfl)
  refine ⟨_, _, by show (PubSub.read deliver p (some t) s >>= fun ms => ms.mapM loads) = _; rw [h1]; exact h3, h5, ?_⟩
  refine h6.trans (.of_eq ((List.map_map ..).trans (List.map_congr_left fun i _ => ?_)))
  simp only [Function.comp_apply, hg]
  rfl

/-- **C135**: unlike a reader of numbers, which skips other texts, a reader of JSON fails at the first text that is no JSON. -/
theorem C135_no_json {loads : List Char → Except Err Json} {deliver : PubSub.Source → List ByteArray} {p t : List Char} {s : Option (List Char)}
    {l : List (List Char)} (hl : PubSub.read deliver p (some t) s = .ok l) :
    (∃ js, readAsJson loads deliver p (some t) s = .ok js) ↔ ∀ x ∈ l, ∃ j, loads x = .ok j := by
  have : readAsJson loads deliver p (some t) s = l.mapM loads := by
    show (PubSub.read deliver p (some t) s >>= fun ms => ms.mapM loads) = _; rw [hl]; rfl
  rw [this]
  clear this hl
  induction l with
  | nil => exact ⟨fun _ _ hx => (List.not_mem_nil hx).elim, fun _ => ⟨[], rfl⟩⟩
  | cons x l ih =>
    rw [List.mapM_cons, List.forall_mem_cons]
    refine Iff.trans ?_ (and_congr_right' ih)
    cases hx : loads x with
    | error e => exact ⟨fun ⟨_, h⟩ => (by cases h), fun ⟨⟨_, h⟩, _⟩ => by cases h⟩
    | ok j =>
      cases hm : l.mapM loads with
      | error e => exact ⟨fun ⟨_, h⟩ => (by cases h), fun ⟨_, _, h⟩ => by cases h⟩
      | ok js => exact ⟨fun _ => ⟨⟨_, rfl⟩, _, rfl⟩, fun _ => ⟨_, rfl⟩⟩

/-- **C135**: the subscriber prints one line for each text written to the topic of its subscription, which ends in that text. -/
theorem C135_shown {ws : List Writer} {attached : List Char → Option (List Char)} {deliver : PubSub.Source → List ByteArray}
    (hd : Delivers (published ws) attached deliver) {p q t s : List Char} (hp : '/' ∉ p) (hw : ∀ w ∈ ws, '/' ∉ w.project)
    (ha : attached (subscriptionPath q s) = some (topicPath p t)) (time : Nat → List Char) :
    ∃ l : List (List Char), l.Perm (writtenTo ws p t) ∧ subscriberLines deliver q s time =
      l.mapIdx fun i x => .ok (chars "[" ++ time i ++ chars "] Received message from '" ++ subscriptionPath q s ++ chars "': " ++ x) := by
  obtain ⟨l, h1, h2⟩ := C134_subscription hd hp hw ha
  refine ⟨l, h2, ?_⟩
  change (deliver (.subscription (subscriptionPath q s))).mapM decodeText = .ok l at h1
  unfold subscriberLines
  clear h2 ha hd
  generalize deliver (.subscription (subscriptionPath q s)) = bs at h1
  induction bs generalizing l time with
  | nil => cases h1; rfl
  | cons b bs ih =>
    rw [List.mapM_cons] at h1
    cases hb : decodeText b with
    | error e => rw [hb] at h1; cases h1
    | ok x =>
      cases hm : bs.mapM decodeText with
      | error e => rw [hb, hm] at h1; cases h1
      | ok l' =>
        rw [hb, hm] at h1
        cases h1
        rw [List.mapIdx_cons, List.mapIdx_cons]
        congr 1
        · simp only [receivedLine, hb]; rfl
        · exact ih (fun i => time (i + 1)) l' hm

/-! ### Cases -/

/-- `C135_name`, `C135_message`, `C135_distinct`: letters, and the message for them. -/
example : (∀ c ∈ ['k', 'Y', 'o'], Letter c) ∧ cityMessage (fun q => strInt q.num) ['k', 'Y', 'o'] 135 35 = chars "{\"Kyo\": [135, 35]}" := by
  refine ⟨?_, by decide +kernel⟩
  intro c hc
  rw [letter_iff]
  revert c
  decide

/-- Letters of different case give the same city, hence `capitalize` in `C135_distinct`. -/
example : capitalize ['k', 'Y', 'o'] = capitalize ['K', 'y', 'O'] := by decide

/-- With a quotation mark in the name the message would be another one than `json.dumps` gives. -/
example : cityMessage (fun q => strInt q.num) ['"'] 1 2 ≠ jsonText (fun q => strInt q.num) (cityJson ['"'] 1 2) := by decide +kernel

/-- `C135_cities`: there are such a reader of JSON and such a service, for any letters and numbers. -/
example (letters : Nat → List Char) (lon lat : Nat → ℚ) : ∃ (loads : List Char → Except Err Json) (attached : List Char → Option (List Char))
    (deliver : PubSub.Source → List ByteArray), LoadsPairs Ex.format loads ∧
      Delivers (published [⟨['a'], ['t'], (publish 3 (fun i => cityMessage Ex.format (letters i) (lon i) (lat i)) 5 1).1⟩]) attached deliver := by
  classical
  refine ⟨fun x => if h : ∃ j, jsonText Ex.format j = x then .ok h.choose else .error .valueError, fun _ => none, fun s => match s with
    | .topic path => ((published [⟨['a'], ['t'], (publish 3 (fun i => cityMessage Ex.format (letters i) (lon i) (lat i)) 5 1).1⟩]).filter
        (·.1 = path)).map (·.2)
    | .subscription _ => [], ?_, fun _ => .refl _, fun _ _ h => by cases h⟩
  intro name a b
  have h : ∃ i, jsonText Ex.format i = jsonText Ex.format (.obj [(name, .arr [.num a, .num b])]) := ⟨_, rfl⟩
  simp only [h, dif_pos]
  exact congrArg Except.ok ((C129_text Ex.format_good).1 _ _ h.choose_spec)

/-- `C135_no_json`: a service that delivers two texts, one of which a reader rejects. -/
example : ∃ (deliver : PubSub.Source → List ByteArray) (loads : List Char → Except Err Json),
    PubSub.read deliver ['a'] (some ['t']) none = .ok [['1'], ['x']] ∧ (∃ j, loads ['1'] = .ok j) ∧ loads ['x'] = .error .valueError :=
  ⟨fun _ => [['1'].utf8Encode, ['x'].utf8Encode], fun x => if x = ['1'] then .ok (.num 1) else .error .valueError,
    mapM_decodeText [['1'], ['x']], ⟨_, rfl⟩, rfl⟩

/-- `C135_shown`: see the case of `C134_subscription`, a subscription of the topic of one of two writers; a line: -/
example : receivedLine ['0'] (subscriptionPath ['c'] ['s']) ['é'].utf8Encode =
    .ok (chars "[0] Received message from 'projects/c/subscriptions/s': é") := by
  unfold receivedLine
  rw [decodeText_encode]
  rfl

end Sawatabi.Props
