import Verif.Model.JsonText
import Verif.Props.OptiganHttp
import Verif.Props.ConstraintText

/-!
# The text of the payload can be read (C129)
-/

namespace Sawatabi.Props

open Sawatabi.Http Sawatabi.Text

/-- A way to write numbers: not empty, with digits, signs, points and exponents only, and different numbers differ. -/
structure NumberFormat (fmt : ℚ → List Char) : Prop where
  nonempty : ∀ q, fmt q ≠ []
  plain : ∀ q, ∀ c ∈ fmt q, c ∈ ['0', '1', '2', '3', '4', '5', '6', '7', '8', '9', '-', '+', '.', 'e']
  inj : ∀ q q', fmt q = fmt q' → q = q'

/-! ## Strings -/

theorem char_range (c : Char) : c.toNat < 55296 ∨ (57343 < c.toNat ∧ c.toNat < 1114112) := c.valid

/-- How a character is written in JSON. -/
inductive JForm (c : Char) : List Char → Prop where
  | plain (h : c ≠ '"') (h' : c ≠ '\\') : JForm c [c]
  | letter (k : Char) (hk : (k, c.toNat) ∈ [('"', 34), ('\\', 92), ('n', 10), ('r', 13), ('t', 9), ('f', 12), ('b', 8)]) : JForm c ['\\', k]
  | short (h : c.toNat < 65536) : JForm c (['\\', 'u'] ++ hex 4 c.toNat)
  | pair (h : ¬ c.toNat < 65536) : JForm c (['\\', 'u'] ++ hex 4 (55296 + (c.toNat - 65536) / 1024) ++
      (['\\', 'u'] ++ hex 4 (56320 + (c.toNat - 65536) % 1024)))

theorem jsonChar_form (c : Char) : JForm c (jsonChar c) := by
  unfold jsonChar
  split_ifs with h1 h2 h3 h4 h5 h6 h7 h8
  · rcases h1 with rfl | rfl
    · exact .letter _ (by decide)
    · exact .letter _ (by decide)
  · subst h2; exact .letter _ (by decide)
  · subst h3; exact .letter _ (by decide)
  · subst h4; exact .letter _ (by decide)
  · exact .letter _ (by simp [h5])
  · exact .letter _ (by simp [h6])
  · exact .plain (fun h => h1 (.inl h)) fun h => h1 (.inr h)
  · exact .short h8
  · exact .pair h8

theorem jsonChar_read {c c' : Char} {a b : List Char} (h : jsonChar c ++ a = jsonChar c' ++ b) : c = c' ∧ a = b := by
  have f := jsonChar_form c
  have f' := jsonChar_form c'
  generalize jsonChar c = t at f h
  generalize jsonChar c' = t' at f' h
  have hr := char_range c
  have hr' := char_range c'
  have hu : ∀ {k : Char} {n : Nat}, (k, n) ∈ [('"', 34), ('\\', 92), ('n', 10), ('r', 13), ('t', 9), ('f', 12), ('b', 8)] → k ≠ 'u' := by
    intro k n hk; simp at hk; rcases hk with ⟨rfl, _⟩ | ⟨rfl, _⟩ | ⟨rfl, _⟩ | ⟨rfl, _⟩ | ⟨rfl, _⟩ | ⟨rfl, _⟩ | ⟨rfl, _⟩ <;> decide
  have hfun : ∀ {k : Char} {n n' : Nat}, (k, n) ∈ [('"', 34), ('\\', 92), ('n', 10), ('r', 13), ('t', 9), ('f', 12), ('b', 8)] →
      (k, n') ∈ [('"', 34), ('\\', 92), ('n', 10), ('r', 13), ('t', 9), ('f', 12), ('b', 8)] → n = n' := by
    intro k n n' hk hk'
    simp at hk hk'
    rcases hk with ⟨rfl, rfl⟩ | ⟨rfl, rfl⟩ | ⟨rfl, rfl⟩ | ⟨rfl, rfl⟩ | ⟨rfl, rfl⟩ | ⟨rfl, rfl⟩ | ⟨rfl, rfl⟩ <;> simp at hk' <;> exact hk'.symm
  cases f with
  | plain h1 h2 =>
    cases f' with
    | plain _ _ => simpa using h
    | _ =>
      simp only [List.cons_append, List.nil_append, List.cons.injEq] at h
      exact absurd h.1 h2
  | letter k hk =>
    cases f' with
    | plain h1 h2 =>
      simp only [List.cons_append, List.nil_append, List.cons.injEq] at h
      exact absurd h.1.symm h2
    | letter k' hk' =>
      simp only [List.cons_append, List.nil_append, List.cons.injEq, true_and] at h
      obtain ⟨rfl, h⟩ := h
      exact ⟨Char.toNat_inj.mp (hfun hk hk'), h⟩
    | _ =>
      simp only [List.cons_append, List.nil_append, List.append_assoc, List.cons.injEq, true_and] at h
      exact absurd h.1 (hu hk)
  | short hlt =>
    cases f' with
    | plain h1 h2 =>
      simp only [List.cons_append, List.nil_append, List.cons.injEq] at h
      exact absurd h.1.symm h2
    | letter k' hk' =>
      simp only [List.cons_append, List.nil_append, List.cons.injEq, true_and] at h
      exact absurd h.1.symm (hu hk')
    | short hlt' =>
      simp only [List.cons_append, List.nil_append, List.cons.injEq, true_and] at h
      obtain ⟨e, h⟩ := hex_read (w := 4) (by omega) (by omega) h
      exact ⟨Char.toNat_inj.mp e, h⟩
    | pair hge =>
      simp only [List.cons_append, List.nil_append, List.append_assoc, List.cons.injEq, true_and] at h
      have := (hex_read (w := 4) (by omega) (by omega) h).1
      omega
  | pair hge =>
    cases f' with
    | plain h1 h2 =>
      simp only [List.cons_append, List.nil_append, List.append_assoc, List.cons.injEq] at h
      exact absurd h.1.symm h2
    | letter k' hk' =>
      simp only [List.cons_append, List.nil_append, List.append_assoc, List.cons.injEq, true_and] at h
      exact absurd h.1.symm (hu hk')
    | short hlt' =>
      simp only [List.cons_append, List.nil_append, List.append_assoc, List.cons.injEq, true_and] at h
      have := (hex_read (w := 4) (by omega) (by omega) h).1
      omega
    | pair hge' =>
      simp only [List.cons_append, List.nil_append, List.append_assoc, List.cons.injEq, true_and] at h
      obtain ⟨e, h⟩ := hex_read (w := 4) (by omega) (by omega) h
      simp only [List.cons.injEq, true_and] at h
      obtain ⟨e', h⟩ := hex_read (w := 4) (by omega) (by omega) h
      refine ⟨Char.toNat_inj.mp ?_, h⟩
      omega

theorem jsonChar_head (c : Char) (a b : List Char) : jsonChar c ++ a ≠ '"' :: b := by
  have f := jsonChar_form c
  generalize jsonChar c = t at f
  cases f with
  | plain h h' => intro e; simp only [List.cons_append, List.nil_append, List.cons.injEq] at e; exact h e.1
  | _ => intro e; simp only [List.cons_append, List.nil_append, List.append_assoc, List.cons.injEq] at e; exact absurd e.1 (by decide)

theorem jsonString_read {s s' : String} {a b : List Char} (h : jsonString s ++ a = jsonString s' ++ b) : s = s' ∧ a = b := by
  unfold jsonString at h
  simp only [List.cons_append, List.append_assoc, List.nil_append, List.cons.injEq, true_and] at h
  suffices H : ∀ l l' : List Char, l.flatMap jsonChar ++ '"' :: a = l'.flatMap jsonChar ++ '"' :: b → l = l' ∧ a = b by
    obtain ⟨h1, h2⟩ := H _ _ h
    exact ⟨String.toList_inj.mp h1, h2⟩
  intro l
  induction l with
  | nil =>
    intro l' h
    cases l' with
    | nil => simpa using h
    | cons c l' => exact absurd h.symm (by rw [List.flatMap_cons, List.append_assoc]; exact jsonChar_head _ _ _)
  | cons c l ih =>
    intro l' h
    cases l' with
    | nil => exact absurd h (by rw [List.flatMap_cons, List.append_assoc]; exact jsonChar_head _ _ _)
    | cons c' l' =>
      rw [List.flatMap_cons, List.append_assoc, List.flatMap_cons, List.append_assoc] at h
      replace h := jsonChar_read h
      obtain ⟨e, h⟩ := h
      subst e
      replace h := ih _ h
      obtain ⟨e, h⟩ := h
      subst e
      exact ⟨rfl, h⟩

/-! ## Values -/

/-- What may follow a value. -/
def Stops (s : List Char) : Prop := ∀ c ∈ s.head?, c = ',' ∨ c = ']' ∨ c = '}'

variable {fmt : ℚ → List Char}

theorem number_read (hf : NumberFormat fmt) {q q' : ℚ} {s t : List Char} (hs : Stops s) (ht : Stops t) (h : fmt q ++ s = fmt q' ++ t) :
    q = q' ∧ s = t := by
  have key : ∀ (u v s t : List Char), Stops s → Stops t →
      (∀ c ∈ u, c ∈ ['0', '1', '2', '3', '4', '5', '6', '7', '8', '9', '-', '+', '.', 'e']) →
      (∀ c ∈ v, c ∈ ['0', '1', '2', '3', '4', '5', '6', '7', '8', '9', '-', '+', '.', 'e']) → u ++ s = v ++ t → u = v ∧ s = t := by
    have hno : ∀ (c : Char) (s u : List Char) , Stops s → c ∈ ['0', '1', '2', '3', '4', '5', '6', '7', '8', '9', '-', '+', '.', 'e'] →
        s ≠ c :: u := by
      intro c s u hs hc h
      subst h
      rcases hs c (by simp) with rfl | rfl | rfl <;> exact absurd hc (by decide)
    intro u
    induction u with
    | nil =>
      intro v s t hs ht _ hv h
      cases v with
      | nil => simpa using h
      | cons c v => exact absurd h (hno c s _ hs (hv c (by simp)))
    | cons c u ih =>
      intro v s t hs ht hu hv h
      cases v with
      | nil => exact absurd h.symm (hno c t _ ht (hu c (by simp)))
      | cons c' v =>
        simp only [List.cons_append, List.cons.injEq] at h
        obtain ⟨rfl, h⟩ := h
        replace h := ih v s t hs ht (fun x hx => hu x (by simp [hx])) (fun x hx => hv x (by simp [hx])) h
        obtain ⟨e, h⟩ := h
        subst e
        exact ⟨rfl, h⟩
  obtain ⟨h1, h2⟩ := key _ _ _ _ hs ht (hf.plain q) (hf.plain q') h
  exact ⟨hf.inj _ _ h1, h2⟩

/-- The first character of a value tells its kind. -/
def kindOf : Json → Nat
  | .null => 0
  | .bool true => 1
  | .bool false => 2
  | .num _ => 3
  | .str _ => 4
  | .arr _ => 5
  | .obj _ => 6

/-- The kind that a first character stands for. -/
def kindOfChar (c : Char) : Nat :=
  if c = 'n' then 0 else if c = 't' then 1 else if c = 'f' then 2 else if c = '"' then 4 else if c = '[' then 5 else
  if c = '{' then 6 else 3

theorem jsonText_head (hf : NumberFormat fmt) (a : Json) : ∃ c r, jsonText fmt a = c :: r ∧ kindOfChar c = kindOf a ∧ c ≠ ']' ∧ c ≠ '}' := by
  cases a with
  | null => exact ⟨_, _, rfl, rfl, by decide, by decide⟩
  | bool b => cases b <;> exact ⟨_, _, rfl, rfl, by decide, by decide⟩
  | num q =>
    cases h : fmt q with
    | nil => exact absurd h (hf.nonempty q)
    | cons c r =>
      have hc := hf.plain q c (by simp [h])
      refine ⟨c, r, by simp [jsonText, h], ?_⟩
      simp only [List.mem_cons, List.not_mem_nil, or_false] at hc
      rcases hc with rfl | rfl | rfl | rfl | rfl | rfl | rfl | rfl | rfl | rfl | rfl | rfl | rfl | rfl <;>
        exact ⟨rfl, by decide, by decide⟩
  | str s => exact ⟨_, _, by rw [jsonText, jsonString], rfl, by decide, by decide⟩
  | arr l =>
    cases l with
    | nil => exact ⟨_, _, by rw [jsonText], rfl, by decide, by decide⟩
    | cons x l => exact ⟨_, _, by rw [jsonText], rfl, by decide, by decide⟩
  | obj l =>
    rcases l with _ | ⟨⟨s, x⟩, l⟩
    · exact ⟨_, _, by rw [jsonText], rfl, by decide, by decide⟩
    · exact ⟨_, _, by rw [jsonText], rfl, by decide, by decide⟩

theorem kind_eq (hf : NumberFormat fmt) {a b : Json} {s t : List Char} (h : jsonText fmt a ++ s = jsonText fmt b ++ t) : kindOf a = kindOf b := by
  obtain ⟨c, r, h1, h2, _⟩ := jsonText_head hf a
  obtain ⟨c', r', h1', h2', _⟩ := jsonText_head hf b
  rw [h1, h1'] at h
  simp only [List.cons_append, List.cons.injEq] at h
  rw [← h2, ← h2', h.1]

theorem stops_tail (l : List Json) (s : List Char) : Stops (jsonTail fmt l ++ s) := by
  cases l <;> intro c hc <;> simp [jsonTail] at hc <;> simp [hc.symm]

theorem stops_fields (l : List (String × Json)) (s : List Char) : Stops (jsonFields fmt l ++ s) := by
  rcases l with _ | ⟨⟨k, x⟩, l⟩ <;> intro c hc <;> simp [jsonFields] at hc <;> simp [hc.symm]

mutual
theorem jsonText_read (hf : NumberFormat fmt) : ∀ (a b : Json) (s t : List Char), Stops s → Stops t →
    jsonText fmt a ++ s = jsonText fmt b ++ t → a = b ∧ s = t
  | .null, b, s, t, _, _, h => by
    have hk := kind_eq hf h
    rcases b with _ | (_ | _) | _ | _ | _ | _ <;> simp [kindOf] at hk
    simpa [jsonText] using h
  | .bool true, b, s, t, _, _, h => by
    have hk := kind_eq hf h
    rcases b with _ | (_ | _) | _ | _ | _ | _ <;> simp [kindOf] at hk
    simpa [jsonText] using h
  | .bool false, b, s, t, _, _, h => by
    have hk := kind_eq hf h
    rcases b with _ | (_ | _) | _ | _ | _ | _ <;> simp [kindOf] at hk
    simpa [jsonText] using h
  | .num q, b, s, t, hs, ht, h => by
    have hk := kind_eq hf h
    rcases b with _ | (_ | _) | q' | _ | _ | _ <;> simp [kindOf] at hk
    rw [jsonText, jsonText] at h
    replace h := number_read hf hs ht h
    obtain ⟨e, h⟩ := h
    subst e
    exact ⟨rfl, h⟩
  | .str x, b, s, t, _, _, h => by
    have hk := kind_eq hf h
    rcases b with _ | (_ | _) | _ | y | _ | _ <;> simp [kindOf] at hk
    rw [jsonText, jsonText] at h
    replace h := jsonString_read h
    obtain ⟨e, h⟩ := h
    subst e
    exact ⟨rfl, h⟩
  | .arr [], b, s, t, _, _, h => by
    have hk := kind_eq hf h
    rcases b with _ | (_ | _) | _ | _ | l' | _ <;> simp [kindOf] at hk
    cases l' with
    | nil => simpa [jsonText] using h
    | cons y l' =>
      obtain ⟨c, r, hc, _, h1, _⟩ := jsonText_head hf y
      simp only [jsonText, hc, List.cons_append, List.nil_append, List.cons.injEq, true_and] at h
      exact absurd h.1.symm h1
  | .arr (x :: l), b, s, t, _, _, h => by
    have hk := kind_eq hf h
    rcases b with _ | (_ | _) | _ | _ | l' | _ <;> simp [kindOf] at hk
    cases l' with
    | nil =>
      obtain ⟨c, r, hc, _, h1, _⟩ := jsonText_head hf x
      simp only [jsonText, hc, List.cons_append, List.nil_append, List.cons.injEq, true_and] at h
      exact absurd h.1 h1
    | cons y l' =>
      simp only [jsonText, List.cons_append, List.append_assoc, List.cons.injEq, true_and] at h
      replace h := jsonText_read hf x y _ _ (stops_tail _ _) (stops_tail _ _) h
      obtain ⟨e, h⟩ := h
      subst e
      replace h := jsonTail_read hf l l' s t h
      obtain ⟨e, h⟩ := h
      subst e
      exact ⟨rfl, h⟩
  | .obj [], b, s, t, _, _, h => by
    have hk := kind_eq hf h
    rcases b with _ | (_ | _) | _ | _ | _ | l' <;> simp [kindOf] at hk
    rcases l' with _ | ⟨⟨k, y⟩, l'⟩
    · simpa [jsonText] using h
    · simp [jsonText, jsonString] at h
  | .obj ((k, x) :: l), b, s, t, _, _, h => by
    have hk := kind_eq hf h
    rcases b with _ | (_ | _) | _ | _ | _ | l' <;> simp [kindOf] at hk
    rcases l' with _ | ⟨⟨k', y⟩, l'⟩
    · simp [jsonText, jsonString] at h
    · simp only [jsonText, List.cons_append, List.append_assoc, List.cons.injEq, true_and] at h
      replace h := jsonString_read h
      obtain ⟨e, h⟩ := h
      subst e
      simp only [List.cons.injEq, true_and] at h
      replace h := jsonText_read hf x y _ _ (stops_fields _ _) (stops_fields _ _) h
      obtain ⟨e, h⟩ := h
      subst e
      replace h := jsonFields_read hf l l' s t h
      obtain ⟨e, h⟩ := h
      subst e
      exact ⟨rfl, h⟩
theorem jsonTail_read (hf : NumberFormat fmt) : ∀ (l l' : List Json) (s t : List Char),
    jsonTail fmt l ++ s = jsonTail fmt l' ++ t → l = l' ∧ s = t
  | [], [], s, t, h => by simpa [jsonTail] using h
  | [], y :: l', s, t, h => by simp [jsonTail] at h
  | x :: l, [], s, t, h => by simp [jsonTail] at h
  | x :: l, y :: l', s, t, h => by
    simp only [jsonTail, List.cons_append, List.append_assoc, List.cons.injEq, true_and] at h
    replace h := jsonText_read hf x y _ _ (stops_tail _ _) (stops_tail _ _) h
    obtain ⟨e, h⟩ := h
    subst e
    replace h := jsonTail_read hf l l' s t h
    obtain ⟨e, h⟩ := h
    subst e
    exact ⟨rfl, h⟩
theorem jsonFields_read (hf : NumberFormat fmt) : ∀ (l l' : List (String × Json)) (s t : List Char),
    jsonFields fmt l ++ s = jsonFields fmt l' ++ t → l = l' ∧ s = t
  | [], [], s, t, h => by simpa [jsonFields] using h
  | [], (k, y) :: l', s, t, h => by simp [jsonFields] at h
  | (k, x) :: l, [], s, t, h => by simp [jsonFields] at h
  | (k, x) :: l, (k', y) :: l', s, t, h => by
    simp only [jsonFields, List.cons_append, List.append_assoc, List.cons.injEq, true_and] at h
    replace h := jsonString_read h
    obtain ⟨e, h⟩ := h
    subst e
    simp only [List.cons.injEq, true_and] at h
    replace h := jsonText_read hf x y _ _ (stops_fields _ _) (stops_fields _ _) h
    obtain ⟨e, h⟩ := h
    subst e
    replace h := jsonFields_read hf l l' s t h
    obtain ⟨e, h⟩ := h
    subst e
    exact ⟨rfl, h⟩
end

/-- The JSON text tells the value, so that the hypothesis about readers in this file's theorems can be met for every compression that can be
undone. -/
theorem C129_text (hf : NumberFormat fmt) : (∀ a b, jsonText fmt a = jsonText fmt b → a = b) ∧
    ∀ gzip gunzip : List Char → List Char, (∀ x, gunzip (gzip x) = x) →
      ∃ r : Reader (List Char), r.gunzip = gunzip ∧ r.Undoes ⟨jsonText fmt, gzip⟩ := by
  have hinj : ∀ a b, jsonText fmt a = jsonText fmt b → a = b := fun a b h =>
    (jsonText_read hf a b [] [] (by simp [Stops]) (by simp [Stops]) (by simpa using h)).1
  refine ⟨hinj, fun gzip gunzip hg => ?_⟩
  classical
  refine ⟨⟨fun x => if h : ∃ j, jsonText fmt j = x then some h.choose else none, gunzip⟩, rfl, ?_, hg⟩
  intro j
  have h : ∃ i, jsonText fmt i = jsonText fmt j := ⟨j, rfl⟩
  simp only [h, dif_pos]
  exact congrArg some (hinj _ _ h.choose_spec)

/-! ## Only printable ASCII -/

/-- Printable ASCII. -/
def Ascii (l : List Char) : Prop := ∀ c ∈ l, 32 ≤ c.toNat ∧ c.toNat ≤ 126

theorem Ascii.append {l l' : List Char} (h : Ascii l) (h' : Ascii l') : Ascii (l ++ l') := by
  intro c hc; rcases List.mem_append.mp hc with hc | hc
  · exact h c hc
  · exact h' c hc

theorem Ascii.cons {c : Char} {l : List Char} (hc : 32 ≤ c.toNat ∧ c.toNat ≤ 126) (h : Ascii l) : Ascii (c :: l) := by
  intro x hx; rcases List.mem_cons.mp hx with rfl | hx
  · exact hc
  · exact h x hx

theorem Ascii.nil : Ascii [] := by intro c hc; cases hc

theorem hex_ascii (w n : Nat) : Ascii (hex w n) := by
  induction w generalizing n with
  | zero => exact .nil
  | succ w ih =>
    refine (ih _).append (.cons ?_ .nil)
    have : ∀ k : Fin 16, 32 ≤ (Nat.digitChar k.val).toNat ∧ (Nat.digitChar k.val).toNat ≤ 126 := by decide
    exact this ⟨n % 16, Nat.mod_lt _ (by norm_num)⟩

theorem jsonChar_ascii (c : Char) : Ascii (jsonChar c) := by
  have h2 : ∀ k : Char, 32 ≤ k.toNat ∧ k.toNat ≤ 126 → Ascii ['\\', k] := fun k hk => .cons (by decide) (.cons hk .nil)
  unfold jsonChar
  split_ifs with h1 _ _ _ _ _ h7 _
  · rcases h1 with rfl | rfl <;> exact h2 _ (by decide)
  · exact h2 _ (by decide)
  · exact h2 _ (by decide)
  · exact h2 _ (by decide)
  · exact h2 _ (by decide)
  · exact h2 _ (by decide)
  · exact .cons h7 .nil
  · exact (h2 _ (by decide)).append (hex_ascii _ _)
  · exact ((h2 _ (by decide)).append (hex_ascii _ _)).append ((h2 _ (by decide)).append (hex_ascii _ _))

theorem jsonString_ascii (s : String) : Ascii (jsonString s) := by
  refine .cons (by decide) (Ascii.append ?_ (.cons (by decide) .nil))
  intro c hc
  obtain ⟨x, _, hx⟩ := List.mem_flatMap.mp hc
  exact jsonChar_ascii x c hx

theorem number_ascii (hf : NumberFormat fmt) (q : ℚ) : Ascii (fmt q) := by
  intro c hc
  have := hf.plain q c hc
  simp only [List.mem_cons, List.not_mem_nil, or_false] at this
  rcases this with rfl | rfl | rfl | rfl | rfl | rfl | rfl | rfl | rfl | rfl | rfl | rfl | rfl | rfl <;> decide

mutual
theorem jsonText_ascii (hf : NumberFormat fmt) : ∀ a : Json, Ascii (jsonText fmt a)
  | .null => by unfold jsonText; unfold Ascii; decide
  | .bool true => by unfold jsonText; unfold Ascii; decide
  | .bool false => by unfold jsonText; unfold Ascii; decide
  | .num q => by unfold jsonText; exact number_ascii hf q
  | .str s => by unfold jsonText; exact jsonString_ascii s
  | .arr [] => by unfold jsonText; unfold Ascii; decide
  | .arr (x :: l) => by unfold jsonText; exact .cons (by decide) ((jsonText_ascii hf x).append (jsonTail_ascii hf l))
  | .obj [] => by unfold jsonText; unfold Ascii; decide
  | .obj ((k, x) :: l) => by
    unfold jsonText
    exact .cons (by decide) ((jsonString_ascii k).append
      (.cons (by decide) (.cons (by decide) ((jsonText_ascii hf x).append (jsonFields_ascii hf l)))))
theorem jsonTail_ascii (hf : NumberFormat fmt) : ∀ l : List Json, Ascii (jsonTail fmt l)
  | [] => by unfold jsonTail; unfold Ascii; decide
  | x :: l => by unfold jsonTail; exact .cons (by decide) (.cons (by decide) ((jsonText_ascii hf x).append (jsonTail_ascii hf l)))
theorem jsonFields_ascii (hf : NumberFormat fmt) : ∀ l : List (String × Json), Ascii (jsonFields fmt l)
  | [] => by unfold jsonFields; unfold Ascii; decide
  | (k, x) :: l => by
    unfold jsonFields
    exact .cons (by decide) (.cons (by decide) ((jsonString_ascii k).append
      (.cons (by decide) (.cons (by decide) ((jsonText_ascii hf x).append (jsonFields_ascii hf l))))))
end

/-- The JSON text is printable ASCII, so that its bytes are its characters. -/
theorem C129_ascii (hf : NumberFormat fmt) (a : Json) : ∀ c ∈ jsonText fmt a, 32 ≤ c.toNat ∧ c.toNat ≤ 126 := jsonText_ascii hf a

/-! ## Examples -/

/-- A number format for the examples. -/
def Ex.format (q : ℚ) : List Char :=
  (if q.num < 0 then '-' else '+') :: (List.replicate q.num.natAbs '0' ++ '.' :: List.replicate q.den '0')

theorem Ex.format_good : NumberFormat Ex.format := by
  refine ⟨fun q => by simp [Ex.format], ?_, ?_⟩
  · intro q c hc
    simp only [Ex.format, List.mem_cons, List.mem_append, List.mem_replicate] at hc
    rcases hc with h | ⟨_, rfl⟩ | rfl | ⟨_, rfl⟩
    · split_ifs at h <;> subst h <;> decide
    · decide
    · decide
    · decide
  · intro q q' h
    simp only [Ex.format, List.cons.injEq] at h
    obtain ⟨h1, h2⟩ := h
    have key : ∀ a b a' b' : Nat, List.replicate a '0' ++ '.' :: List.replicate b '0' = List.replicate a' '0' ++ '.' :: List.replicate b' '0' →
        a = a' ∧ b = b' := by
      intro a
      induction a with
      | zero =>
        intro b a' b' h
        cases a' with
        | zero => simpa using congrArg List.length h
        | succ a' => simp [List.replicate_succ] at h
      | succ a ih =>
        intro b a' b' h
        cases a' with
        | zero => simp [List.replicate_succ] at h
        | succ a' =>
          simp only [List.replicate_succ, List.cons_append, List.cons.injEq, true_and] at h
          obtain ⟨e, e'⟩ := ih _ _ _ h
          exact ⟨by rw [e], e'⟩
    obtain ⟨h3, h4⟩ := key _ _ _ _ h2
    refine Rat.ext ?_ h4
    split_ifs at h1 with ha hb hb
    · omega
    · exact absurd h1 (by decide)
    · exact absurd h1 (by decide)
    · omega

/-- The text of a small payload, and of a string with characters that are not printable ASCII. -/
example : jsonText Text.str (payload (.num 10) (.num 10000) [(0, 1, 2)] true) =
      chars "{\"num_unit_steps\": 10, \"timeout\": 10000, \"polynomial\": [[0, 1, 2]], \"outputs\": {\"duplicate\": true, \"num_outputs\": 0}}" ∧
    jsonText Text.str (.str "é\n😀") = chars "\"\\u00e9\\n\\ud83d\\ude00\"" := by
  constructor <;> decide +kernel

example : ∃ r : Reader (List Char), r.Undoes ⟨jsonText Ex.format, List.reverse⟩ :=
  let ⟨r, _, h⟩ := (C129_text Ex.format_good).2 List.reverse List.reverse List.reverse_reverse
  ⟨r, h⟩

end Sawatabi.Props
