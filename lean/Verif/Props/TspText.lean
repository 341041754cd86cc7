import Verif.Model.TspText
import Verif.Props.Tsp
import Verif.Props.Printing

/-!
# C122: the text of the travelling salesperson sample
-/

namespace Sawatabi.Props

open Stream Text NppStream
open Tsp hiding join

variable {κ : Type}

theorem tourText_eq (dicts : List Char) (order : List (List Char)) : tourText dicts order =
    join ['\n'] [[], chars "INPUT -->", chars "  " ++ dicts, chars "SOLUTION ==>", chars "  " ++ join (chars " -> ") order] := by
  simp [tourText, join, chars]

theorem mem_join {sep : List Char} {l : List (List Char)} {c : Char} (h : c ∈ join sep l) : c ∈ sep ∨ ∃ t ∈ l, c ∈ t := by
  induction l with
  | nil => cases h
  | cons a l ih =>
    cases l with
    | nil => exact .inr ⟨a, by simp, h⟩
    | cons b l =>
      simp only [join, List.mem_append] at h
      rcases h with (h | h) | h
      · exact .inr ⟨a, by simp, h⟩
      · exact .inl h
      · rcases ih h with h | ⟨t, ht, h⟩
        · exact .inl h
        · exact .inr ⟨t, by simp [ht], h⟩

/-- **C122**: the text has five lines if the data and the names have no line ends; the third has the data, the last one
the names of the cities in the order of the visits. -/
theorem C122_lines {dicts : List Char} {order : List (List Char)} (hd : '\n' ∉ dicts) (ho : ∀ t ∈ order, '\n' ∉ t) :
    (tourText dicts order).splitOn '\n' =
      [[], "INPUT -->".toList, ' ' :: ' ' :: dicts, "SOLUTION ==>".toList, ' ' :: ' ' :: List.intercalate " -> ".toList order] := by
  have hj : '\n' ∉ join (chars " -> ") order := by
    intro h
    rcases mem_join h with h | ⟨t, ht, h⟩
    · revert h; decide
    · exact ho t ht h
  rw [tourText_eq]
  refine (lines_join (by simp)).trans ?_
  have e1 : lines [] = [[]] := rfl
  have e2 : lines (chars "INPUT -->") = [chars "INPUT -->"] := lines_of_no_newline (by decide)
  have e3 : lines (chars "  " ++ dicts) = [chars "  " ++ dicts] := lines_of_no_newline (by
    rw [List.mem_append, not_or]
    exact ⟨by decide, hd⟩)
  have e4 : lines (chars "SOLUTION ==>") = [chars "SOLUTION ==>"] := lines_of_no_newline (by decide)
  have e5 : lines (chars "  " ++ join (chars " -> ") order) = [chars "  " ++ join (chars " -> ") order] :=
    lines_of_no_newline (by
      rw [List.mem_append, not_or]
      exact ⟨by decide, hj⟩)
  simp only [List.flatMap_cons, List.flatMap_nil, e1, e2, e3, e4, e5, ← join_eq]
  rfl

/-- Names that can be told apart in the text: not empty, without `>`. -/
def Plainly (order : List (List Char)) : Prop := ∀ t ∈ order, t ≠ [] ∧ '>' ∉ t

theorem arrows_inj {l l' : List (List Char)} (h : Plainly l) (h' : Plainly l') (he : join (chars " -> ") l = join (chars " -> ") l') :
    l = l' := by
  have two : ∀ (a b : List Char) (l : List (List Char)), join (chars " -> ") (a :: b :: l) =
      (a ++ [' ', '-']) ++ '>' :: (' ' :: join (chars " -> ") (b :: l)) := fun a b l => by simp [join, chars]
  have no : ∀ a : List Char, '>' ∉ a → ∀ c ∈ a ++ [' ', '-'], c ≠ '>' := by
    intro a ha c hc e
    subst e
    rcases List.mem_append.mp hc with hc | hc
    · exact ha hc
    · revert hc; decide
  have long : ∀ (a b : List Char) (l : List (List Char)), '>' ∈ join (chars " -> ") (a :: b :: l) := fun a b l => by
    rw [two]; simp
  induction l generalizing l' with
  | nil =>
    match l', h' with
    | [], _ => rfl
    | [a], h' => exact absurd he.symm (h' a (by simp)).1
    | a :: b :: l', _ =>
      have := long a b l'
      rw [← he] at this
      cases this
  | cons a l ih =>
    cases l with
    | nil =>
      rcases l' with _ | ⟨b, _ | ⟨c, l'⟩⟩
      · exact absurd he (h a (by simp)).1
      · exact congrArg (fun t => [t]) he
      · have := long b c l'
        rw [← he] at this
        exact absurd this (h a (by simp)).2
    | cons b l =>
      have hin := long a b l
      rcases l' with _ | ⟨c, _ | ⟨d, l'⟩⟩
      · rw [he] at hin
        cases hin
      · rw [he] at hin
        exact absurd hin (h' c (by simp)).2
      · rw [two, two] at he
        obtain ⟨e1, _, e2⟩ := cut_inj (P := fun c => c ≠ '>') (no a (h a (by simp)).2) (no c (h' c (by simp)).2) (by simp) (by simp) he
        have e3 := ih (l' := d :: l') (fun t ht => h t (by simp [ht])) (fun t ht => h' t (by simp [ht])) (by simpa using e2)
        rw [e3, List.append_cancel_right e1]

/-- From the text the data and the order can be read back, if the names are not empty and have neither `>` nor line ends. -/
theorem C122_readable_partial {dicts dicts' : List Char} {order order' : List (List Char)} (hd : '\n' ∉ dicts) (hd' : '\n' ∉ dicts')
    (ho : ∀ t ∈ order, '\n' ∉ t) (ho' : ∀ t ∈ order', '\n' ∉ t) (hp : Plainly order) (hp' : Plainly order')
    (h : tourText dicts order = tourText dicts' order') : dicts = dicts' ∧ order = order' := by
  have := congrArg (List.splitOn '\n') h
  rw [C122_lines hd ho, C122_lines hd' ho'] at this
  simp only [List.cons.injEq, and_true, true_and] at this
  exact ⟨this.1, arrows_inj hp hp' (by rw [join_eq, join_eq]; exact this.2)⟩

/-- A sample whose bits are those of a tour gives the text with the names of the tour. -/
theorem C122_tour {samples : List (Sample × ℚ)} {els : List (El (City κ))} {s : Sample} {X : Nat → Nat → ℤ} {t : List Nat}
    (showData : List (City κ) → List Char) (hb : best samples = .ok s)
    (hX : ∀ i < els.length, ∀ j < els.length, dget s (Tsp.lab i j) = some (X i j)) (ht : Tour els.length t)
    (hf : Follows els.length X t) (inc out : List (El (City κ))) :
    ∃ names, Names els t names ∧
      unmappingText showData samples els inc out = .ok (tourText (showData (els.map (·.data))) (names.map String.toList)) := by
  refine ⟨selected els X, C89_tour ht hf, ?_⟩
  unfold unmappingText
  rw [C89_reading hb hX inc out]
  rfl

/-- With an arrow in a name, two tours of the same cities can have the same text. -/
theorem C122_arrow_refuted (showData : List (City Nat) → List Char) :
    ∃ (els : List (El (City Nat))) (s s' : List (Sample × ℚ)) (o o' : List String),
      unmapping s els [] [] = .ok o ∧ unmapping s' els [] [] = .ok o' ∧ o ≠ o' ∧ o.Perm o' ∧
      unmappingText showData s els [] [] = unmappingText showData s' els [] [] := by
  let els : List (El (City Nat)) := [⟨0, 0, ⟨"a", 0⟩⟩, ⟨1, 1, ⟨"b", 1⟩⟩, ⟨2, 2, ⟨"a -> b", 2⟩⟩]
  let bits : List (Nat × Nat) → Sample := fun ps => (List.range 3).flatMap fun i => (List.range 3).map fun j =>
    (Tsp.lab i j, if (i, j) ∈ ps then 1 else 0)
  have h1 : unmapping [(bits [(0, 0), (1, 1), (2, 2)], 0)] els [] [] = .ok ["a", "b", "a -> b"] := by decide +kernel
  have h2 : unmapping [(bits [(0, 2), (1, 0), (2, 1)], 0)] els [] [] = .ok ["a -> b", "a", "b"] := by decide +kernel
  refine ⟨els, _, _, _, _, h1, h2, by decide, by decide, ?_⟩
  unfold unmappingText
  rw [h1, h2]
  have e : ∀ d, tourText d (["a", "b", "a -> b"].map String.toList) = tourText d (["a -> b", "a", "b"].map String.toList) := by
    intro d
    unfold tourText
    congr 1
  exact congrArg Except.ok (e _)

/-- Hypotheses of `C122_readable_partial`. -/
example : tourText ['d'] ["Kyoto".toList, "Nara".toList] = "\nINPUT -->\n  d\nSOLUTION ==>\n  Kyoto -> Nara".toList := by
  decide +kernel

example : Plainly ["Kyoto".toList, "Nara".toList] := by
  intro t ht
  simp only [List.mem_cons, List.not_mem_nil, or_false] at ht
  rcases ht with rfl | rfl <;> decide

end Sawatabi.Props
