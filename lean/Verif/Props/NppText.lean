import Verif.Model.NppText
import Verif.Spec.NppText
import Verif.Props.Npp
import Verif.Props.Output

/-!
# C125: the printed table of number partitioning
-/

namespace Sawatabi.Props

open Npp Text

variable {α : Type} {R : List Char → α → Prop}

/-! ## Reading -/

/-- Texts that tell where they end, and what they mean. -/
def Free (R : List Char → α → Prop) : Prop :=
  ∀ {s s' t t' : List Char} {x x' : α}, R s x → R s' x' → s ++ t = s' ++ t' → x = x' ∧ t = t'

/-- What follows an element of a list. -/
theorem isIndex_next {s s' t t' : List Char} {k k' : Nat} {x x' : Char} (h : IsIndex s k) (h' : IsIndex s' k') (hx : ¬ NumChar x)
    (hx' : ¬ NumChar x') (e : s ++ x :: t = s' ++ x' :: t') : k = k' ∧ x = x' ∧ t = t' := by
  obtain ⟨h1, h2, h3⟩ := cut_inj h.chars h'.chars hx hx' e
  have : (k : ℚ) = k' := Numeral.unique h (h1 ▸ h')
  exact ⟨by exact_mod_cast this, h2, h3⟩

/-- Reading elements of a list: what is before a comma or the closing bracket, never empty, never beginning with the closing bracket. -/
def Element (R : List Char → α → Prop) : Prop :=
  (∀ {s : List Char} {x : α}, R s x → ∃ c r, s = c :: r ∧ c ≠ ']') ∧
  ∀ {s s' t t' : List Char} {x x' : α} {c c' : Char}, R s x → R s' x' → (c = ',' ∨ c = ']') → (c' = ',' ∨ c' = ']') →
    s ++ c :: t = s' ++ c' :: t' → x = x' ∧ c = c' ∧ t = t'

theorem isIndex_element : Element IsIndex := by
  have hn : ∀ {c : Char}, c = ',' ∨ c = ']' → ¬ NumChar c := by rintro c (rfl | rfl) <;> decide
  refine ⟨fun {s k} h => ?_, fun h h' hc hc' e => isIndex_next h h' (hn hc) (hn hc') e⟩
  cases s with
  | nil => exact absurd rfl h.ne
  | cons c r => exact ⟨c, r, rfl, fun hc => absurd (h.chars c (by simp)) (hc ▸ by decide)⟩

theorem listed_free (hR : Element R) : Free (Listed R) := by
  intro s s' t t' l l' h h' e
  obtain ⟨ps, h, rfl⟩ := h
  obtain ⟨ps', h', rfl⟩ := h'
  simp only [List.append_assoc, List.cons_append, List.nil_append, List.cons.injEq, true_and] at e
  have hnil : ∀ {p : List Char} {x : α} {a b : List Char}, R p x → ']' :: a = p ++ b → False := by
    intro p x a b hp e
    obtain ⟨c, r, rfl, hc⟩ := hR.1 hp
    rw [List.cons_append, List.cons.injEq] at e
    exact hc e.1.symm
  have one : ∀ {p : List Char}, List.intercalate [',', ' '] [p] = p := by intro p; simp [List.intercalate]
  have more : ∀ {p q : List Char} {ps : List (List Char)},
      List.intercalate [',', ' '] (p :: q :: ps) = p ++ ',' :: ' ' :: List.intercalate [',', ' '] (q :: ps) := by
    intro p q ps; simp [List.intercalate]
  induction h generalizing l' ps' with
  | nil =>
    cases h' with
    | nil => exact ⟨rfl, by simpa [List.intercalate] using e⟩
    | @cons p x ps l hp hps =>
      cases hps with
      | nil => rw [one] at e; exact (hnil hp (by simpa [List.intercalate] using e)).elim
      | cons _ _ => rw [more, List.append_assoc] at e; exact (hnil hp (by simpa [List.intercalate] using e)).elim
  | @cons p x ps l hp h ih =>
    cases h' with
    | nil =>
      cases h with
      | nil => rw [one] at e; exact (hnil hp (by simpa [List.intercalate] using e.symm)).elim
      | cons _ _ => rw [more, List.append_assoc] at e; exact (hnil hp (by simpa [List.intercalate] using e.symm)).elim
    | @cons p' x' ps' l' hp' h' =>
      cases h with
      | nil =>
        cases h' with
        | nil =>
          rw [one, one] at e
          obtain ⟨rfl, -, e⟩ := hR.2 hp hp' (.inr rfl) (.inr rfl) e
          exact ⟨rfl, e⟩
        | cons _ _ =>
          rw [one, more, List.append_assoc, List.cons_append] at e
          exact absurd (hR.2 hp hp' (.inr rfl) (.inl rfl) e).2.1 (by decide)
      | cons _ _ =>
        cases h' with
        | nil =>
          rw [one, more, List.append_assoc, List.cons_append] at e
          exact absurd (hR.2 hp hp' (.inl rfl) (.inr rfl) e).2.1 (by decide)
        | cons hq' hqs' =>
          simp only [more, List.append_assoc, List.cons_append] at e
          obtain ⟨rfl, -, e⟩ := hR.2 hp hp' (.inl rfl) (.inl rfl) e
          rw [List.cons.injEq] at e
          obtain ⟨hl, e⟩ := ih _ (.cons hq' hqs') e.2
          exact ⟨by rw [hl], e⟩

theorem listed_element (hR : Element R) : Element (Listed R) := by
  refine ⟨fun {s l} h => ?_, fun {s s' t t' l l' c c'} h h' _ _ e => ?_⟩
  · obtain ⟨ps, -, rfl⟩ := h
    exact ⟨'[', _, by simp; rfl, by decide⟩
  · obtain ⟨h1, h2⟩ := listed_free hR h h' e
    rw [List.cons.injEq] at h2
    exact ⟨h1, h2.1, h2.2⟩

theorem cellSays_free (hR : Element R) : Free (CellSays R) := by
  intro s s' t t' c c' h h' e
  obtain ⟨b, l⟩ := c
  obtain ⟨b', l'⟩ := c'
  obtain ⟨u, h, rfl⟩ := h
  obtain ⟨u', h', rfl⟩ := h'
  have e1 : "True".toList = ['T', 'r', 'u', 'e'] := by decide
  have e2 : "False".toList = ['F', 'a', 'l', 's', 'e'] := by decide
  have hb : b = b' := by
    cases b <;> cases b' <;> simp [e1, e2] at e ⊢
  subst hb
  simp only [List.append_assoc, List.append_cancel_left_eq] at e
  obtain ⟨h1, h2⟩ := listed_free hR h h' e
  simp only at h1
  subst h1
  exact ⟨rfl, by simpa using h2⟩

theorem cellSays_head {s : List Char} {c : Bool × List α} (h : CellSays R s c) : ∃ r, s = '(' :: r := by
  obtain ⟨u, -, rfl⟩ := h
  exact ⟨_, by simp; rfl⟩

/-- Spaces in front of something else do not matter. -/
theorem blank_strip {sp r : List Char} (hb : Blank sp) : (sp ++ r).dropWhile (· = ' ') = r.dropWhile (· = ' ') := by
  induction sp with
  | nil => rfl
  | cons c sp ih =>
    have hc := hb c (by simp)
    subst hc
    rw [List.cons_append, List.dropWhile_cons_of_pos (by simp)]
    exact ih fun k hk => hb k (by simp [hk])

theorem cellsSay_unique (hR : Element R) {t t' : List Char} {cs cs' : List (Bool × List α)} (h : CellsSay R t cs) (h' : CellsSay R t' cs')
    (e : t.dropWhile (· = ' ') = t'.dropWhile (· = ' ')) : cs = cs' := by
  have cut : ∀ {s sp t : List Char} {c : Bool × List α}, CellSays R s c → ([' '] ++ s ++ sp ++ t).dropWhile (· = ' ') = s ++ (sp ++ t) := by
    intro s sp t c h
    obtain ⟨r, rfl⟩ := cellSays_head h
    simp [List.dropWhile]
  induction h generalizing t' cs' with
  | nil =>
    cases h' with
    | nil => rfl
    | cons h' hb' ht' =>
      rw [cut h'] at e
      obtain ⟨r, rfl⟩ := cellSays_head h'
      simp at e
  | cons h hb ht ih =>
    cases h' with
    | nil =>
      rw [cut h] at e
      obtain ⟨r, rfl⟩ := cellSays_head h
      simp at e
    | cons h' hb' ht' =>
      rw [cut h, cut h'] at e
      obtain ⟨rfl, e⟩ := cellSays_free hR h h' e
      rw [ih ht' ?_]
      rw [← blank_strip hb, e, blank_strip hb']

theorem numeral_strip {sp d r : List Char} {q : ℚ} (hb : Blank sp) (hd : Numeral d q) : (sp ++ (d ++ r)).dropWhile (· = ' ') = d ++ r := by
  rw [blank_strip hb]
  cases d with
  | nil => exact absurd rfl hd.ne
  | cons c d =>
    rw [List.cons_append, List.dropWhile_cons_of_neg]
    intro hc
    have := hd.chars c (by simp)
    rw [decide_eq_true_eq] at hc
    subst hc
    exact absurd this (by decide)

theorem headSays_unique {j : Nat} {t : List Char} {l l' : List Nat} (h : HeadSays j t l) (h' : HeadSays j t l') : l = l' := by
  have e1 : " (idx=".toList = ' ' :: "(idx=".toList := by decide
  induction h generalizing l' with
  | nil =>
    generalize hu : ([] : List Char) = u at h'
    cases h' with
    | nil => rfl
    | cons => simp at hu
  | @cons j a sp d e t l hb hd he ht ih =>
    generalize hu : [' '] ++ sp ++ d ++ " (idx=".toList ++ e ++ [')'] ++ t = u at h'
    cases h' with
    | nil => simp at hu
    | @cons _ a' sp' d' e' t' l' hb' hd' he' ht' =>
      simp only [List.append_assoc, List.append_cancel_left_eq] at hu
      have hu := congrArg (List.dropWhile (· = ' ')) hu
      rw [numeral_strip hb hd, numeral_strip hb' hd', e1] at hu
      simp only [List.cons_append, List.nil_append] at hu
      obtain ⟨h1, hu⟩ := hd.cut hd' (by decide) hu
      rw [List.append_cancel_left_eq] at hu
      obtain ⟨-, hu⟩ := he.cut he' (by decide) hu
      rw [ih (l' := l') (by rw [show t = t' by simpa using hu]; exact ht')]
      have h1 : a = a' := by exact_mod_cast h1
      rw [h1]

theorem lineSays_unique (hR : Element R) {s : List Char} {l l' : Nat × List (Bool × List α)} (h : LineSays R s l) (h' : LineSays R s l') :
    l = l' := by
  obtain ⟨sp, d, t, hb, hd, hc, rfl⟩ := h
  obtain ⟨sp', d', t', hb', hd', hc', e⟩ := h'
  rw [List.append_assoc, List.append_assoc] at e
  have e := congrArg (List.dropWhile (· = ' ')) e
  rw [numeral_strip hb hd, numeral_strip hb' hd'] at e
  have tail : ∀ {t : List Char} {cs : List (Bool × List α)}, CellsSay R t cs → t = [] ∨ ∃ r, t = ' ' :: r := by
    intro t cs h
    cases h with
    | nil => exact .inl rfl
    | cons => exact .inr ⟨_, by simp; rfl⟩
  -- one more space behind
  have e : d ++ (t ++ [' ']) = d' ++ (t' ++ [' ']) := by rw [← List.append_assoc, e, List.append_assoc]
  have tail' : ∀ {t : List Char} {cs : List (Bool × List α)}, CellsSay R t cs → ∃ r, t ++ [' '] = ' ' :: r := by
    intro t cs h
    rcases tail h with rfl | ⟨r, rfl⟩
    · exact ⟨[], rfl⟩
    · exact ⟨_, rfl⟩
  obtain ⟨r, hr⟩ := tail' hc
  obtain ⟨r', hr'⟩ := tail' hc'
  have e2 := e
  rw [hr, hr'] at e2
  obtain ⟨h1, h2⟩ := hd.cut hd' (by decide) e2
  have ht : t = t' := by
    have : t ++ [' '] = t' ++ [' '] := by rw [hr, hr', h2]
    simpa using this
  subst ht
  exact Prod.ext (by exact_mod_cast h1) (cellsSay_unique hR hc hc' rfl)

theorem forall₂_lines (hR : Element R) {body : List (List Char)} {l l' : List (Nat × List (Bool × List α))}
    (h : List.Forall₂ (LineSays R) body l) (h' : List.Forall₂ (LineSays R) body l') : l = l' := by
  induction h generalizing l' with
  | nil => cases h'; rfl
  | cons h ht ih =>
    cases h' with
    | cons h' ht' => rw [lineSays_unique hR h h', ih ht']

theorem printed_unique (hR : Element R) {t : List Char} {ns ns' : List Nat} {rows rows' : List (List (Bool × List α))}
    (h : PrintedTable R t ns rows) (h' : PrintedTable R t ns' rows') : ns = ns' ∧ rows = rows' := by
  obtain ⟨head, body, h1, h2, e⟩ := h
  obtain ⟨head', body', h1', h2', e'⟩ := h'
  rw [e] at e'
  simp only [List.cons_append, List.nil_append, List.cons.injEq, true_and, List.append_cancel_left_eq, List.append_cancel_right_eq] at e'
  obtain ⟨rfl, rfl⟩ := e'
  refine ⟨headSays_unique h1 h1', ?_⟩
  have := congrArg (List.map Prod.snd) (forall₂_lines hR h2 h2')
  simpa [List.map_map, Function.comp_def] using this

/-- **C125** A text is the table of at most one list of numbers, with at most one content. -/
theorem C125_readable {t : List Char} {ns ns' : List Nat} {rows rows' : List (List (Bool × List Nat))}
    (h : PrintedTable IsIndex t ns rows) (h' : PrintedTable IsIndex t ns' rows') : ns = ns' ∧ rows = rows' :=
  printed_unique isIndex_element h h'

/-- **C125** The same with `enumerate_all`. -/
theorem C125_readable_all {t : List Char} {ns ns' : List Nat} {rows rows' : List (List (Bool × List (List Nat)))}
    (h : PrintedTable (Listed IsIndex) t ns rows) (h' : PrintedTable (Listed IsIndex) t ns' rows') : ns = ns' ∧ rows = rows' :=
  printed_unique (listed_element isIndex_element) h h'

/-! ## Writing -/

theorem blank_replicate (n : Nat) : Blank (List.replicate n ' ') := fun _ hk => List.eq_of_mem_replicate hk

theorem index_text (k : Nat) : Numeral (strInt (k : ℤ)) (k : ℚ) := by simpa using strInt_numeral (k : ℤ)

theorem listText_listed {f : α → List Char} (h : ∀ x, R (f x) x) (l : List α) : Listed R (listText (l.map f)) l := by
  refine ⟨l.map f, ?_, by rw [listText, join_eq]; rfl⟩
  rw [List.forall₂_map_left_iff, List.forall₂_same]
  exact fun x _ => h x

theorem indicesText_listed (l : List Nat) : Listed IsIndex (indicesText l) l := listText_listed (fun k => index_text k) l

theorem choicesText_listed (l : List (List Nat)) : Listed (Listed IsIndex) (choicesText l) l := listText_listed indicesText_listed l

/-- The text of a list has no line end if those of its elements have none. -/
theorem listed_no_newline (hR : ∀ s x, R s x → '\n' ∉ s) {s : List Char} {l : List α} (h : Listed R s l) : '\n' ∉ s := by
  obtain ⟨ps, h, rfl⟩ := h
  have : '\n' ∉ List.intercalate [',', ' '] ps := by
    rw [← join_eq]
    induction h with
    | nil => simp [join]
    | @cons p q ps l hp h ih =>
      have h1 := hR _ _ hp
      cases h with
      | nil => simpa [join] using h1
      | cons _ _ => simp_all [join]
  simp [this]

theorem index_no_newline (s : List Char) (k : Nat) (h : IsIndex s k) : '\n' ∉ s := Numeral.no_newline h

theorem blank_no_newline {s : List Char} (h : Blank s) : '\n' ∉ s := fun hc => absurd (h _ hc) (by decide)

theorem cellsSay_no_newline (hR : ∀ s x, R s x → '\n' ∉ s) {t : List Char} {cs : List (Bool × List α)} (h : CellsSay R t cs) :
    '\n' ∉ t := by
  induction h with
  | nil => simp
  | @cons s sp t c cs h hb ht ih =>
    have h1 := blank_no_newline hb
    have h2 : '\n' ∉ s := by
      obtain ⟨u, hu, rfl⟩ := h
      have := listed_no_newline hR hu
      cases c.1 <;> simp [this]
    simp [h1, h2, ih]

theorem headSays_no_newline {j : Nat} {t : List Char} {l : List Nat} (h : HeadSays j t l) : '\n' ∉ t := by
  have e1 : '\n' ∉ " (idx=".toList := by decide
  induction h with
  | nil => simp
  | cons hb hd he ht ih =>
    simp only [List.mem_append, not_or]
    exact ⟨⟨⟨⟨⟨⟨by decide, blank_no_newline hb⟩, hd.no_newline⟩, e1⟩, he.no_newline⟩, by decide⟩, ih⟩

theorem lineSays_no_newline (hR : ∀ s x, R s x → '\n' ∉ s) {s : List Char} {l : Nat × List (Bool × List α)} (h : LineSays R s l) :
    '\n' ∉ s := by
  obtain ⟨sp, d, t, hb, hd, hc, rfl⟩ := h
  simp [blank_no_newline hb, hd.no_newline, cellsSay_no_newline hR hc]

/-- A cell of the finished table is true or false. -/
theorem cell_some (extend : Nat → Nat → Nat → List α → List α → List α) (numbers : List Nat) (i j : Nat) :
    ∃ b, (cell extend numbers i j).1 = some b := by
  induction j generalizing i with
  | zero => by_cases h : i = 0 <;> simp [cell, h]
  | succ j ih =>
    simp only [cell]
    split_ifs <;> simp [ih]

/-- The content of a cell, as printed. -/
def shown (extend : Nat → Nat → Nat → List α → List α → List α) (numbers : List Nat) (i j : Nat) : Bool × List α :=
  ((cell extend numbers i j).1 = some true, (cell extend numbers i j).2)

theorem cellText_says {showList : List α → List Char} (hs : ∀ l, Listed R (showList l) l) (extend : Nat → Nat → Nat → List α → List α → List α)
    (numbers : List Nat) (i j : Nat) : CellSays R (cellText showList (cell extend numbers i j)) (shown extend numbers i j) := by
  refine ⟨_, hs _, ?_⟩
  obtain ⟨b, hb⟩ := cell_some extend numbers i j
  unfold cellText shown
  rw [hb]
  cases b <;> simp [flagText, chars]

theorem cellsSay_map {ι : Type} (l : List ι) (f : ι → List Char) (g : ι → Bool × List α) (w : Nat) (h : ∀ x, CellSays R (f x) (g x)) :
    CellsSay R (l.map fun x => chars " " ++ padRight w (f x)).flatten (l.map g) := by
  induction l with
  | nil => exact .nil
  | cons x l ih =>
    have := CellsSay.cons (h x) (blank_replicate (w - (f x).length)) ih
    simpa [padRight, chars] using this

theorem headSays_from (l : List Nat) (j : Nat) :
    HeadSays j ((l.zipIdx j).map fun ai => chars " " ++ padLeft 27 (strInt ai.1) ++ chars " (idx=" ++ strInt ai.2 ++ chars ")").flatten l := by
  induction l generalizing j with
  | nil => exact .nil
  | cons a l ih =>
    have := HeadSays.cons (blank_replicate (27 - (strInt (a : ℤ)).length)) (index_text a) (index_text j) (ih (j + 1))
    simpa [padLeft, chars] using this

theorem head_run (numbers : List Nat) : (List.range numbers.length).mapM (headText numbers) =
    .ok (numbers.zipIdx.map fun ai => chars " " ++ padLeft 27 (strInt ai.1) ++ chars " (idx=" ++ strInt ai.2 ++ chars ")") := by
  rw [mapM_ok_of (g := fun j => chars " " ++ padLeft 27 (strInt (num numbers j)) ++ chars " (idx=" ++ strInt j ++ chars ")")]
  · congr 1
    apply List.ext_getElem
    · simp
    · intro k h1 h2
      simp [num, List.getElem?_eq_getElem (show k < numbers.length by simpa using h1)]
  · intro j hj
    have hj := List.mem_range.mp hj
    unfold headText
    rw [listGet_ok.mpr (List.getElem?_eq_getElem hj), Except.bind_ok, num, List.getElem?_eq_getElem hj]
    rfl

theorem row_run {showList : List α → List Char} {dp : Table α} {f : Nat → Cell α} {n i : Nat} (h : ∀ j, j ≤ n → read dp i j = .ok (f j)) :
    rowText showList dp n i = .ok (padLeft 3 (strInt i) ++
      ((List.range (n + 1)).map fun j => chars " " ++ padRight 35 (cellText showList (f j))).flatten ++ ['\n']) := by
  unfold rowText
  rw [mapM_ok_of (g := fun j => chars " " ++ padRight 35 (cellText showList (f j)))]
  · rfl
  · intro j hj
    rw [h j (by have := List.mem_range.mp hj; omega)]
    rfl

/-- Lines that each end with a line end. -/
theorem flatten_lines (l : List (List Char)) : (l.map (· ++ ['\n'])).flatten = List.intercalate ['\n'] (l ++ [[]]) := by
  induction l with
  | nil => rfl
  | cons a l ih =>
    rw [List.map_cons, List.flatten_cons, ih]
    cases l <;> simp [List.intercalate]

theorem and_of {P Q : Prop} (h : Q → P) (hq : Q) : P ∧ Q := ⟨h hq, hq⟩

/-- A line of the finished table. -/
def lineText (showList : List α → List Char) (extend : Nat → Nat → Nat → List α → List α → List α) (numbers : List Nat) (i : Nat) : List Char :=
  padLeft 3 (strInt i) ++
    ((List.range (numbers.length + 1)).map fun j => chars " " ++ padRight 35 (cellText showList (cell extend numbers i j))).flatten

/-- The line with the numbers. -/
def headLine (numbers : List Nat) : List Char :=
  (numbers.zipIdx.map fun ai => chars " " ++ padLeft 27 (strInt ai.1) ++ chars " (idx=" ++ strInt ai.2 ++ chars ")").flatten

theorem table_printed {showList : List α → List Char} (hs : ∀ l, Listed R (showList l) l) (hR : ∀ s x, R s x → '\n' ∉ s)
    (extend : Nat → Nat → Nat → List α → List α → List α) {numbers : List Nat} {s : Nat} {dp : Table α}
    (h : ∀ i j, i ≤ s → j ≤ numbers.length → read dp i j = .ok (cell extend numbers i j)) :
    ∃ t, tableText showList numbers s numbers.length dp = .ok t ∧
      PrintedTable R t numbers ((List.range (s + 1)).map fun i => (List.range (numbers.length + 1)).map (shown extend numbers i)) ∧
      t.splitOn '\n' = [chars "dp:", chars "    0        " ++ headLine numbers] ++
        (List.range (s + 1)).map (lineText showList extend numbers) ++ [[]] := by
  let line := lineText showList extend numbers
  have hrows : (List.range (s + 1)).mapM (rowText showList dp numbers.length) = .ok ((List.range (s + 1)).map fun i => line i ++ ['\n']) :=
    mapM_ok_of fun i hi => row_run fun j hj => h i j (by have := List.mem_range.mp hi; omega) hj
  have hline : ∀ i, LineSays R (line i) (i, (List.range (numbers.length + 1)).map (shown extend numbers i)) := fun i =>
    ⟨_, _, _, blank_replicate _, index_text i, cellsSay_map _ _ _ 35 fun j => cellText_says hs extend numbers i j, rfl⟩
  have hhead := headSays_from numbers 0
  unfold tableText
  rw [head_run, Except.bind_ok, hrows, Except.bind_ok]
  refine ⟨_, rfl, and_of (fun hsplit => ⟨_, (List.range (s + 1)).map line, hhead, ?_, hsplit⟩) ?_⟩
  · rw [List.forall₂_iff_get]
    refine ⟨by simp, fun k h1 h2 => ?_⟩
    simpa using hline k
  · have e : ∀ (a b : List Char) (l : List (List Char)), a ++ ['\n'] ++ b ++ ['\n'] ++ (l.map (· ++ ['\n'])).flatten =
        List.intercalate ['\n'] ([a, b] ++ l ++ [[]]) := by
      intro a b l
      rw [flatten_lines]
      cases l <;> simp [List.intercalate]
    have := e (chars "dp:") (chars "    0        " ++ (numbers.zipIdx.map fun ai =>
      chars " " ++ padLeft 27 (strInt ai.1) ++ chars " (idx=" ++ strInt ai.2 ++ chars ")").flatten) ((List.range (s + 1)).map line)
    rw [List.map_map] at this
    rw [show ∀ a b c d e f : List Char, a ++ b ++ c ++ d ++ e ++ f = a ++ b ++ (c ++ d) ++ e ++ f by intros; simp]
    refine (congrArg _ this).trans ?_
    rw [List.splitOn_intercalate]
    · rfl
    · intro l hm
      simp only [List.mem_append, List.mem_cons, List.not_mem_nil, or_false, List.mem_map] at hm
      rcases hm with ((rfl | rfl) | ⟨i, -, rfl⟩) | rfl
      · decide
      · rw [List.mem_append, not_or]
        exact ⟨by decide, headSays_no_newline hhead⟩
      · exact lineSays_no_newline hR (hline i)
      · simp
    · simp

/-! ## The content -/

theorem picks_choice {numbers : List Nat} {j : Nat} (hj : j ≤ numbers.length) (i : Nat) (p : List Nat) :
    Choice numbers i j p ↔ (∃ side, p = picks side j) ∧ sumAt numbers p = i := by
  constructor
  · rintro ⟨h1, h2, h3⟩
    refine ⟨⟨within p, picks_within h1 fun k hk => (h2 k hk).1⟩, ?_⟩
    rw [sideSum_eq, ← picks_within h1 fun k hk => (h2 k hk).2] at h3
    exact h3
  · rintro ⟨⟨side, rfl⟩, h⟩
    have h1 : (picks side j).Pairwise (· < ·) := List.Pairwise.filter _ List.pairwise_lt_range
    have h2 : ∀ k ∈ picks side j, k < j ∧ k < numbers.length := fun k hk => by
      have := (mem_picks.mp hk).1
      omega
    refine ⟨h1, h2, ?_⟩
    rw [sideSum_eq, ← picks_within h1 fun k hk => (h2 k hk).2]
    exact h

theorem shown_flag {extend : Nat → Nat → Nat → List α → List α → List α} {numbers : List Nat} {j : Nat} (hj : j ≤ numbers.length) (i : Nat) :
    (shown extend numbers i j).1 = true ↔ ∃ p, Choice numbers i j p := by
  unfold shown
  rw [decide_eq_true_iff, cell_flag]
  constructor
  · rintro ⟨side, h⟩
    exact ⟨_, (picks_choice hj i _).mpr ⟨⟨side, rfl⟩, h⟩⟩
  · rintro ⟨p, h⟩
    obtain ⟨⟨side, rfl⟩, h⟩ := (picks_choice hj i p).mp h
    exact ⟨side, h⟩

theorem solvePrintingWith_run {showList : List α → List Char} (hs : ∀ l, Listed R (showList l) l) (hR : ∀ s x, R s x → '\n' ∉ s)
    (extend : Nat → Nat → Nat → List α → List α → List α) (wrap : List α → List (List Nat)) (numbers : List Nat) (print : Bool) :
    ∃ t, solvePrintingWith showList extend wrap numbers print = (solveWith extend wrap numbers).map (fun r => (t, r)) ∧
      (print = false → t = []) ∧ (print = true → PrintedTable R t numbers
        ((List.range (numbers.sum / 2 + 1)).map fun i => (List.range (numbers.length + 1)).map (shown extend numbers i)) ∧
        t.splitOn '\n' = [chars "dp:", chars "    0        " ++ headLine numbers] ++
          (List.range (numbers.sum / 2 + 1)).map (lineText showList extend numbers) ++ [[]]) := by
  obtain ⟨dp0, dp, h0, h1, h2⟩ := table extend numbers (numbers.sum / 2)
  obtain ⟨t, ht, hp⟩ := table_printed hs hR extend h2
  cases print with
  | false =>
    refine ⟨[], ?_, fun _ => rfl, by simp⟩
    unfold solvePrintingWith solveWith
    simp only [h0, h1, Except.bind_ok, Bool.false_eq_true, if_false]
    split_ifs with he
    · simp only [h2 _ _ le_rfl le_rfl, Except.bind_ok, pure_bind]
      split_ifs
      · rfl
      · cases search wrap dp numbers.length (numbers.sum / 2 + 1) <;> rfl
    · cases search wrap dp numbers.length (numbers.sum / 2 + 1) <;> rfl
  | true =>
    refine ⟨t, ?_, by simp, fun _ => hp⟩
    unfold solvePrintingWith solveWith
    simp only [h0, h1, ht, Except.bind_ok, if_true]
    split_ifs with he
    · simp only [h2 _ _ le_rfl le_rfl, Except.bind_ok]
      split_ifs
      · rfl
      · cases search wrap dp numbers.length (numbers.sum / 2 + 1) <;> rfl
    · cases search wrap dp numbers.length (numbers.sum / 2 + 1) <;> rfl

theorem cellOne_false {numbers : List Nat} {i j : Nat} (h : (cell extendOne numbers i j).1 ≠ some true) :
    (cell extendOne numbers i j).2 = [] := by
  induction j generalizing i with
  | zero => by_cases hi : i = 0 <;> simp [cell, hi]
  | succ j ih =>
    simp only [cell] at h ⊢
    split_ifs with h1 h2 h3
    · rfl
    all_goals simp_all

/-- **C125** Printing does not change the answer, and nothing is printed without the option. -/
theorem C125_answer (numbers : List Nat) (all print : Bool) : ∃ t, solvePrinting numbers all print = (Npp.solve numbers all).map (fun r => (t, r)) ∧
    (print = false → t = []) := by
  cases all with
  | false =>
    obtain ⟨t, h1, h2, -⟩ := solvePrintingWith_run indicesText_listed index_no_newline extendOne (fun p => [p]) numbers print
    exact ⟨t, h1, h2⟩
  | true =>
    obtain ⟨t, h1, h2, -⟩ := solvePrintingWith_run choicesText_listed (fun _ _ => listed_no_newline index_no_newline) extendAll id numbers print
    exact ⟨t, h1, h2⟩

/-- **C125** What is printed is a table with the numbers, a line for every sum up to half the total, and a column for every number and one
more. The cell in line `i` and column `j` says whether some of the first `j` numbers have the sum `i`, and which. -/
theorem C125_table (numbers : List Nat) : ∃ t r rows, solvePrinting numbers false true = .ok (t, r) ∧ PrintedTable IsIndex t numbers rows ∧
    rows.length = numbers.sum / 2 + 1 ∧
    ∀ i ≤ numbers.sum / 2, ∃ row, rows[i]? = some row ∧ row.length = numbers.length + 1 ∧
      ∀ j ≤ numbers.length, ∃ b p, row[j]? = some (b, p) ∧ (b = true ↔ ∃ p, Choice numbers i j p) ∧
        (b = true → Choice numbers i j p) ∧ (b = false → p = []) := by
  obtain ⟨t, h1, -, h2⟩ := solvePrintingWith_run indicesText_listed index_no_newline extendOne (fun p => [p]) numbers true
  obtain ⟨flag, ps, qs, h3⟩ : ∃ flag ps qs, Npp.solve numbers false = .ok (some (flag, ps, qs)) := by
    obtain ⟨b, flag, ps, -, -, -, -, h, -⟩ := solve_spec numbers false
    exact ⟨_, _, _, h⟩
  refine ⟨t, some (flag, ps, qs), _, ?_, (h2 rfl).1, by simp, fun i hi => ⟨_, by simp [Nat.lt_succ_of_le hi]; rfl, by simp, fun j hj => ?_⟩⟩
  · have h3 : solveWith extendOne (fun p => [p]) numbers = .ok (some (flag, ps, qs)) := h3
    have h1 : solvePrinting numbers false true = _ := h1
    rw [h1, h3]
    rfl
  · refine ⟨_, _, by simp [Nat.lt_succ_of_le hj]; rfl, shown_flag hj i, fun h => ?_, fun h => ?_⟩
    · have h : (cell extendOne numbers i j).1 = some true := by simpa [shown] using h
      obtain ⟨side, e1, e2⟩ := cellOne_sound h
      exact (picks_choice hj i _).mpr ⟨⟨side, e1⟩, e2⟩
    · exact cellOne_false (by simpa [shown] using h)

/-- **C125** The same with `enumerate_all`: the cell lists all choices that begin with a positive number, each once. -/
theorem C125_table_all (numbers : List Nat) : ∃ t r rows, solvePrinting numbers true true = .ok (t, r) ∧
    PrintedTable (Listed IsIndex) t numbers rows ∧ rows.length = numbers.sum / 2 + 1 ∧
    ∀ i ≤ numbers.sum / 2, ∃ row, rows[i]? = some row ∧ row.length = numbers.length + 1 ∧
      ∀ j ≤ numbers.length, ∃ b ps, row[j]? = some (b, ps) ∧ (b = true ↔ ∃ p, Choice numbers i j p) ∧ ps.Nodup ∧
        ∀ p, p ∈ ps ↔ Choice numbers i j p ∧ ∃ k r a, p = k :: r ∧ numbers[k]? = some a ∧ 0 < a := by
  obtain ⟨t, h1, -, h2⟩ := solvePrintingWith_run choicesText_listed (fun _ _ => listed_no_newline index_no_newline) extendAll id numbers true
  obtain ⟨flag, ps, qs, h3⟩ : ∃ flag ps qs, Npp.solve numbers true = .ok (some (flag, ps, qs)) := by
    obtain ⟨b, flag, ps, -, -, -, -, h, -⟩ := solve_spec numbers true
    exact ⟨_, _, _, h⟩
  refine ⟨t, some (flag, ps, qs), _, ?_, (h2 rfl).1, by simp, fun i hi => ⟨_, by simp [Nat.lt_succ_of_le hi]; rfl, by simp, fun j hj => ?_⟩⟩
  · have h3 : solveWith extendAll id numbers = .ok (some (flag, ps, qs)) := h3
    have h1 : solvePrinting numbers true true = _ := h1
    rw [h1, h3]
    rfl
  · refine ⟨_, _, by simp [Nat.lt_succ_of_le hj]; rfl, shown_flag hj i, (cellAll_sound i j).2, fun p => ?_⟩
    rw [cellAll_iff, picks_choice hj, and_assoc]
    refine and_congr_right fun hp => and_congr_right fun _ => ?_
    constructor
    · rintro ⟨k, r, rfl, hk⟩
      obtain ⟨side, e⟩ := hp
      have hkj := (mem_picks.mp (e ▸ List.mem_cons_self : k ∈ picks side j)).1
      rw [num, List.getElem?_eq_getElem (by omega)] at hk
      exact ⟨k, r, _, rfl, List.getElem?_eq_getElem (by omega), hk⟩
    · rintro ⟨k, r, a, rfl, hk, ha⟩
      exact ⟨k, r, rfl, by rw [num, hk]; exact ha⟩

/-! ## Alignment -/

theorem flatten_block {l : List (List Char)} {w : Nat} (h : ∀ b ∈ l, b.length = w) :
    l.flatten.length = w * l.length ∧ ∀ j k b, l[j]? = some b → k < w → l.flatten[w * j + k]? = b[k]? := by
  induction l with
  | nil => simp
  | cons a l ih =>
    obtain ⟨h1, h2⟩ := ih fun b hb => h b (by simp [hb])
    have ha := h a (by simp)
    refine ⟨by simp [h1, ha, Nat.mul_succ, Nat.add_comm], fun j k b hb hk => ?_⟩
    cases j with
    | zero =>
      simp only [List.getElem?_cons_zero, Option.some.injEq] at hb
      subst hb
      rw [List.flatten_cons, Nat.mul_zero, Nat.zero_add, List.getElem?_append_left (by omega)]
    | succ j =>
      rw [List.getElem?_cons_succ] at hb
      rw [List.flatten_cons, List.getElem?_append_right (by rw [ha, Nat.mul_succ]; omega), ← h2 j k b hb hk, ha, Nat.mul_succ]
      congr 1
      omega

theorem padLeft_length {w : Nat} {t : List Char} (h : t.length ≤ w) : (padLeft w t).length = w := by
  simp only [padLeft, List.length_append, List.length_replicate]
  omega

theorem padRight_length {w : Nat} {t : List Char} (h : t.length ≤ w) : (padRight w t).length = w := by
  simp only [padRight, List.length_append, List.length_replicate]
  omega

theorem strInt_length {a k : Nat} (hk : 0 < k) (h : a < 10 ^ k) : (strInt (a : ℤ)).length ≤ k := by
  have : strInt (a : ℤ) = Nat.toDigits 10 a := rfl
  rw [this]
  exact (Nat.length_toDigits_le_iff (by decide) hk).mpr h

theorem indicesText_length {p : List Nat} (hp : p ≠ []) (h : ∀ k ∈ p, k < 10) : (indicesText p).length ≤ 3 * p.length := by
  have key : ∀ l : List (List Char), l ≠ [] → (∀ u ∈ l, u.length ≤ 1) → (join (chars ", ") l).length + 2 ≤ 3 * l.length := by
    intro l hne hl
    induction l with
    | nil => exact absurd rfl hne
    | cons a l ih =>
      have ha := hl a (by simp)
      cases l with
      | nil => simp [join]; omega
      | cons b l =>
        have ih := ih (by simp) fun u hu => hl u (by simp [hu])
        have : (chars ", ").length = 2 := by decide
        simp only [join, List.length_append, this, List.length_cons] at ih ⊢
        omega
  have := key (p.map fun (k : Nat) => strInt k) (by simpa using hp) (by
    intro u hu
    obtain ⟨k, hk, rfl⟩ := List.mem_map.mp hu
    exact strInt_length (by decide) (by simpa using h k hk))
  have e1 : (chars "[").length = 1 := by decide
  have e2 : (chars "]").length = 1 := by decide
  simp only [indicesText, listText, List.length_append, e1, e2, List.length_map] at this ⊢
  omega

/-- **C125** The columns of up to nine numbers with a total below 2000 are aligned: the cells of a column all begin at the same place, under
the last digit of their number, and all lines of the table have the same length. -/
theorem C125_aligned {numbers : List Nat} (hn : numbers.length ≤ 9) (hs : numbers.sum < 2000) :
    ∃ t r head, solvePrinting numbers false true = .ok (t, r) ∧ (t.splitOn '\n')[1]? = some head ∧
      head.length = 13 + 36 * numbers.length ∧
      (∀ j a, numbers[j]? = some a → head[40 + 36 * j]? = some (Nat.digitChar (a % 10)) ∧ head[41 + 36 * j]? = some ' ') ∧
      ∀ i ≤ numbers.sum / 2, ∃ line, (t.splitOn '\n')[i + 2]? = some line ∧ line.length = 3 + 36 * (numbers.length + 1) ∧
        ∀ j ≤ numbers.length, line[3 + 36 * j]? = some ' ' ∧ line[4 + 36 * j]? = some '(' := by
  obtain ⟨t, h1, -, h2⟩ := solvePrintingWith_run indicesText_listed index_no_newline extendOne (fun p => [p]) numbers true
  obtain ⟨flag, ps, qs, h3⟩ : ∃ flag ps qs, Npp.solve numbers false = .ok (some (flag, ps, qs)) := by
    obtain ⟨b, flag, ps, -, -, -, -, h, -⟩ := solve_spec numbers false
    exact ⟨_, _, _, h⟩
  have hrun : solvePrinting numbers false true = .ok (t, some (flag, ps, qs)) := by
    have h3 : solveWith extendOne (fun p => [p]) numbers = .ok (some (flag, ps, qs)) := h3
    have h1 : solvePrinting numbers false true = _ := h1
    rw [h1, h3]
    rfl
  have e1 : (chars " ").length = 1 := by decide
  have e6 : (chars " (idx=").length = 6 := by decide
  have e1' : (chars ")").length = 1 := by decide
  have e13 : (chars "    0        ").length = 13 := by decide
  have hle : ∀ a ∈ numbers, a < 2000 := fun a ha => (List.single_le_sum (by simp) a ha).trans_lt hs
  have hnum : ∀ a ∈ numbers, (strInt (a : ℤ)).length ≤ 27 := fun a ha =>
    strInt_length (by decide) ((hle a ha).trans_le (by norm_num))
  have hidx : ∀ j : Nat, j < 9 → (strInt (j : ℤ)).length = 1 := by decide
  have hblock : ∀ b ∈ numbers.zipIdx.map fun ai => chars " " ++ padLeft 27 (strInt ai.1) ++ chars " (idx=" ++ strInt ai.2 ++ chars ")",
      b.length = 36 := by
    intro b hb
    obtain ⟨⟨a, j⟩, hm, rfl⟩ := List.mem_map.mp hb
    obtain ⟨h4, h5⟩ := List.mk_mem_zipIdx_iff_getElem? .. |>.mp hm |> fun h => (⟨List.mem_of_getElem? h, (List.getElem?_eq_some_iff.mp h).1⟩ : a ∈ numbers ∧ j < numbers.length)
    simp only [List.length_append, e1, e6, e1', padLeft_length (hnum a h4), hidx j (by omega)]
  obtain ⟨g1, g2⟩ := flatten_block hblock
  have hsplit := (h2 rfl).2
  refine ⟨t, _, chars "    0        " ++ headLine numbers, hrun, by rw [hsplit]; rfl, ?_, fun j a hja => ?_, fun i hi => ?_⟩
  · rw [List.length_append, e13, headLine, g1]
    simp
  · have ha : a ∈ numbers := List.mem_of_getElem? hja
    have hb : (numbers.zipIdx.map fun ai => chars " " ++ padLeft 27 (strInt ai.1) ++ chars " (idx=" ++ strInt ai.2 ++ chars ")")[j]? =
        some (chars " " ++ padLeft 27 (strInt a) ++ chars " (idx=" ++ strInt j ++ chars ")") := by
      simp [List.getElem?_map, List.getElem?_zipIdx, hja]
    have hlen := padLeft_length (hnum a ha)
    constructor
    · rw [List.getElem?_append_right (by rw [e13]; omega), e13, headLine, show 40 + 36 * j - 13 = 36 * j + 27 by omega, g2 j 27 _ hb (by decide),
        List.append_assoc, List.append_assoc, List.append_assoc, List.getElem?_append_right (by rw [e1]; decide), e1,
        List.getElem?_append_left (by rw [hlen]; decide)]
      have hlast : (padLeft 27 (strInt (a : ℤ))).getLast? = some (Nat.digitChar (a % 10)) := by
        have e : strInt (a : ℤ) = Nat.toDigits 10 a := rfl
        rw [padLeft, e, Nat.toDigits_eq_if (by decide)]
        split_ifs with h10
        · rw [List.getLast?_append, List.getLast?_singleton, Nat.mod_eq_of_lt h10]
          rfl
        · rw [← List.append_assoc, List.getLast?_append, List.getLast?_singleton]
          rfl
      rw [List.getLast?_eq_getElem?, hlen] at hlast
      exact hlast
    · rw [List.getElem?_append_right (by rw [e13]; omega), e13, headLine, show 41 + 36 * j - 13 = 36 * j + 28 by omega, g2 j 28 _ hb (by decide),
        List.append_assoc, List.append_assoc, List.getElem?_append_right (by rw [List.length_append, hlen, e1]), List.length_append, hlen, e1]
      rfl
  · have hcell : ∀ j, j ≤ numbers.length → (cellText indicesText (cell extendOne numbers i j)).length ≤ 35 := by
      intro j hj
      have c1 : (chars "(").length = 1 := by decide
      have c2 : (chars ", ").length = 2 := by decide
      have c4 : (chars "True").length = 4 := by decide
      have c5 : (chars "False").length = 5 := by decide
      have c0 : (indicesText []).length = 2 := by decide
      obtain ⟨b, hb⟩ := cell_some extendOne numbers i j
      cases b with
      | false =>
        have hl := cellOne_false (numbers := numbers) (i := i) (j := j) (by rw [hb]; decide)
        simp only [cellText, hb, hl, flagText, List.length_append, c1, c2, c5, c0, e1']
        decide
      | true =>
        obtain ⟨side, hp, -⟩ := cellOne_sound hb
        have hlen : (cell extendOne numbers i j).2.length ≤ 9 := by
          rw [hp, picks]
          refine (List.length_filter_le _ _).trans ?_
          simp; omega
        have hl : (indicesText (cell extendOne numbers i j).2).length ≤ 27 := by
          by_cases hne : (cell extendOne numbers i j).2 = []
          · rw [hne, c0]; decide
          · refine (indicesText_length hne fun k hk => ?_).trans (by omega)
            have := (mem_picks.mp (hp ▸ hk)).1
            omega
        simp only [cellText, hb, flagText, List.length_append, c1, c2, c4, e1']
        omega
    have hb : ∀ b ∈ (List.range (numbers.length + 1)).map fun j => chars " " ++ padRight 35 (cellText indicesText (cell extendOne numbers i j)),
        b.length = 36 := by
      intro b hb
      obtain ⟨j, hj, rfl⟩ := List.mem_map.mp hb
      rw [List.length_append, e1, padRight_length (hcell j (by have := List.mem_range.mp hj; omega))]
    obtain ⟨k1, k2⟩ := flatten_block hb
    have h3 : (padLeft 3 (strInt (i : ℤ))).length = 3 := padLeft_length (strInt_length (by decide) (by omega))
    refine ⟨lineText indicesText extendOne numbers i, ?_, ?_, fun j hj => ?_⟩
    · rw [hsplit]
      simp [List.getElem?_append_left, Nat.lt_succ_of_le hi]
    · rw [lineText, List.length_append, h3, k1]
      simp
    · have hj' : ((List.range (numbers.length + 1)).map fun j => chars " " ++ padRight 35 (cellText indicesText (cell extendOne numbers i j)))[j]? =
          some (chars " " ++ padRight 35 (cellText indicesText (cell extendOne numbers i j))) := by
        simp [Nat.lt_succ_of_le hj]
      constructor
      · rw [lineText, List.getElem?_append_right (by rw [h3]; omega), h3, show 3 + 36 * j - 3 = 36 * j + 0 by omega, k2 j 0 _ hj' (by decide)]
        rfl
      · rw [lineText, List.getElem?_append_right (by rw [h3]; omega), h3, show 4 + 36 * j - 3 = 36 * j + 1 by omega, k2 j 1 _ hj' (by decide)]
        rfl

/-- The table of two numbers. -/
example : (solvePrinting [1, 2] false true).map (fun r => String.ofList r.1) = .ok
    ("dp:\n    0                                   1 (idx=0)                           2 (idx=1)\n" ++
     "  0 (True, [])                          (True, [])                          (True, [])                         \n" ++
     "  1 (False, [])                         (True, [0])                         (True, [0])                        \n") := by
  decide +kernel

/-- Three numbers are aligned. -/
example := C125_aligned (numbers := [3, 1, 2]) (by decide) (by decide)

/-- A choice, and a sum without one. -/
example : Choice [3, 1, 2] 3 3 [1, 2] ∧ Choice [3, 1, 2] 3 1 [0] ∧ ¬ ∃ p, Choice [3, 1, 2] 2 2 p := by
  refine ⟨⟨by decide, by decide, by decide⟩, ⟨by decide, by decide, by decide⟩, ?_⟩
  rw [← shown_flag (extend := extendOne) (by decide)]
  decide

end Sawatabi.Props
